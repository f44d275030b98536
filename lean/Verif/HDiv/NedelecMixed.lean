import Verif.HDiv.TangentialMixed
import Verif.HDiv.NedelecSpace
import Verif.HDiv.RTMixed

/-!
# The space of Nédélec functions of order 1 on grids of simplices and cubes

The functions of the Nédélec basis on a grid of triangles and quadrilaterals or of tetrahedra and hexahedra are exactly the vector fields that are covariant Piola transforms of the fields
of the reference elements (`c + A x` with antisymmetric `A` on simplices; component `j` multilinear in the other coordinates on cubes) and whose components along common edges agree. The elements have
affine or multilinear geometries.
-/

namespace Verif.HDiv.Tangential

open Matrix Verif.Mapper Verif.Lagrange Verif.Piola
open Verif.HDiv.Trace (Inside SamePoint refCorner refCorner_weight refCorner_inside corner position jacobian gridJac unit position_add)
open Verif.Lagrange.Continuity (vertexWeight)

variable {E S K : Type} [Field K] [LinearOrder K] [IsStrictOrderedRing K] {n : Nat}

/-! ## Specification -/

/-- Fields of the reference elements. On simplices `c + A x` with antisymmetric `A`; on squares and cubes, component `j` is a multilinear function of the other coordinates. -/
def RefEdgeField (t : Geo) (g : Vec K (n + 1) → Vec K (n + 1)) : Prop :=
  (t = simplexOf (n + 1) → ∃ (c : Vec K (n + 1)) (A : Mat K (n + 1)), Aᵀ = -A ∧ ∀ x, g x = c + A *ᵥ x) ∧
  (t = cubeOf (n + 1) → ∃ α β γ δ : Vec K (n + 1), (n = 1 → γ = 0 ∧ δ = 0) ∧ ∀ x j, g x j = α j + β j * x (j + 1) + γ j * x (j + 2) + δ j * (x (j + 1) * x (j + 2)))

/-- The field is the covariant Piola transform of a field of the reference element. -/
def CovariantField (t : Geo) (J : Vec K (n + 1) → Mat K (n + 1)) (f : Vec K (n + 1) → Vec K (n + 1)) : Prop :=
  ∃ g, RefEdgeField t g ∧ ∀ x, Inside t x → (J x)ᵀ *ᵥ f x = g x

/-- The vertices are joined by an edge. -/
def Joined (t : Geo) (a b : Nat) : Prop := (a, b) ∈ (refOf t).edges ∨ (b, a) ∈ (refOf t).edges

/-- Points of the edge from vertex `a` to vertex `b` of the reference element. -/
def edgePoint (K : Type) [Field K] (n : Nat) (t : Geo) (a b : Nat) (s : K) : Vec K (n + 1) := refCorner K n t a + s • (refCorner K n t b - refCorner K n t a)

/-- In all points of common edges, the components of the fields of the two elements along the edge agree. -/
def EdgeMatching (G : LGrid E S Nat) (n : Nat) (pos : Nat → Vec K (n + 1)) (f : E → Vec K (n + 1) → Vec K (n + 1)) : Prop :=
  ∀ e e' a b a' b', Joined (G.elemGeo e) a b → Joined (G.elemGeo e') a' b' → G.ids e a = G.ids e' a' → G.ids e b = G.ids e' b' → ∀ s : K, 0 ≤ s → s ≤ 1 →
    f e (edgePoint K n (G.elemGeo e) a b s) ⬝ᵥ (pos (G.ids e b) - pos (G.ids e a)) = f e' (edgePoint K n (G.elemGeo e') a' b' s) ⬝ᵥ (pos (G.ids e b) - pos (G.ids e a))

/-- A conforming grid of simplices and cubes. -/
structure EdgeGrid (G : LGrid E S Nat) (fixed : Option Geo) (n : Nat) : Prop where
  ok : G.OK
  accepted : Accepted G.toGridView fixed
  dim : G.dim = n + 1
  labels : Labels G
  conforming : Conforming G.toGridView

/-- A discrete function of the Nédélec basis. -/
abbrev edgeFunction (G : LGrid E S Nat) (fixed : Option Geo) (geo : E → Geometry K (n + 1)) (vec : Nat → K) (e : E) (x : Vec K (n + 1)) : Option (Vec K (n + 1)) :=
  value G.toGridView fixed nedTable nedKeys geo vec e x

/-! ## Fields of the reference elements -/

theorem nedTypes_cases (hn : n = 1 ∨ n = 2) {t : Geo} (ht : t ∈ nedTypes) (hd : t.dim = n + 1) : t = simplexOf (n + 1) ∨ t = cubeOf (n + 1) := by
  rcases hn with rfl | rfl <;> revert t <;> decide

omit [LinearOrder K] [IsStrictOrderedRing K] in
/-- Vertices of cubes that are joined by an edge differ in one coordinate. -/
theorem cube_edge (hn : n = 1 ∨ n = 2) {a b : Nat} (h : Joined (cubeOf (n + 1)) a b) :
    ∃ (j : Fin (n + 1)) (σ : K), refCorner K n (cubeOf (n + 1)) b - refCorner K n (cubeOf (n + 1)) a = σ • unit K n j := by
  have hm : cubeOf (n + 1) ∈ ([⟨2, 4⟩, ⟨3, 8⟩] : List Geo) := by rcases hn with rfl | rfl <;> decide
  have tab : ∃ j : Fin (n + 1), ∀ i : Fin (n + 1), i ≠ j → a.testBit i = b.testBit i := by
    have key : ∀ p ∈ (refOf (cubeOf (n + 1))).edges, ∃ j : Fin (n + 1), ∀ i : Fin (n + 1), i ≠ j → p.1.testBit i = p.2.testBit i := by rcases hn with rfl | rfl <;> decide
    rcases h with h | h
    · exact key _ h
    · obtain ⟨j, hj⟩ := key _ h
      exact ⟨j, fun i hi => (hj i hi).symm⟩
  obtain ⟨j, hj⟩ := tab
  refine ⟨j, refCorner K n (cubeOf (n + 1)) b j - refCorner K n (cubeOf (n + 1)) a j, ?_⟩
  funext i
  simp only [Pi.sub_apply, Pi.smul_apply, smul_eq_mul, unit]
  by_cases hij : i = j
  · simp [hij]
  · rw [if_neg fun h => hij (Fin.ext h), mul_zero]
    simp only [refCorner, if_pos hm, hj i hij, sub_self]

omit [LinearOrder K] [IsStrictOrderedRing K] in
theorem skew_zero [CharZero K] {A : Mat K (n + 1)} (h : Aᵀ = -A) (s : Vec K (n + 1)) : (A *ᵥ s) ⬝ᵥ s = 0 := by
  have h1 : (A *ᵥ s) ⬝ᵥ s = -((A *ᵥ s) ⬝ᵥ s) := by
    conv_lhs => rw [← Matrix.vecMul_transpose, h, Matrix.vecMul_neg, neg_dotProduct, ← Matrix.dotProduct_mulVec, dotProduct_comm]
  exact self_eq_neg.1 h1

/-- The component of a field of the reference element along an edge is constant on the edge. -/
theorem edge_constant (hn : n = 1 ∨ n = 2) {t : Geo} (ht : t ∈ nedTypes) (hd : t.dim = n + 1) {g : Vec K (n + 1) → Vec K (n + 1)} (hg : RefEdgeField t g) {a b : Nat} (hab : Joined t a b) (s : K) :
    g (edgePoint K n t a b s) ⬝ᵥ (refCorner K n t b - refCorner K n t a) = g (refCorner K n t a) ⬝ᵥ (refCorner K n t b - refCorner K n t a) := by
  rcases nedTypes_cases hn ht hd with rfl | rfl
  · obtain ⟨c, A, hA, hx⟩ := hg.1 rfl
    rw [hx, hx, edgePoint, Matrix.mulVec_add, Matrix.mulVec_smul, ← add_assoc, add_dotProduct, smul_dotProduct, skew_zero hA, smul_zero, add_zero]
  · obtain ⟨α, β, γ, δ, h1, h2⟩ := hg.2 rfl
    obtain ⟨j, σ, hj⟩ := cube_edge (K := K) hn hab
    have hu : ∀ v : Vec K (n + 1), v ⬝ᵥ unit K n j = v j := by
      intro v
      simp [dotProduct, unit, Fin.val_inj]
    rw [edgePoint, hj, dotProduct_smul, dotProduct_smul, hu, hu, h2, h2]
    congr 1
    rcases hn with rfl | rfl
    · obtain ⟨rfl, rfl⟩ := h1 rfl
      have : ((j + 1 : Fin 2).val = j.val) = False := by fin_cases j <;> decide
      simp [unit, this]
    · have e1 : ((j + 1 : Fin 3).val = j.val) = False := by fin_cases j <;> decide
      have e2 : ((j + 2 : Fin 3).val = j.val) = False := by fin_cases j <;> decide
      simp [unit, e1, e2]

omit [LinearOrder K] [IsStrictOrderedRing K] in
/-- Fields given by values on the edges. -/
theorem comp_field (hn : n = 1 ∨ n = 2) {t : Geo} (ht : t ∈ nedTypes) (hd : t.dim = n + 1) (D : Nat → Nat → K) :
    RefEdgeField t (fun x : Vec K (n + 1) => fun j => comp t D x (unit K n j)) ∧ ∀ x s : Vec K (n + 1), comp t D x s = (fun j : Fin (n + 1) => comp t D x (unit K n j)) ⬝ᵥ s := by
  have no : ∀ n, (n = 1 ∨ n = 2) → simplexOf (n + 1) ≠ cubeOf (n + 1) := by rintro n (rfl | rfl) <;> decide
  rcases hn with rfl | rfl
  · rcases nedTypes_cases (Or.inl rfl) ht hd with rfl | rfl
    · refine ⟨⟨fun _ => ⟨![D 0 1, D 0 2], !![0, -D 0 1 + D 0 2 - D 1 2; D 0 1 - D 0 2 + D 1 2, 0], ?_, fun x => ?_⟩, fun h => absurd h (no 1 (Or.inl rfl))⟩, fun x s => ?_⟩
      · ext i j
        fin_cases i <;> fin_cases j <;> simp <;> ring
      · funext j
        refine (triangle_comp D x _).trans ?_
        fin_cases j <;> simp [unit, dotProduct, Fin.sum_univ_succ] <;> ring
      · refine (triangle_comp D x s).trans ?_
        rw [dotProduct, Fin.sum_univ_two]
        erw [triangle_comp, triangle_comp]
        simp [unit]
        ring
    · refine ⟨⟨fun h => absurd h (no 1 (Or.inl rfl)).symm, fun _ => ⟨![D 0 1, D 0 2], ![D 2 3 - D 0 1, D 1 3 - D 0 2], 0, 0, fun _ => ⟨rfl, rfl⟩, fun x j => ?_⟩⟩, fun x s => ?_⟩
      · refine (quadrilateral_comp D x _).trans ?_
        fin_cases j <;> simp [unit] <;> ring
      · refine (quadrilateral_comp D x s).trans ?_
        rw [dotProduct, Fin.sum_univ_two]
        erw [quadrilateral_comp, quadrilateral_comp]
        simp [unit]
  · rcases nedTypes_cases (Or.inr rfl) ht hd with rfl | rfl
    · refine ⟨⟨fun _ => ⟨![D 0 1, D 0 2, D 0 3], !![0, -D 0 1 + D 0 2 - D 1 2, -D 0 1 + D 0 3 - D 1 3; D 0 1 - D 0 2 + D 1 2, 0, -D 0 2 + D 0 3 - D 2 3;
        D 0 1 - D 0 3 + D 1 3, D 0 2 - D 0 3 + D 2 3, 0], ?_, fun x => ?_⟩, fun h => absurd h (no 2 (Or.inr rfl))⟩, fun x s => ?_⟩
      · ext i j
        fin_cases i <;> fin_cases j <;> simp <;> ring
      · funext j
        refine (tetrahedron_comp D x _).trans ?_
        fin_cases j <;> simp [unit, dotProduct, Fin.sum_univ_succ] <;> ring
      · refine (tetrahedron_comp D x s).trans ?_
        rw [dotProduct, Fin.sum_univ_three]
        erw [tetrahedron_comp, tetrahedron_comp, tetrahedron_comp]
        simp [unit]
        ring
    · refine ⟨⟨fun h => absurd h (no 2 (Or.inr rfl)).symm, fun _ => ⟨![D 0 1, D 0 2, D 0 4], ![D 2 3 - D 0 1, D 4 6 - D 0 2, D 1 5 - D 0 4], ![D 4 5 - D 0 1, D 1 3 - D 0 2, D 2 6 - D 0 4],
        ![D 6 7 - D 2 3 - D 4 5 + D 0 1, D 5 7 - D 1 3 - D 4 6 + D 0 2, D 3 7 - D 1 5 - D 2 6 + D 0 4], fun h => absurd h (by decide), fun x j => ?_⟩⟩, fun x s => ?_⟩
      · refine (hexahedron_comp D x _).trans ?_
        fin_cases j <;> simp [unit] <;> ring
      · refine (hexahedron_comp D x s).trans ?_
        rw [dotProduct, Fin.sum_univ_three]
        erw [hexahedron_comp, hexahedron_comp, hexahedron_comp]
        simp [unit]

omit [LinearOrder K] [IsStrictOrderedRing K] in
/-- A field of a reference element is determined by its components along the edges. -/
theorem field_comp [CharZero K] (hn : n = 1 ∨ n = 2) {t : Geo} (ht : t ∈ nedTypes) (hd : t.dim = n + 1) {g : Vec K (n + 1) → Vec K (n + 1)} (hg : RefEdgeField t g) (x s : Vec K (n + 1)) :
    comp t (fun a b => g (refCorner K n t a) ⬝ᵥ (refCorner K n t b - refCorner K n t a)) x s = g x ⬝ᵥ s := by
  have diag : ∀ {A : Mat K (n + 1)}, Aᵀ = -A → (∀ i, A i i = 0) ∧ ∀ i j, A j i = -A i j := by
    intro A hA
    have h : ∀ i j, A j i = -A i j := fun i j => congrFun (congrFun hA i) j
    exact ⟨fun i => self_eq_neg.1 (h i i), h⟩
  rcases hn with rfl | rfl
  · rcases nedTypes_cases (Or.inl rfl) ht hd with rfl | rfl
    · obtain ⟨c, A, hA, hx⟩ := hg.1 rfl
      obtain ⟨d0, d1⟩ := diag hA
      refine (triangle_comp _ x s).trans ?_
      simp only [hx]
      simp [refCorner, simplexOf, Continuity.prismType, corner, Matrix.mulVec, dotProduct, Fin.sum_univ_succ, d0, d1 0 1]
      ring
    · obtain ⟨α, β, γ, δ, h1, h2⟩ := hg.2 rfl
      obtain ⟨rfl, rfl⟩ := h1 rfl
      refine (quadrilateral_comp _ x s).trans ?_
      simp only [dotProduct, h2]
      simp [refCorner, cubeOf, Nat.testBit]
      ring
  · rcases nedTypes_cases (Or.inr rfl) ht hd with rfl | rfl
    · obtain ⟨c, A, hA, hx⟩ := hg.1 rfl
      obtain ⟨d0, d1⟩ := diag hA
      refine (tetrahedron_comp _ x s).trans ?_
      simp only [hx]
      simp [refCorner, simplexOf, Continuity.prismType, corner, Matrix.mulVec, dotProduct, Fin.sum_univ_succ, d0, d1 0 1, d1 0 2, d1 1 2]
      ring
    · obtain ⟨α, β, γ, δ, -, h2⟩ := hg.2 rfl
      refine (hexahedron_comp _ x s).trans ?_
      simp only [dotProduct, h2]
      simp [refCorner, cubeOf, Nat.testBit, Fin.sum_univ_succ]
      ring

omit [LinearOrder K] [IsStrictOrderedRing K] in
theorem comp_congr {t : Geo} {D D' : Nat → Nat → K} (h : ∀ p ∈ (refOf t).edges, D p.1 p.2 = D' p.1 p.2) (x s : Vec K n) : comp t D x s = comp t D' x s := by
  rw [comp, comp]
  congr 1
  apply List.ext_getElem
  · simp
  · intro l h1 h2
    simp only [List.getElem_mapIdx]
    rw [h _ (List.getElem_mem _)]

omit [LinearOrder K] [IsStrictOrderedRing K] in
/-- The component along an edge is the value of the edge. -/
theorem comp_edge (hn : n = 1 ∨ n = 2) {t : Geo} (ht : t ∈ nedTypes) (hd : t.dim = n + 1) (D : Nat → Nat → K) {a b : Nat} (h : (a, b) ∈ (refOf t).edges) :
    comp t D (refCorner K n t a) (refCorner K n t b - refCorner K n t a) = D a b := by
  rcases hn with rfl | rfl
  · rcases nedTypes_cases (Or.inl rfl) ht hd with rfl | rfl
    · refine (triangle_comp _ _ _).trans ?_
      have : (a, b) ∈ [(0, 1), (0, 2), (1, 2)] := h
      simp only [List.mem_cons, List.not_mem_nil, or_false, Prod.mk.injEq] at this
      rcases this with ⟨rfl, rfl⟩ | ⟨rfl, rfl⟩ | ⟨rfl, rfl⟩ <;> simp [refCorner, simplexOf, Continuity.prismType, corner]
    · refine (quadrilateral_comp _ _ _).trans ?_
      have : (a, b) ∈ [(0, 2), (1, 3), (0, 1), (2, 3)] := h
      simp only [List.mem_cons, List.not_mem_nil, or_false, Prod.mk.injEq] at this
      rcases this with ⟨rfl, rfl⟩ | ⟨rfl, rfl⟩ | ⟨rfl, rfl⟩ | ⟨rfl, rfl⟩ <;> simp [refCorner, cubeOf, Nat.testBit]
  · rcases nedTypes_cases (Or.inr rfl) ht hd with rfl | rfl
    · refine (tetrahedron_comp _ _ _).trans ?_
      have : (a, b) ∈ [(0, 1), (0, 2), (1, 2), (0, 3), (1, 3), (2, 3)] := h
      simp only [List.mem_cons, List.not_mem_nil, or_false, Prod.mk.injEq] at this
      rcases this with ⟨rfl, rfl⟩ | ⟨rfl, rfl⟩ | ⟨rfl, rfl⟩ | ⟨rfl, rfl⟩ | ⟨rfl, rfl⟩ | ⟨rfl, rfl⟩ <;> simp [refCorner, simplexOf, Continuity.prismType, corner]
    · refine (hexahedron_comp _ _ _).trans ?_
      have : (a, b) ∈ [(0, 4), (1, 5), (2, 6), (3, 7), (0, 2), (1, 3), (0, 1), (2, 3), (4, 6), (5, 7), (4, 5), (6, 7)] := h
      simp only [List.mem_cons, List.not_mem_nil, or_false, Prod.mk.injEq] at this
      rcases this with ⟨rfl, rfl⟩ | ⟨rfl, rfl⟩ | ⟨rfl, rfl⟩ | ⟨rfl, rfl⟩ | ⟨rfl, rfl⟩ | ⟨rfl, rfl⟩ | ⟨rfl, rfl⟩ | ⟨rfl, rfl⟩ | ⟨rfl, rfl⟩ | ⟨rfl, rfl⟩ | ⟨rfl, rfl⟩ |
        ⟨rfl, rfl⟩ <;> simp [refCorner, cubeOf, Nat.testBit]

/-! ## Edges of elements -/

theorem ned_supported {t : Geo} (ht : t ∈ nedTypes) (hd : t.dim = n + 1) : Continuity.Supported (n + 1) t := by
  have : ∀ t ∈ nedTypes, t ∈ elemTypes ∧ t ≠ ⟨3, 5⟩ := by decide
  exact ⟨(this t ht).1, hd, (this t ht).2⟩

theorem joined_lt {t : Geo} (ht : t ∈ nedTypes) {a b : Nat} (h : Joined t a b) : a < t.nv ∧ b < t.nv ∧ a ≠ b := by
  have key : ∀ t ∈ nedTypes, ∀ p ∈ (refOf t).edges, p.1 < t.nv ∧ p.2 < t.nv ∧ p.1 ≠ p.2 := by decide
  rcases h with h | h
  · exact key t ht _ h
  · exact ⟨(key t ht _ h).2.1, (key t ht _ h).1, (key t ht _ h).2.2.symm⟩

theorem Joined.symm {t : Geo} {a b : Nat} (h : Joined t a b) : Joined t b a := Or.symm h

omit [LinearOrder K] [IsStrictOrderedRing K] in
theorem position_corner {m : Nat} (hn : n = 1 ∨ n = 2) {t : Geo} (ht : Continuity.Supported (n + 1) t) (p : Nat → Vec K m) {v : Nat} (hv : v < t.nv) :
    position t p (refCorner K n t v) = p v := by
  rw [position, Finset.sum_eq_single ⟨v, hv⟩]
  · rw [refCorner_weight hn ht hv hv, if_pos rfl, one_smul]
  · intro w _ hw
    rw [refCorner_weight hn ht hv w.2, if_neg fun h => hw (Fin.ext h), zero_smul]
  · simp

omit [LinearOrder K] [IsStrictOrderedRing K] in
theorem simplex_position {m : Nat} (hn : n = 1 ∨ n = 2) (p : Nat → Vec K m) (x : Vec K (n + 1)) :
    position (simplexOf (n + 1)) p x = (1 - ∑ i, x i) • p 0 + ∑ i : Fin (n + 1), x i • p (i + 1) := by
  have h2 : ∀ x : Vec K 2, position ⟨2, 3⟩ p x = (1 - ∑ i, x i) • p 0 + ∑ i : Fin 2, x i • p (i + 1) := by
    intro x
    simp [position, Fin.sum_univ_succ, vertexWeight, bary, Continuity.prismType]
  have h3 : ∀ x : Vec K 3, position ⟨3, 4⟩ p x = (1 - ∑ i, x i) • p 0 + ∑ i : Fin 3, x i • p (i + 1) := by
    intro x
    simp [position, Fin.sum_univ_succ, vertexWeight, bary, Continuity.prismType]
  rcases hn with rfl | rfl
  · exact h2 x
  · exact h3 x

omit [LinearOrder K] [IsStrictOrderedRing K] in
theorem simplex_jac {m : Nat} (hn : n = 1 ∨ n = 2) (p : Nat → Vec K m) (x : Vec K (n + 1)) (d : Fin m) (j : Fin (n + 1)) :
    jacobian (simplexOf (n + 1)) p x d j = p (j + 1) d - p 0 d := by
  rw [jacobian, Matrix.of_apply, simplex_position hn, simplex_position hn]
  have hs : ∑ i, (x + unit K n j) i = ∑ i, x i + 1 := by
    simp only [Pi.add_apply, Finset.sum_add_distrib]
    simp [unit, Fin.val_inj]
  have hv : ∑ i : Fin (n + 1), ((x + unit K n j) i • p (i + 1)) = ∑ i : Fin (n + 1), (x i • p (i + 1)) + p (j + 1) := by
    simp only [Pi.add_apply, add_smul, Finset.sum_add_distrib]
    simp [unit, Fin.val_inj]
  rw [hs, hv]
  simp only [Pi.add_apply, Pi.smul_apply, smul_eq_mul]
  ring

omit [LinearOrder K] [IsStrictOrderedRing K] in
/-- The Jacobian transforms the edges of the reference element to the edges of the element. -/
theorem jac_edge {m : Nat} (hn : n = 1 ∨ n = 2) {t : Geo} (ht : t ∈ nedTypes) (hd : t.dim = n + 1) (p : Nat → Vec K m) {a b : Nat} (hab : Joined t a b) (s : K) :
    jacobian t p (edgePoint K n t a b s) *ᵥ (refCorner K n t b - refCorner K n t a) = p b - p a := by
  have hsup := ned_supported ht hd
  obtain ⟨la, lb, -⟩ := joined_lt ht hab
  rcases nedTypes_cases hn ht hd with rfl | rfl
  · have hp : position (simplexOf (n + 1)) p (refCorner K n (simplexOf (n + 1)) b) - position (simplexOf (n + 1)) p (refCorner K n (simplexOf (n + 1)) a) = p b - p a := by
      rw [position_corner hn hsup p la, position_corner hn hsup p lb]
    rw [← hp, simplex_position hn, simplex_position hn]
    generalize refCorner K n (simplexOf (n + 1)) a = y
    generalize refCorner K n (simplexOf (n + 1)) b = z
    funext d
    simp only [Matrix.mulVec, dotProduct, simplex_jac hn, Pi.sub_apply, Pi.add_apply, Pi.smul_apply, Finset.sum_apply, smul_eq_mul]
    have e1 : ∀ y : Vec K (n + 1), ∑ i : Fin (n + 1), (p (i + 1) d - p 0 d) * y i = ∑ i : Fin (n + 1), y i * p (i + 1) d - (∑ i, y i) * p 0 d := by
      intro y
      rw [Finset.sum_mul, ← Finset.sum_sub_distrib]
      exact Finset.sum_congr rfl fun i _ => by ring
    rw [Finset.sum_congr rfl fun i _ => mul_sub _ (z i) (y i), Finset.sum_sub_distrib, e1, e1]
    ring
  · obtain ⟨j, σ, hj⟩ := cube_edge (K := K) hn hab
    have h1 := position_add hn hsup p (edgePoint K n (cubeOf (n + 1)) a b s) j (-s * σ)
    have h2 := position_add hn hsup p (edgePoint K n (cubeOf (n + 1)) a b s) j ((1 - s) * σ)
    have e1 : edgePoint K n (cubeOf (n + 1)) a b s + (-s * σ) • unit K n j = refCorner K n (cubeOf (n + 1)) a := by
      rw [edgePoint, mul_smul, ← hj]
      module
    have e2 : edgePoint K n (cubeOf (n + 1)) a b s + ((1 - s) * σ) • unit K n j = refCorner K n (cubeOf (n + 1)) b := by
      rw [edgePoint, mul_smul, ← hj]
      module
    rw [e1, position_corner hn hsup p la] at h1
    rw [e2, position_corner hn hsup p lb] at h2
    rw [h1, h2, hj, Matrix.mulVec_smul]
    have : jacobian (cubeOf (n + 1)) p (edgePoint K n (cubeOf (n + 1)) a b s) *ᵥ unit K n j = fun d => jacobian (cubeOf (n + 1)) p (edgePoint K n (cubeOf (n + 1)) a b s) d j := by
      funext d
      simp [Matrix.mulVec, dotProduct, unit, Fin.val_inj]
    rw [this]
    module

omit [LinearOrder K] [IsStrictOrderedRing K] in
theorem edgePoint_zero (t : Geo) (a b : Nat) : edgePoint K n t a b 0 = refCorner K n t a := by simp [edgePoint]

omit [LinearOrder K] [IsStrictOrderedRing K] in
/-- Points of edges are points of the reference element; the weights of other vertices vanish. -/
theorem edgePoint_weight (hn : n = 1 ∨ n = 2) {t : Geo} (ht : t ∈ nedTypes) (hd : t.dim = n + 1) {a b : Nat} (hab : Joined t a b) (s : K) {v : Nat} (hv : v < t.nv) :
    vertexWeight t v (edgePoint K n t a b s) = if v = a then 1 - s else if v = b then s else 0 := by
  have hsup := ned_supported ht hd
  obtain ⟨la, lb, hne⟩ := joined_lt ht hab
  have hp : vertexWeight t v (edgePoint K n t a b s) = position (m := 1) t (fun w _ => if w = v then 1 else 0) (edgePoint K n t a b s) 0 := by
    rw [position, Finset.sum_eq_single ⟨v, hv⟩]
    · simp
    · intro w _ hw
      funext i
      simp only [Pi.smul_apply, if_neg fun h : w.val = v => hw (Fin.ext h), smul_zero, Pi.zero_apply]
    · simp
  have hlin : position (m := 1) t (fun w _ => if w = v then (1 : K) else 0) (edgePoint K n t a b s) =
      (1 - s) • (fun _ => if a = v then (1 : K) else 0) + s • fun _ => if b = v then (1 : K) else 0 := by
    set p : Nat → Vec K 1 := fun w _ => if w = v then (1 : K) else 0 with hpdef
    rcases nedTypes_cases hn ht hd with rfl | rfl
    · have key : ∀ x y : Vec K (n + 1), position (simplexOf (n + 1)) p (x + s • (y - x)) = (1 - s) • position (simplexOf (n + 1)) p x + s • position (simplexOf (n + 1)) p y := by
        intro x y
        rw [simplex_position hn, simplex_position hn, simplex_position hn]
        simp only [Pi.add_apply, Pi.smul_apply, Pi.sub_apply, smul_eq_mul, Finset.sum_add_distrib, add_smul, mul_smul, sub_smul, smul_sub, Finset.sum_sub_distrib, ← Finset.mul_sum, ← Finset.smul_sum,
          smul_add, one_smul]
        module
      rw [edgePoint, key, position_corner hn hsup p la, position_corner hn hsup p lb]
    · obtain ⟨j, σ, hj⟩ := cube_edge (K := K) hn hab
      have h1 := position_add hn hsup p (refCorner K n (cubeOf (n + 1)) a) j (s * σ)
      have h2 := position_add hn hsup p (refCorner K n (cubeOf (n + 1)) a) j σ
      rw [← hj, add_sub_cancel, position_corner hn hsup p la, position_corner hn hsup p lb] at h2
      rw [mul_smul, ← hj, position_corner hn hsup p la] at h1
      change position _ p (edgePoint K n _ a b s) = _ at h1
      rw [h1]
      change _ = (1 - s) • p a + s • p b
      rw [h2]
      module
  rw [hp, hlin]
  simp only [Pi.add_apply, Pi.smul_apply, smul_eq_mul, mul_ite, mul_one, mul_zero]
  by_cases h1 : v = a
  · subst h1
    rw [if_pos rfl, if_neg hne.symm, if_pos rfl, add_zero]
  · rw [if_neg (Ne.symm h1), if_neg h1, zero_add]
    simp only [eq_comm]

theorem edgePoint_inside (hn : n = 1 ∨ n = 2) {t : Geo} (ht : t ∈ nedTypes) (hd : t.dim = n + 1) {a b : Nat} (hab : Joined t a b) {s : K} (h0 : 0 ≤ s) (h1 : s ≤ 1) :
    Inside t (edgePoint K n t a b s) := by
  intro v hv
  rw [edgePoint_weight hn ht hd hab s hv]
  split
  · linarith
  · split
    · exact h0
    · exact le_rfl

/-- The component of the field with antisymmetric edge values along an edge. -/
theorem comp_joined (hn : n = 1 ∨ n = 2) {t : Geo} (ht : t ∈ nedTypes) (hd : t.dim = n + 1) {D : Nat → Nat → K} (hD : ∀ a b, D b a = -D a b) {a b : Nat} (hab : Joined t a b) (s : K) :
    comp t D (edgePoint K n t a b s) (refCorner K n t b - refCorner K n t a) = D a b := by
  obtain ⟨h1, h2⟩ := comp_field (K := K) hn ht hd D
  rw [h2]
  rcases hab with h | h
  · have := edge_constant hn ht hd h1 (Or.inl h) s
    refine this.trans ?_
    rw [← h2, comp_edge hn ht hd D h]
  · have he : edgePoint K n t a b s = edgePoint K n t b a (1 - s) := by
      simp only [edgePoint]
      module
    have := edge_constant hn ht hd h1 (Or.inl h) (1 - s)
    rw [← h2 (refCorner K n t b), comp_edge hn ht hd D h] at this
    rw [he, ← neg_sub (refCorner K n t a), dotProduct_neg, this, hD, neg_neg]

/-! ## Indices -/

/-- The index of the degree of freedom of edge `l` of the element `e`. -/
abbrev edgeIndex (G : LGrid E S Nat) (e : E) (l : Nat) : Nat := mapperIndex G.toGridView nedelecLayout (G.sub e (G.dim - 1) l)

theorem grid_type {G : LGrid E S Nat} {fixed : Option Geo} (hG : EdgeGrid G fixed n) (e : E) : G.elemGeo e ∈ nedTypes ∧ (G.elemGeo e).dim = n + 1 :=
  ⟨accepted_type hG.accepted e, (hG.ok.base.elemMem e).2.trans hG.dim⟩

theorem grid_edges {G : LGrid E S Nat} {fixed : Option Geo} (hn : n = 1 ∨ n = 2) (hG : EdgeGrid G fixed n) (e : E) : ∀ l < (refOf (G.elemGeo e)).edges.length,
    0 < nedelecLayout (G.geo (G.sub e (G.dim - 1) l)) := by
  intro l hl
  have tab : ∀ t ∈ nedTypes, t.dim = n + 1 → ∀ l < (refOf t).edges.length, ∃ h : l < (stdSubs t n).length, 0 < nedelecLayout (stdSubs t n)[l] := by rcases hn with rfl | rfl <;> decide
  obtain ⟨h1, h2⟩ := tab _ (grid_type hG e).1 (grid_type hG e).2 l hl
  rw [hG.dim, Nat.add_sub_cancel, hG.ok.base.subGeo e n l _ (by rw [hG.ok.std]; exact List.getElem?_eq_getElem h1)]
  exact h2

theorem edgeIndex_inj {G : LGrid E S Nat} {fixed : Option Geo} (hn : n = 1 ∨ n = 2) (hG : EdgeGrid G fixed n) {e e' : E} {l l' : Nat} (hl : l < (refOf (G.elemGeo e)).edges.length)
    (hl' : l' < (refOf (G.elemGeo e')).edges.length) (h : edgeIndex G e l = edgeIndex G e' l') : G.sub e (G.dim - 1) l = G.sub e' (G.dim - 1) l' :=
  ((mapper_inj hG.ok.base nedelecLayout _ _ 0 0 (grid_edges hn hG e l hl) (grid_edges hn hG e' l' hl')).1 (by simpa using h)).1

/-- Every index belongs to an edge. -/
theorem edgeIndex_surj {G : LGrid E S Nat} {fixed : Option Geo} (hn : n = 1 ∨ n = 2) (hG : EdgeGrid G fixed n) {m : Nat} (hm : m < mapperSize G.toGridView nedelecLayout) :
    ∃ e l, l < (refOf (G.elemGeo e)).edges.length ∧ m = edgeIndex G e l := by
  obtain ⟨s, j, hj, rfl⟩ := mapper_surj hG.ok.base nedelecLayout m hm
  obtain ⟨e, c, i, hc, hi, rfl⟩ := hG.ok.base.subSurj s
  rw [hG.dim] at hc
  rw [hG.ok.std] at hi
  rw [hG.ok.base.subGeo e c i _ (by rw [hG.ok.std]; exact List.getElem?_eq_getElem hi)] at hj
  have tab : ∀ t ∈ nedTypes, t.dim = n + 1 → ∀ c < n + 2, ∀ u ∈ stdSubs t c, nedelecLayout u = if c = n then 1 else 0 := by rcases hn with rfl | rfl <;> decide
  have len : ∀ t ∈ nedTypes, t.dim = n + 1 → (stdSubs t n).length = (refOf t).edges.length := by rcases hn with rfl | rfl <;> decide
  obtain ⟨t1, t2⟩ := grid_type hG e
  rw [tab _ t1 t2 c (by omega) _ (List.getElem_mem _)] at hj
  obtain rfl : c = n := by
    by_contra h
    rw [if_neg h] at hj
    omega
  rw [if_pos rfl] at hj
  obtain rfl : j = 0 := by omega
  refine ⟨e, i, by rw [← len _ t1 t2]; exact hi, ?_⟩
  rw [edgeIndex, hG.dim]
  rfl

/-- The same vertex has the same name in all elements. -/
theorem ids_same {G : LGrid E S Nat} {fixed : Option Geo} (hn : n = 1 ∨ n = 2) (hG : EdgeGrid G fixed n) {e e' : E} {v v' : Nat} (hv : v < (G.elemGeo e).nv) (hv' : v' < (G.elemGeo e').nv)
    (h : G.sub e G.dim v = G.sub e' G.dim v') : G.ids e v = G.ids e' v' := by
  have tab : ∀ t ∈ nedTypes, t.dim = n + 1 → ∀ v < t.nv, v < (stdSubs t (n + 1)).length ∧ (subVerts (refOf t) (n + 1)).getD v [] = [v] := by rcases hn with rfl | rfl <;> decide
  obtain ⟨a1, a2⟩ := tab _ (grid_type hG e).1 (grid_type hG e).2 v hv
  obtain ⟨b1, b2⟩ := tab _ (grid_type hG e').1 (grid_type hG e').2 v' hv'
  have := hG.ok.vertsSame e ⟨v, n + 1, 0⟩ e' ⟨v', n + 1, 0⟩ (by rw [hG.ok.std]; exact a1) (by rw [hG.ok.std]; exact b1) (by rw [← hG.dim]; exact h) (G.ids e v)
  simpa [LGrid.verts, a2, b2, -List.getD_eq_getElem?_getD] using this

omit [LinearOrder K] [IsStrictOrderedRing K] in
/-- Numbers that belong to edges with directions, can be collected in a vector. -/
theorem exists_edgeVec {G : LGrid E S Nat} {fixed : Option Geo} (hn : n = 1 ∨ n = 2) (hG : EdgeGrid G fixed n) (M : E → Nat → Nat → K)
    (hM : ∀ e a b, Joined (G.elemGeo e) a b → M e b a = -M e a b)
    (hsame : ∀ e e' a b a' b', Joined (G.elemGeo e) a b → Joined (G.elemGeo e') a' b' → G.ids e a = G.ids e' a' → G.ids e b = G.ids e' b' → M e a b = M e' a' b') :
    ∃ vec : Nat → K, ∀ e, ∀ p ∈ (refOf (G.elemGeo e)).edges, edgeValue G.toGridView vec e p.1 p.2 = M e p.1 p.2 := by
  classical
  let sgn : E → Nat → Nat → K := fun e a b =>
    if vertexIndex G.toGridView e a < vertexIndex G.toGridView e b then 1 else if vertexIndex G.toGridView e b < vertexIndex G.toGridView e a then -1 else 0
  let P : Nat → E × Nat × Nat × Nat → Prop := fun m q => (refOf (G.elemGeo q.1)).edges[q.2.1]? = some (q.2.2.1, q.2.2.2) ∧ m = edgeIndex G q.1 q.2.1
  let vec : Nat → K := fun m => if h : ∃ q, P m q then sgn h.choose.1 h.choose.2.2.1 h.choose.2.2.2 * M h.choose.1 h.choose.2.2.1 h.choose.2.2.2 else 0
  refine ⟨vec, fun e p hp => ?_⟩
  obtain ⟨l, hl, hlp⟩ := List.getElem_of_mem hp
  obtain ⟨a, b⟩ := p
  have he : (refOf (G.elemGeo e)).edges[l]? = some (a, b) := by rw [List.getElem?_eq_getElem hl, hlp]
  have hno := (edge_sorted (grid_type hG e).1 l hl _ he).2
  simp only at hno ⊢
  have hex : ∃ q, P (edgeIndex G e l) q := ⟨(e, l, a, b), he, rfl⟩
  have hvec : vec (edgeIndex G e l) = sgn hex.choose.1 hex.choose.2.2.1 hex.choose.2.2.2 * M hex.choose.1 hex.choose.2.2.1 hex.choose.2.2.2 := dif_pos hex
  obtain ⟨q1, q2⟩ := hex.choose_spec
  revert hvec q1 q2
  generalize hex.choose = q
  obtain ⟨e', l', a', b'⟩ := q
  intro hvec q1 q2
  simp only at hvec q1 q2
  have hl' : l' < (refOf (G.elemGeo e')).edges.length := (List.getElem?_eq_some_iff.1 q1).1
  have hab : Joined (G.elemGeo e) a b := Or.inl hp
  have hab' : Joined (G.elemGeo e') a' b' := Or.inl (List.mem_of_getElem? q1)
  obtain ⟨la, lb, hne⟩ := joined_lt (grid_type hG e).1 hab
  obtain ⟨la', lb', -⟩ := joined_lt (grid_type hG e').1 hab'
  have hvi : vertexIndex G.toGridView e a ≠ vertexIndex G.toGridView e b := fun h => hne (vertex_inj hG.accepted e a la b lb h)
  have sq : sgn e a b * sgn e a b = 1 := by
    simp only [sgn]
    rcases Nat.lt_or_gt_of_ne hvi with h | h
    · rw [if_pos h, one_mul]
    · rw [if_neg (not_lt.2 h.le), if_pos h]
      ring
  have sw : sgn e b a = -sgn e a b := by
    simp only [sgn]
    rcases Nat.lt_or_gt_of_ne hvi with h | h
    · rw [if_pos h, if_neg (not_lt.2 h.le), if_pos h]
    · rw [if_pos h, if_neg (not_lt.2 h.le), if_pos h, neg_neg]
  have hval : edgeValue G.toGridView vec e a b = sgn e a b * (sgn e' a' b' * M e' a' b') := by
    rw [← hvec, edgeValue, hno]
  rw [hval]
  rcases (hG.conforming e e' l l' a b a' b' he q1).1 (edgeIndex_inj hn hG hl hl' q2) with ⟨s1, s2⟩ | ⟨s1, s2⟩
  · have i1 := ids_same hn hG la la' s1
    have i2 := ids_same hn hG lb lb' s2
    have v1 : vertexIndex G.toGridView e' a' = vertexIndex G.toGridView e a := congrArg G.idx s1.symm
    have v2 : vertexIndex G.toGridView e' b' = vertexIndex G.toGridView e b := congrArg G.idx s2.symm
    have : sgn e' a' b' = sgn e a b := by simp only [sgn, v1, v2]
    rw [this, ← mul_assoc, sq, one_mul, hsame e e' a b a' b' hab hab' i1 i2]
  · have i1 := ids_same hn hG la lb' s1
    have i2 := ids_same hn hG lb la' s2
    have v1 : vertexIndex G.toGridView e' b' = vertexIndex G.toGridView e a := congrArg G.idx s1.symm
    have v2 : vertexIndex G.toGridView e' a' = vertexIndex G.toGridView e b := congrArg G.idx s2.symm
    have : sgn e' a' b' = -sgn e a b := by
      rw [← sw]
      simp only [sgn, v1, v2]
    rw [this, ← hsame e e' b a a' b' hab.symm hab' i2 i1, hM e a b hab]
    linear_combination M e a b * sq

/-! ## Theorems -/

omit [LinearOrder K] [IsStrictOrderedRing K] in
theorem dot_unit (J : Mat K (n + 1)) (v : Vec K (n + 1)) (j : Fin (n + 1)) : (Jᵀ *ᵥ v) j = v ⬝ᵥ (J *ᵥ unit K n j) := by
  simp [Matrix.mulVec, dotProduct, unit, Fin.val_inj, mul_comm]

omit [LinearOrder K] [IsStrictOrderedRing K] in
theorem dot_transpose (J : Mat K (n + 1)) (v s : Vec K (n + 1)) : v ⬝ᵥ (J *ᵥ s) = (Jᵀ *ᵥ v) ⬝ᵥ s := by
  rw [Matrix.dotProduct_mulVec, Matrix.mulVec_transpose]

/-- The component of a discrete function along an edge. -/
theorem edge_component (hn : n = 1 ∨ n = 2) {G : LGrid E S Nat} {fixed : Option Geo} (hG : EdgeGrid G fixed n) (pos : Nat → Vec K (n + 1)) {geo : E → Geometry K (n + 1)} (vec : Nat → K) (e : E)
    {a b : Nat} (hab : Joined (G.elemGeo e) a b) (s : K) (hJ : (geo e).OK (gridJac G pos e (edgePoint K n (G.elemGeo e) a b s)) (edgePoint K n (G.elemGeo e) a b s)) :
    ∃ v, edgeFunction G fixed geo vec e (edgePoint K n (G.elemGeo e) a b s) = some v ∧ v ⬝ᵥ (pos (G.ids e b) - pos (G.ids e a)) = edgeValue G.toGridView vec e a b := by
  obtain ⟨t1, t2⟩ := grid_type hG e
  obtain ⟨v, h1, h2⟩ := ned_value hG.accepted hG.dim geo vec e hJ
  refine ⟨v, h1, ?_⟩
  have h := h2 (refCorner K n (G.elemGeo e) b - refCorner K n (G.elemGeo e) a)
  rw [comp_joined hn t1 t2 (fun a b => edgeValue_swap _ _ _ _ _) hab s, gridJac, jac_edge hn t1 t2 _ hab s] at h
  exact h

/-- **C103: space.** On every conforming grid of triangles and quadrilaterals or of tetrahedra and hexahedra with affine or multilinear geometries, a family of vector fields on the elements is a
function of the Nédélec basis if and only if it is on each element the covariant Piola transform of a field of the reference element (`c + A x` with antisymmetric `A` on simplices, component `j`
multilinear in the other coordinates on cubes) and its components along common edges agree. -/
theorem C103_space (hn : n = 1 ∨ n = 2) {G : LGrid E S Nat} {fixed : Option Geo} (hG : EdgeGrid G fixed n) {pos : Nat → Vec K (n + 1)} {geo : E → Geometry K (n + 1)}
    (hgeo : ∀ e x, Inside (G.elemGeo e) x → (geo e).OK (gridJac G pos e x) x) (f : E → Vec K (n + 1) → Vec K (n + 1)) :
    (∃ vec, ∀ e x, Inside (G.elemGeo e) x → edgeFunction G fixed geo vec e x = some (f e x)) ↔
      (∀ e, CovariantField (G.elemGeo e) (gridJac G pos e) (f e)) ∧ EdgeMatching G n pos f := by
  constructor
  · rintro ⟨vec, hv⟩
    constructor
    · intro e
      obtain ⟨t1, t2⟩ := grid_type hG e
      refine ⟨_, (comp_field hn t1 t2 (edgeValue G.toGridView vec e)).1, fun x hx => ?_⟩
      obtain ⟨v, h1, h2⟩ := ned_value hG.accepted hG.dim geo vec e (hgeo e x hx)
      have := Option.some.inj ((hv e x hx).symm.trans h1)
      funext j
      rw [this, dot_unit, h2]
    · intro e e' a b a' b' hab hab' i1 i2 s h0 h1
      obtain ⟨t1, t2⟩ := grid_type hG e
      obtain ⟨t1', t2'⟩ := grid_type hG e'
      have hin := edgePoint_inside hn t1 t2 hab h0 h1
      have hin' := edgePoint_inside hn t1' t2' hab' h0 h1
      obtain ⟨v, q1, q2⟩ := edge_component hn hG pos vec e hab s (hgeo e _ hin)
      obtain ⟨v', q1', q2'⟩ := edge_component hn hG pos vec e' hab' s (hgeo e' _ hin')
      obtain rfl := Option.some.inj ((hv e _ hin).symm.trans q1)
      obtain rfl := Option.some.inj ((hv e' _ hin').symm.trans q1')
      obtain ⟨la, lb, -⟩ := joined_lt t1 hab
      obtain ⟨la', lb', -⟩ := joined_lt t1' hab'
      have no : ∀ t a b, Joined t a b → edgeNo t a b < (refOf t).edges.length := by
        intro t a b h
        refine List.findIdx_lt_length_of_exists ?_
        rcases h with h | h
        · exact ⟨_, h, by simp⟩
        · exact ⟨_, h, by simp⟩
      rw [q2, i1, i2, q2']
      exact edgeValue_same hG.labels hG.conforming vec (no _ _ _ hab) (no _ _ _ hab') la lb la' lb' i1 i2
  · rintro ⟨hc, hm⟩
    choose g hg hgf using hc
    have key : ∀ e a b, Joined (G.elemGeo e) a b → f e (refCorner K n (G.elemGeo e) a) ⬝ᵥ (pos (G.ids e b) - pos (G.ids e a)) =
        g e (refCorner K n (G.elemGeo e) a) ⬝ᵥ (refCorner K n (G.elemGeo e) b - refCorner K n (G.elemGeo e) a) := by
      intro e a b hab
      obtain ⟨t1, t2⟩ := grid_type hG e
      have h := jac_edge hn t1 t2 (fun v => pos (G.ids e v)) hab 0
      rw [edgePoint_zero] at h
      rw [← hgf e _ (refCorner_inside hn (ned_supported t1 t2) (joined_lt t1 hab).1), ← dot_transpose, gridJac, h]
    obtain ⟨vec, hvec⟩ := exists_edgeVec hn hG (fun e a b => g e (refCorner K n (G.elemGeo e) a) ⬝ᵥ (refCorner K n (G.elemGeo e) b - refCorner K n (G.elemGeo e) a))
      (by
        intro e a b hab
        obtain ⟨t1, t2⟩ := grid_type hG e
        have := edge_constant hn t1 t2 (hg e) hab 1
        rw [show edgePoint K n (G.elemGeo e) a b 1 = refCorner K n (G.elemGeo e) b by simp [edgePoint]] at this
        rw [← this, ← dotProduct_neg, neg_sub])
      (by
        intro e e' a b a' b' hab hab' i1 i2
        rw [← key e a b hab, ← key e' a' b' hab', ← i1, ← i2]
        have := hm e e' a b a' b' hab hab' i1 i2 0 le_rfl zero_le_one
        rwa [edgePoint_zero, edgePoint_zero] at this)
    refine ⟨vec, fun e x hx => ?_⟩
    obtain ⟨t1, t2⟩ := grid_type hG e
    obtain ⟨v, h1, h2⟩ := ned_value hG.accepted hG.dim geo vec e (hgeo e x hx)
    rw [edgeFunction, h1, Option.some.injEq]
    refine eq_of_components (hgeo e x hx).nondeg fun s => ?_
    rw [h2, comp_congr (D' := fun a b => g e (refCorner K n (G.elemGeo e) a) ⬝ᵥ (refCorner K n (G.elemGeo e) b - refCorner K n (G.elemGeo e) a)) (hvec e), field_comp hn t1 t2 (hg e), dot_transpose, hgf e x hx]

/-- **C103: edges.** The component of a function along an edge, in every point of the edge, is the coefficient of the edge, with the sign of the direction from the vertex with the smaller index
to the other. -/
theorem C103_edge (hn : n = 1 ∨ n = 2) {G : LGrid E S Nat} {fixed : Option Geo} (hG : EdgeGrid G fixed n) {pos : Nat → Vec K (n + 1)} {geo : E → Geometry K (n + 1)}
    (hgeo : ∀ e x, Inside (G.elemGeo e) x → (geo e).OK (gridJac G pos e x) x) (vec : Nat → K) (e : E) {l a b : Nat} (hl : (refOf (G.elemGeo e)).edges[l]? = some (a, b)) {s : K} (h0 : 0 ≤ s)
    (h1 : s ≤ 1) :
    ∃ v, edgeFunction G fixed geo vec e (edgePoint K n (G.elemGeo e) a b s) = some v ∧
      v ⬝ᵥ (pos (G.ids e b) - pos (G.ids e a)) = (if vertexIndex G.toGridView e a < vertexIndex G.toGridView e b then 1 else -1) * vec (edgeIndex G e l) := by
  obtain ⟨t1, t2⟩ := grid_type hG e
  have hab : Joined (G.elemGeo e) a b := Or.inl (List.mem_of_getElem? hl)
  obtain ⟨v, q1, q2⟩ := edge_component hn hG pos vec e hab s (hgeo e _ (edgePoint_inside hn t1 t2 hab h0 h1))
  refine ⟨v, q1, q2.trans ?_⟩
  obtain ⟨la, lb, hne⟩ := joined_lt t1 hab
  have hvi : vertexIndex G.toGridView e a ≠ vertexIndex G.toGridView e b := fun h => hne (vertex_inj hG.accepted e a la b lb h)
  rw [edgeValue, (edge_sorted t1 l (List.getElem?_eq_some_iff.1 hl).1 _ hl).2]
  rcases Nat.lt_or_gt_of_ne hvi with h | h
  · rw [if_pos h, if_pos h]
  · rw [if_neg (not_lt.2 h.le), if_neg (not_lt.2 h.le), if_pos h]

/-- **C103: coefficients.** The coefficients of a function are unique. -/
theorem C103_unique (hn : n = 1 ∨ n = 2) {G : LGrid E S Nat} {fixed : Option Geo} (hG : EdgeGrid G fixed n) {pos : Nat → Vec K (n + 1)} {geo : E → Geometry K (n + 1)}
    (hgeo : ∀ e x, Inside (G.elemGeo e) x → (geo e).OK (gridJac G pos e x) x) (vec vec' : Nat → K)
    (heq : ∀ e x, Inside (G.elemGeo e) x → edgeFunction G fixed geo vec e x = edgeFunction G fixed geo vec' e x) :
    ∀ m < (mapperLeaf G.toGridView nedelecLayout fun e => nedKeys (G.elemGeo e)).dim, vec m = vec' m := by
  intro m hm
  obtain ⟨e, l, hl, rfl⟩ := edgeIndex_surj hn hG hm
  obtain ⟨t1, t2⟩ := grid_type hG e
  obtain ⟨⟨a, b⟩, hab⟩ : ∃ p, (refOf (G.elemGeo e)).edges[l]? = some p := ⟨_, List.getElem?_eq_getElem hl⟩
  obtain ⟨v, h1, h2⟩ := C103_edge hn hG hgeo vec e hab le_rfl zero_le_one
  obtain ⟨v', h1', h2'⟩ := C103_edge hn hG hgeo vec' e hab le_rfl zero_le_one
  rw [heq e _ (edgePoint_inside hn t1 t2 (Or.inl (List.mem_of_getElem? hab)) le_rfl zero_le_one), h1', Option.some.injEq] at h1
  rw [h1, h2] at h2'
  split at h2'
  · linear_combination h2'
  · linear_combination -h2'

/-- **C103: facets.** If the components of the fields along common edges agree, then all tangential components agree in all points of common facets. -/
theorem C103_facet (hn : n = 1 ∨ n = 2) {G : LGrid E S Nat} {fixed : Option Geo} (hG : EdgeGrid G fixed n) {pos : Nat → Vec K (n + 1)}
    (hreg : ∀ e x, Inside (G.elemGeo e) x → (gridJac G pos e x).det ≠ 0) {f : E → Vec K (n + 1) → Vec K (n + 1)}
    (hf : ∀ e, CovariantField (G.elemGeo e) (gridJac G pos e) (f e)) (hm : EdgeMatching G n pos f) {e e' : E} {i i' : Nat} (hi : i < numFacets (G.elemGeo e))
    (hi' : i' < numFacets (G.elemGeo e')) (hs : G.sub e 1 i = G.sub e' 1 i') {x x' : Vec K (n + 1)} (hin : Inside (G.elemGeo e) x) (hin' : Inside (G.elemGeo e') x')
    (hx : (Trace.facetOf K n (G.elemGeo e) i).On x) (hx' : (Trace.facetOf K n (G.elemGeo e') i').On x') (hxx : SamePoint G e e' x x') (k : Fin n) :
    f e x ⬝ᵥ (gridJac G pos e x *ᵥ (Trace.facetOf K n (G.elemGeo e) i).frame k) = f e' x' ⬝ᵥ (gridJac G pos e x *ᵥ (Trace.facetOf K n (G.elemGeo e) i).frame k) := by
  have hgeo : ∀ e x, Inside (G.elemGeo e) x → (ofJacobian (gridJac G pos e)).OK (gridJac G pos e x) x := fun e x hx => ofJacobian_OK _ x (hreg e x hx)
  obtain ⟨vec, hv⟩ := (C103_space hn hG hgeo f).2 ⟨hf, hm⟩
  obtain ⟨v, v', h1, h2, h3⟩ := C68_mixed hn hG.ok hG.accepted hG.dim hG.labels hG.conforming pos (fun e => ofJacobian (gridJac G pos e)) vec hi hi' hs hx hx' hxx (hgeo e x hin) (hgeo e' x' hin')
  obtain rfl := Option.some.inj ((hv e x hin).symm.trans h1)
  obtain rfl := Option.some.inj ((hv e' x' hin').symm.trans h2)
  exact h3 k

/-! ## Gradients -/

omit [LinearOrder K] [IsStrictOrderedRing K] in
/-- Gradients of affine or multilinear functions of the reference elements. -/
theorem gradient_field (hn : n = 1 ∨ n = 2) {t : Geo} (ht : t ∈ nedTypes) (hd : t.dim = n + 1) (p : Nat → Vec K 1) : RefEdgeField t fun x : Vec K (n + 1) => fun j => jacobian t p x 0 j := by
  have h2 : ∀ (x : Vec K 2) (j : Fin 2), jacobian ⟨2, 4⟩ p x 0 j = (![p 1 0 - p 0 0, p 2 0 - p 0 0] : Vec K 2) j + (![p 3 0 - p 1 0 - p 2 0 + p 0 0, p 3 0 - p 1 0 - p 2 0 + p 0 0] : Vec K 2) j * x (j + 1) := by
    intro x j
    fin_cases j <;> simp [jacobian, position, Fin.sum_univ_succ, vertexWeight, unit, Continuity.cubeBw, Fin.prod_univ_succ, Nat.testBit] <;> ring
  have h3 : ∀ (x : Vec K 3) (j : Fin 3), jacobian ⟨3, 8⟩ p x 0 j = (![p 1 0 - p 0 0, p 2 0 - p 0 0, p 4 0 - p 0 0] : Vec K 3) j +
      (![p 3 0 - p 1 0 - p 2 0 + p 0 0, p 6 0 - p 2 0 - p 4 0 + p 0 0, p 5 0 - p 1 0 - p 4 0 + p 0 0] : Vec K 3) j * x (j + 1) +
      (![p 5 0 - p 1 0 - p 4 0 + p 0 0, p 3 0 - p 1 0 - p 2 0 + p 0 0, p 6 0 - p 2 0 - p 4 0 + p 0 0] : Vec K 3) j * x (j + 2) +
      (p 7 0 - p 3 0 - p 5 0 - p 6 0 + p 1 0 + p 2 0 + p 4 0 - p 0 0) * (x (j + 1) * x (j + 2)) := by
    intro x j
    fin_cases j <;> simp [jacobian, position, Fin.sum_univ_succ, vertexWeight, unit, Continuity.cubeBw, Fin.prod_univ_succ, Nat.testBit] <;> ring
  refine ⟨?_, ?_⟩
  · rintro rfl
    refine ⟨fun j => p (j + 1) 0 - p 0 0, 0, by simp, fun x => ?_⟩
    funext j
    simp only [simplex_jac hn]
    simp
  · rintro rfl
    rcases hn with rfl | rfl
    · exact ⟨![p 1 0 - p 0 0, p 2 0 - p 0 0], ![p 3 0 - p 1 0 - p 2 0 + p 0 0, p 3 0 - p 1 0 - p 2 0 + p 0 0], 0, 0, fun _ => ⟨rfl, rfl⟩, fun x j => (h2 x j).trans (by simp)⟩
    · exact ⟨_, _, _, fun _ => _, fun h => absurd h (by decide), fun x j => h3 x j⟩

/-- **C103: gradients.** Let `φ` be values at the vertices. The gradient of the continuous function with these values that is affine on simplices and multilinear on cubes (its components in the directions
`J s` are the derivatives `∂φ s`) is a function of the Nédélec basis; the coefficient of an edge is the difference of the values at its vertices. -/
theorem C103_gradient (hn : n = 1 ∨ n = 2) {G : LGrid E S Nat} {fixed : Option Geo} (hG : EdgeGrid G fixed n) {pos : Nat → Vec K (n + 1)} {geo : E → Geometry K (n + 1)}
    (hgeo : ∀ e x, Inside (G.elemGeo e) x → (geo e).OK (gridJac G pos e x) x) (φ : Nat → K) :
    ∃ vec, (∀ e l a b, (refOf (G.elemGeo e)).edges[l]? = some (a, b) →
        vec (edgeIndex G e l) = if vertexIndex G.toGridView e a < vertexIndex G.toGridView e b then φ (G.ids e b) - φ (G.ids e a) else φ (G.ids e a) - φ (G.ids e b)) ∧
      ∀ e x, Inside (G.elemGeo e) x → ∃ v, edgeFunction G fixed geo vec e x = some v ∧
        ∀ s, v ⬝ᵥ (gridJac G pos e x *ᵥ s) = (jacobian (G.elemGeo e) (fun v (_ : Fin 1) => φ (G.ids e v)) x *ᵥ s) 0 := by
  let g : E → Vec K (n + 1) → Vec K (n + 1) := fun e x j => jacobian (G.elemGeo e) (fun v (_ : Fin 1) => φ (G.ids e v)) x 0 j
  let f : E → Vec K (n + 1) → Vec K (n + 1) := fun e x => ((gridJac G pos e x)⁻¹)ᵀ *ᵥ g e x
  have hfg : ∀ e x, Inside (G.elemGeo e) x → ∀ s, f e x ⬝ᵥ (gridJac G pos e x *ᵥ s) = g e x ⬝ᵥ s := by
    intro e x hx s
    rw [dot_transpose, Matrix.mulVec_mulVec, ← Matrix.transpose_mul, Matrix.nonsing_inv_mul _ (isUnit_iff_ne_zero.2 (hgeo e x hx).nondeg), Matrix.transpose_one, Matrix.one_mulVec]
  have hedge : ∀ e a b, Joined (G.elemGeo e) a b → ∀ s : K, 0 ≤ s → s ≤ 1 →
      f e (edgePoint K n (G.elemGeo e) a b s) ⬝ᵥ (pos (G.ids e b) - pos (G.ids e a)) = φ (G.ids e b) - φ (G.ids e a) := by
    intro e a b hab s h0 h1
    obtain ⟨t1, t2⟩ := grid_type hG e
    have q := hfg e _ (edgePoint_inside hn t1 t2 hab h0 h1) (refCorner K n (G.elemGeo e) b - refCorner K n (G.elemGeo e) a)
    rw [gridJac, jac_edge hn t1 t2 _ hab s] at q
    rw [q]
    exact congrFun (jac_edge hn t1 t2 (fun v (_ : Fin 1) => φ (G.ids e v)) hab s) 0
  obtain ⟨vec, hv⟩ := (C103_space hn hG hgeo f).2 ⟨fun e => by
      obtain ⟨t1, t2⟩ := grid_type hG e
      refine ⟨g e, gradient_field hn t1 t2 _, fun x hx => ?_⟩
      funext j
      rw [dot_unit, hfg e x hx]
      simp [dotProduct, unit, Fin.val_inj], fun e e' a b a' b' hab hab' i1 i2 s h0 h1 => by
      rw [hedge e a b hab s h0 h1, i1, i2, hedge e' a' b' hab' s h0 h1]⟩
  refine ⟨vec, fun e l a b hl => ?_, fun e x hx => ⟨f e x, hv e x hx, hfg e x hx⟩⟩
  obtain ⟨t1, t2⟩ := grid_type hG e
  have hab : Joined (G.elemGeo e) a b := Or.inl (List.mem_of_getElem? hl)
  obtain ⟨v, h1, h2⟩ := C103_edge hn hG hgeo vec e hl le_rfl zero_le_one
  obtain rfl := Option.some.inj ((hv e _ (edgePoint_inside hn t1 t2 hab le_rfl zero_le_one)).symm.trans h1)
  rw [hedge e a b hab 0 le_rfl zero_le_one] at h2
  by_cases hlt : vertexIndex G.toGridView e a < vertexIndex G.toGridView e b
  · rw [if_pos hlt] at h2 ⊢
    rw [h2, one_mul]
  · rw [if_neg hlt] at h2 ⊢
    linear_combination h2

/-! ## Examples: a trapezoid and a triangle -/

theorem trapezoid_edges : EdgeGrid Continuity.mixedGrid none 1 where
  ok := Continuity.mixedGrid_OK
  accepted := ⟨⟨Continuity.mixedGrid_OK.base, Continuity.mixedGrid_OK.std, Continuity.mixedGrid_OK.type, Continuity.mixedGrid_OK.elemInj⟩, Or.inl rfl, by decide, by simp⟩
  dim := rfl
  labels := by
    have : ∀ e e' : Fin 2, ∀ v ∈ List.range (Continuity.mixedGrid.elemGeo e).nv, ∀ v' ∈ List.range (Continuity.mixedGrid.elemGeo e').nv, Continuity.mixedGrid.ids e v = Continuity.mixedGrid.ids e' v' →
        Continuity.mixedGrid.sub e 2 v = Continuity.mixedGrid.sub e' 2 v' := by decide +kernel
    exact fun e e' v v' hv hv' h => this e e' v (List.mem_range.2 hv) v' (List.mem_range.2 hv') h
  conforming := by
    have : ∀ e e' : Fin 2, ∀ i ∈ List.range (refOf (Continuity.mixedGrid.elemGeo e)).edges.length, ∀ i' ∈ List.range (refOf (Continuity.mixedGrid.elemGeo e')).edges.length,
        ∀ p ∈ (refOf (Continuity.mixedGrid.elemGeo e)).edges[i]?, ∀ p' ∈ (refOf (Continuity.mixedGrid.elemGeo e')).edges[i']?,
        (Continuity.mixedGrid.sub e 1 i = Continuity.mixedGrid.sub e' 1 i' ↔
          (Continuity.mixedGrid.sub e 2 p.1 = Continuity.mixedGrid.sub e' 2 p'.1 ∧ Continuity.mixedGrid.sub e 2 p.2 = Continuity.mixedGrid.sub e' 2 p'.2) ∨
          (Continuity.mixedGrid.sub e 2 p.1 = Continuity.mixedGrid.sub e' 2 p'.2 ∧ Continuity.mixedGrid.sub e 2 p.2 = Continuity.mixedGrid.sub e' 2 p'.1)) := by decide +kernel
    intro e e' i i' a b a' b' h h'
    exact this e e' i (List.mem_range.2 (List.getElem?_eq_some_iff.1 h).1) i' (List.mem_range.2 (List.getElem?_eq_some_iff.1 h').1) _ h _ h'

/-- Constant fields are functions of the basis, although the Jacobian of the trapezoid is not constant. -/
example (p : Vec ℝ 2) : ∃ vec, ∀ e x, Inside (Continuity.mixedGrid.elemGeo e) x → edgeFunction Continuity.mixedGrid none Trace.trapezoidGeo vec e x = some p := by
  refine (C103_space (Or.inl rfl) trapezoid_edges Trace.trapezoid_geo fun _ _ => p).2 ⟨fun e => ?_, fun _ _ _ _ _ _ _ _ _ _ _ _ _ => rfl⟩
  fin_cases e
  · refine ⟨fun x => ![2 * p 0 - p 0 * x 1, p 1 - p 0 * x 0], ⟨fun h => absurd h (by decide), fun _ => ⟨![2 * p 0, p 1], ![-p 0, -p 0], 0, 0, fun _ => ⟨rfl, rfl⟩, fun x j => ?_⟩⟩, fun x hx => ?_⟩
    · fin_cases j <;> simp <;> ring
    · simp only [Fin.zero_eta, (Trace.trapezoid_jac x).1]
      funext d
      fin_cases d <;> simp [Matrix.mulVec, dotProduct, Fin.sum_univ_succ] <;> ring
  · refine ⟨fun _ => ![p 0 - p 1, 2 * p 0], ⟨fun _ => ⟨![p 0 - p 1, 2 * p 0], 0, by simp, fun x => by simp⟩, fun h => absurd h (by decide)⟩, fun x hx => ?_⟩
    simp only [Fin.mk_one, (Trace.trapezoid_jac x).2]
    funext d
    fin_cases d <;> simp [Matrix.mulVec, dotProduct, Fin.sum_univ_succ] <;> ring

/-- The rotation `(-y_1, y_0)` is not: on the trapezoid, its transform to the reference square has the first component `-x_1 (2 - x_1)`. -/
example : ¬ ∃ vec, ∀ e x, Inside (Continuity.mixedGrid.elemGeo e) x → edgeFunction Continuity.mixedGrid none Trace.trapezoidGeo vec e x =
    some (let y := position (Continuity.mixedGrid.elemGeo e) (fun v => Trace.trapezoidPos (Continuity.mixedGrid.ids e v)) x; ![-y 1, y 0]) := by
  intro h
  obtain ⟨g, ⟨-, hg⟩, hf⟩ := ((C103_space (Or.inl rfl) trapezoid_edges Trace.trapezoid_geo _).1 h).1 0
  obtain ⟨α, β, γ, δ, h1, h2⟩ := hg rfl
  obtain ⟨rfl, rfl⟩ := h1 rfl
  have hy : ∀ y : ℝ, 0 ≤ y → y ≤ 1 → -((2 - y) * y) = α 0 + β 0 * y := by
    intro y h0 h1
    have hin : Inside (Continuity.mixedGrid.elemGeo 0) ![0, y] := by
      show Inside ⟨2, 4⟩ _
      intro v hv
      simp only at hv
      interval_cases v <;> simp [vertexWeight, Continuity.cubeBw, Fin.prod_univ_succ, Nat.testBit, h0, h1]
    have := congrFun (hf _ hin) 0
    rw [h2, (Trace.trapezoid_jac _).1] at this
    simp only [(Trace.trapezoid_position _).1] at this
    simp [Matrix.mulVec, dotProduct, Fin.sum_univ_succ] at this
    exact this
  have h0 := hy 0 le_rfl zero_le_one
  have h1 := hy 1 zero_le_one le_rfl
  have h2 := hy (1 / 2) (by norm_num) (by norm_num)
  linarith

/-- Six degrees of freedom, one for each edge. -/
example (vec vec' : Nat → ℝ) (h : ∀ e x, Inside (Continuity.mixedGrid.elemGeo e) x → edgeFunction Continuity.mixedGrid none Trace.trapezoidGeo vec e x =
    edgeFunction Continuity.mixedGrid none Trace.trapezoidGeo vec' e x) : ∀ m < 6, vec m = vec' m :=
  fun m hm => C103_unique (Or.inl rfl) trapezoid_edges Trace.trapezoid_geo vec vec' h m
    (lt_of_lt_of_eq hm (show 6 = mapperSize Continuity.mixedGrid.toGridView nedelecLayout by decide +kernel))

/-- The gradient of the function with the value 1 at the vertex (2, 0): in the corner (2, 0) of the trapezoid its component along the lower edge of length 2 is 1/2. -/
example : ∃ vec, ∃ v : Vec ℝ 2, edgeFunction Continuity.mixedGrid none Trace.trapezoidGeo vec 0 ![1, 0] = some v ∧ v 0 = 1 / 2 := by
  obtain ⟨vec, -, h⟩ := C103_gradient (Or.inl rfl) trapezoid_edges Trace.trapezoid_geo fun v => if v = 20 then 1 else 0
  have hin : Inside (Continuity.mixedGrid.elemGeo 0) (![1, 0] : Vec ℝ 2) := by
    show Inside ⟨2, 4⟩ _
    intro v hv
    simp only at hv
    interval_cases v <;> simp [vertexWeight, Continuity.cubeBw, Fin.prod_univ_succ, Nat.testBit]
  obtain ⟨v, h1, h2⟩ := h 0 ![1, 0] hin
  refine ⟨vec, v, h1, ?_⟩
  have h3 := h2 ![1, 0]
  rw [(Trace.trapezoid_jac _).1] at h3
  have hj : jacobian (Continuity.mixedGrid.elemGeo 0) (fun v (_ : Fin 1) => if Continuity.mixedGrid.ids 0 v = 20 then (1 : ℝ) else 0) ![1, 0] = !![1, -1] := by
    show jacobian ⟨2, 4⟩ _ _ = _
    ext i j
    fin_cases i
    fin_cases j <;> simp [jacobian, position, Fin.sum_univ_succ, vertexWeight, unit, Continuity.cubeBw, Fin.prod_univ_succ, Nat.testBit, Continuity.mixedGrid]
  rw [hj] at h3
  simp [Matrix.mulVec, dotProduct, Fin.sum_univ_succ] at h3
  linarith

end Verif.HDiv.Tangential
