import Verif.HDiv.NormalMixed
import Verif.HDiv.RTSpace

/-!
# The space of Raviart–Thomas functions of order 0 on grids of simplices, cubes and prisms

The functions of the Raviart–Thomas basis of order 0 on a grid of triangles and quadrilaterals or of tetrahedra, hexahedra and prisms are exactly the vector fields that are contravariant Piola
transforms of the fields `(c j + q j x j) j` of the reference elements and whose normal components are continuous. The elements have affine or multilinear geometries.
-/

namespace Verif.HDiv.Trace

open Matrix Verif.Mapper Verif.Lagrange Verif.Piola
open Verif.Lagrange.Continuity (Supported vertexWeight coordinate prismType)

variable {E S K : Type} [Field K] [LinearOrder K] [IsStrictOrderedRing K] {n : Nat}

/-! ## Specification -/

/-- Points of the reference element. -/
def Inside (t : Geo) (x : Vec K (n + 1)) : Prop := ∀ v < t.nv, 0 ≤ vertexWeight t v x

omit [LinearOrder K] [IsStrictOrderedRing K] in
/-- Fields of the reference elements: component `j` depends on coordinate `j` only and is affine. On simplices, all slopes are equal; on prisms, those of the triangle. -/
def RefField (t : Geo) (g : Vec K (n + 1) → Vec K (n + 1)) : Prop :=
  ∃ c q : Vec K (n + 1), (t = simplexOf (n + 1) → ∀ i j, q i = q j) ∧ (t = prismType → ∀ i j : Fin (n + 1), i.val < 2 → j.val < 2 → q i = q j) ∧
    ∀ x j, g x j = c j + q j * x j

/-- The field is the contravariant Piola transform of a field of the reference element. -/
def PiolaField (t : Geo) (J : Vec K (n + 1) → Mat K (n + 1)) (f : Vec K (n + 1) → Vec K (n + 1)) : Prop :=
  ∃ g, RefField t g ∧ ∀ x, Inside t x → |(J x).det| • f x = J x *ᵥ g x

/-- The same point of two elements: common vertices have equal weights. -/
def SamePoint (G : LGrid E S Nat) (e e' : E) (x x' : Vec K (n + 1)) : Prop :=
  ∀ v < (G.elemGeo e).nv, ∀ v' < (G.elemGeo e').nv, G.ids e v = G.ids e' v' → vertexWeight (G.elemGeo e) v x = vertexWeight (G.elemGeo e') v' x'

/-- A conforming grid of simplices, cubes and prisms with affine or multilinear geometries that are regular, and whose elements lie on different sides of their common facets. -/
structure MixedGrid (G : LGrid E S Nat) (n : Nat) (pos : Nat → Vec K (n + 1)) : Prop where
  ok : G.OK
  dim : G.dim = n + 1
  types : ∀ e, Supported (n + 1) (G.elemGeo e)
  sides : ∀ e e' i i', e ≠ e' → i < numFacets (G.elemGeo e) → i' < numFacets (G.elemGeo e') → G.sub e 1 i = G.sub e' 1 i' →
    ∀ x x' : Vec K (n + 1), Inside (G.elemGeo e) x → Inside (G.elemGeo e') x' → (facetOf K n (G.elemGeo e) i).On x → (facetOf K n (G.elemGeo e') i').On x' → SamePoint G e e' x x' →
    vol (gridJac G pos e x *ᵥ (facetOf K n (G.elemGeo e) i).out) (fun k => gridJac G pos e x *ᵥ (facetOf K n (G.elemGeo e) i).frame k) *
      vol (gridJac G pos e' x' *ᵥ (facetOf K n (G.elemGeo e') i').out) (fun k => gridJac G pos e x *ᵥ (facetOf K n (G.elemGeo e) i).frame k) < 0

/-- The components of the fields of two elements in all directions orthogonal to a common facet agree. -/
def NormalMatching (G : LGrid E S Nat) (n : Nat) (pos : Nat → Vec K (n + 1)) (f : E → Vec K (n + 1) → Vec K (n + 1)) : Prop :=
  ∀ e e' i i', e ≠ e' → i < numFacets (G.elemGeo e) → i' < numFacets (G.elemGeo e') → G.sub e 1 i = G.sub e' 1 i' →
    ∀ x x', Inside (G.elemGeo e) x → Inside (G.elemGeo e') x' → (facetOf K n (G.elemGeo e) i).On x → (facetOf K n (G.elemGeo e') i').On x' → SamePoint G e e' x x' →
    ∀ N : Vec K (n + 1), (∀ k, N ⬝ᵥ (gridJac G pos e x *ᵥ (facetOf K n (G.elemGeo e) i).frame k) = 0) → N ⬝ᵥ f e x = N ⬝ᵥ f e' x'

/-- A discrete function of the Raviart–Thomas basis of order 0. -/
abbrev mixedValue (G : LGrid E S Nat) (fixed : Option Geo) (isects : E → List (Isect E)) (geo : E → Geometry K (n + 1)) (vec : Nat → K) (e : E) (x : Vec K (n + 1)) :
    Option (Vec K (n + 1)) :=
  value G.toGridView fixed isects rtTable rtKeys geo vec e x

/-! ## Fields of the reference elements -/

omit [LinearOrder K] [IsStrictOrderedRing K] in
theorem RefField.smul {t : Geo} {g : Vec K (n + 1) → Vec K (n + 1)} (h : RefField t g) (a : K) : RefField t fun x => a • g x := by
  obtain ⟨c, q, h1, h2, h3⟩ := h
  refine ⟨a • c, a • q, fun ht i j => ?_, fun ht i j hi hj => ?_, fun x j => ?_⟩
  · simp [h1 ht i j]
  · simp [h2 ht i j hi hj]
  · simp [h3]
    ring

omit [LinearOrder K] [IsStrictOrderedRing K] in
theorem RefField.zero (t : Geo) : RefField t fun _ : Vec K (n + 1) => (0 : Vec K (n + 1)) :=
  ⟨0, 0, fun _ _ _ => rfl, fun _ _ _ _ _ => rfl, fun _ _ => by simp⟩

omit [LinearOrder K] [IsStrictOrderedRing K] in
theorem RefField.add {t : Geo} {g g' : Vec K (n + 1) → Vec K (n + 1)} (h : RefField t g) (h' : RefField t g') : RefField t fun x => g x + g' x := by
  obtain ⟨c, q, h1, h2, h3⟩ := h
  obtain ⟨c', q', h1', h2', h3'⟩ := h'
  refine ⟨c + c', q + q', fun ht i j => ?_, fun ht i j hi hj => ?_, fun x j => ?_⟩
  · simp [h1 ht i j, h1' ht i j]
  · simp [h2 ht i j hi hj, h2' ht i j hi hj]
  · simp [h3, h3']
    ring

omit [LinearOrder K] [IsStrictOrderedRing K] in
theorem RefField.sum {ι : Type} {t : Geo} (s : Finset ι) {g : ι → Vec K (n + 1) → Vec K (n + 1)} (h : ∀ l ∈ s, RefField t (g l)) : RefField t fun x => ∑ l ∈ s, g l x := by
  classical
  induction s using Finset.induction_on with
  | empty => simpa using RefField.zero t
  | insert a s ha ih =>
    have := (h a (Finset.mem_insert_self _ _)).add (ih fun l hl => h l (Finset.mem_insert_of_mem hl))
    simpa [Finset.sum_insert ha] using this

/-- The shape functions for elements that are not flipped. -/
def bare (K : Type) [Field K] (n : Nat) (t : Geo) (l : Nat) (x : Vec K (n + 1)) : Vec K (n + 1) := fun j =>
  if t ∈ ([⟨2, 4⟩, ⟨3, 8⟩] : List Geo) then (if j.val = l / 2 then x j - (1 - l % 2 : Nat) else 0) else if t = prismType then prismField l x j
  else (n : K) * (x j - corner K n (n + 1 - l) j)

omit [LinearOrder K] [IsStrictOrderedRing K] in
theorem shape_bare (hn : n = 1 ∨ n = 2) {t : Geo} (ht : Supported (n + 1) t) (bits : Nat) {l : Nat} (hl : l < numFacets t) (x : Vec K (n + 1)) :
    (rtTable (kindOf t) bits).shape l x = (if bits.testBit l then (-1 : K) else 1) • bare K n t l x := by
  have hs : ∀ n, (n = 1 ∨ n = 2) → ∀ t : Geo, t = simplexOf (n + 1) → l < numFacets t → ∀ x : Vec K (n + 1),
      (rtTable (kindOf t) bits).shape l x = (if bits.testBit l then (-1 : K) else 1) • bare K n t l x := by
    rintro n hn _ rfl hl x
    rw [numFacets_simplex hn] at hl
    have hk : kindOf (simplexOf (n + 1)) = .simplex := by rcases hn with rfl | rfl <;> rfl
    have hb : bare K n (simplexOf (n + 1)) l x = (n : K) • (x - corner K n (n + 1 - l)) := by
      funext j
      rcases hn with rfl | rfl <;> simp [bare, simplexOf, prismType]
    rw [hk, hb, rtTable, LFE.shape]
    simp only [rt0, List.getElem?_map, List.getElem?_range hl, Option.map_some, Option.getD_some]
    split <;> simp
  have hc : ∀ n, (n = 1 ∨ n = 2) → ∀ t : Geo, t = cubeOf (n + 1) → l < numFacets t → ∀ x : Vec K (n + 1),
      (rtTable (kindOf t) bits).shape l x = (if bits.testBit l then (-1 : K) else 1) • bare K n t l x := by
    rintro n hn _ rfl hl x
    rw [numFacets_cube hn] at hl
    have hk : kindOf (cubeOf (n + 1)) = .cube := by rcases hn with rfl | rfl <;> rfl
    have hm : cubeOf (n + 1) ∈ ([⟨2, 4⟩, ⟨3, 8⟩] : List Geo) := by rcases hn with rfl | rfl <;> decide
    rw [hk, rtTable, LFE.shape]
    simp only [rt0Cube, List.getElem?_map, List.getElem?_range hl, Option.map_some, Option.getD_some]
    funext j
    simp only [bare, if_pos hm, Pi.smul_apply, smul_eq_mul]
    split <;> simp
  rcases hn with rfl | rfl
  · rcases supported_two ht with rfl | rfl
    · exact hs 1 (Or.inl rfl) _ (by decide) hl x
    · exact hc 1 (Or.inl rfl) _ (by decide) hl x
  · rcases supported_three ht with rfl | rfl | rfl
    · exact hs 2 (Or.inr rfl) _ (by decide) hl x
    · exact hc 2 (Or.inr rfl) _ (by decide) hl x
    · have h5 : numFacets prismType = 5 := by decide
      have hl : l < 5 := by omega
      have hk : kindOf prismType = .prism := rfl
      have hb : bare K 2 prismType l x = prismField l x := by
        funext j
        simp [bare, prismType]
      rw [hk, hb, rtTable, LFE.shape]
      simp [rt0Prism, hl]

omit [LinearOrder K] [IsStrictOrderedRing K] in
theorem bare_field (hn : n = 1 ∨ n = 2) {t : Geo} (ht : Supported (n + 1) t) {l : Nat} (hl : l < numFacets t) : RefField t (bare K n t l) := by
  have hs : ∀ t : Geo, t ∉ ([⟨2, 4⟩, ⟨3, 8⟩] : List Geo) → t ≠ prismType → RefField t (bare K n t l) := by
    intro t h1 h2
    refine ⟨(-(n : K)) • corner K n (n + 1 - l), fun _ => n, fun _ _ _ => rfl, fun _ _ _ _ _ => rfl, fun x j => ?_⟩
    simp only [bare, if_neg h1, if_neg h2, Pi.smul_apply, smul_eq_mul]
    ring
  have hc : ∀ t : Geo, t ∈ ([⟨2, 4⟩, ⟨3, 8⟩] : List Geo) → t ≠ simplexOf (n + 1) → t ≠ prismType → RefField t (bare K n t l) := by
    intro t h1 h2 h3
    refine ⟨fun j => if j.val = l / 2 then -((1 - l % 2 : Nat) : K) else 0, fun j => if j.val = l / 2 then 1 else 0, fun h => absurd h h2, fun h => absurd h h3, fun x j => ?_⟩
    simp only [bare, if_pos h1]
    split <;> ring
  rcases hn with rfl | rfl
  · rcases supported_two ht with rfl | rfl
    · exact hs _ (by decide) (by decide)
    · exact hc _ (by decide) (by decide) (by decide)
  · rcases supported_three ht with rfl | rfl | rfl
    · exact hs _ (by decide) (by decide)
    · exact hc _ (by decide) (by decide) (by decide)
    · have h5 : numFacets prismType = 5 := by decide
      have hl' : l = 0 ∨ l = 1 ∨ l = 2 ∨ l = 3 ∨ l = 4 := by omega
      refine ⟨bare K 2 prismType l 0, fun j => bare K 2 prismType l (unit K 2 j) j - bare K 2 prismType l 0 j, fun h => absurd h (by decide), fun _ i j hi hj => ?_, fun x j => ?_⟩
      · rcases hl' with rfl | rfl | rfl | rfl | rfl <;> fin_cases i <;> fin_cases j <;> simp at hi hj <;> simp [bare, prismType, prismField, unit, coordinate]
      · rcases hl' with rfl | rfl | rfl | rfl | rfl <;> fin_cases j <;> simp [bare, prismType, prismField, unit, coordinate] <;> ring

/-- Coefficients of the field `(c j + q j x j) j`. -/
def fieldWeight (n : Nat) (t : Geo) (c q : Vec K (n + 1)) (l : Nat) : K :=
  if t ∈ ([⟨2, 4⟩, ⟨3, 8⟩] : List Geo) then (if l % 2 = 0 then -coordinate c (l / 2) else coordinate q (l / 2) + coordinate c (l / 2))
  else if t = prismType then (if l = 0 then -coordinate c 1 else if l = 1 then -coordinate c 0 else if l = 2 then coordinate q 0 + coordinate c 0 + coordinate c 1
    else if l = 3 then -coordinate c 2 / 2 else (coordinate q 2 + coordinate c 2) / 2)
  else if l = n + 1 then (q 0 + ∑ j, c j) / n else -coordinate c (n - l) / n

/-- Every field of a reference element is a combination of the shape functions. -/
theorem field_sum (hn : n = 1 ∨ n = 2) {t : Geo} (ht : Supported (n + 1) t) {c q : Vec K (n + 1)} (h1 : t = simplexOf (n + 1) → ∀ i j, q i = q j)
    (h2 : t = prismType → ∀ i j : Fin (n + 1), i.val < 2 → j.val < 2 → q i = q j) (x : Vec K (n + 1)) (j : Fin (n + 1)) :
    c j + q j * x j = (∑ l ∈ Finset.range (numFacets t), fieldWeight n t c q l • bare K n t l x) j := by
  have two : (2 : K) ≠ 0 := two_ne_zero
  rcases hn with rfl | rfl
  · rcases supported_two ht with rfl | rfl
    · have := h1 (by decide) 0 1
      rw [show numFacets ⟨2, 3⟩ = 3 by decide]
      fin_cases j <;> simp [Finset.sum_range_succ, fieldWeight, bare, prismType, corner, coordinate, ← this] <;> ring
    · rw [show numFacets ⟨2, 4⟩ = 4 by decide]
      fin_cases j <;> simp [Finset.sum_range_succ, fieldWeight, bare, coordinate] <;> ring
  · rcases supported_three ht with rfl | rfl | rfl
    · have e1 := h1 (by decide) 1 0
      have e2 := h1 (by decide) 2 0
      rw [show numFacets ⟨3, 4⟩ = 4 by decide]
      fin_cases j <;> simp [Finset.sum_range_succ, Fin.sum_univ_succ, fieldWeight, bare, prismType, corner, coordinate, e1, e2] <;> field_simp <;> ring
    · rw [show numFacets ⟨3, 8⟩ = 6 by decide]
      fin_cases j <;> simp [Finset.sum_range_succ, fieldWeight, bare, coordinate] <;> ring
    · have e1 := h2 rfl 1 0 (by decide) (by decide)
      rw [show numFacets prismType = 5 by decide]
      fin_cases j <;> simp [Finset.sum_range_succ, fieldWeight, bare, prismType, prismField, unit, coordinate, e1] <;> ring

/-! ## Discrete functions on an element -/

/-- The index of the degree of freedom of facet `i` of the element `e`. -/
abbrev facetIndex (G : LGrid E S Nat) (e : E) (i : Nat) : Nat := mapperIndex G.toGridView (rtLayout 0 G.dim) (G.sub e 1 i)

omit [LinearOrder K] [IsStrictOrderedRing K] in
theorem rt_size (hn : n = 1 ∨ n = 2) {t : Geo} (ht : Supported (n + 1) t) (bits : Nat) (x : Vec K (n + 1)) : ((rtTable (kindOf t) bits).eval x).length = numFacets t := by
  rcases hn with rfl | rfl
  · rcases supported_two ht with rfl | rfl
    · simp [show kindOf ⟨2, 3⟩ = .simplex from rfl, rtTable, rt0, show numFacets ⟨2, 3⟩ = 3 by decide]
    · simp [show kindOf ⟨2, 4⟩ = .cube from rfl, rtTable, rt0Cube, show numFacets ⟨2, 4⟩ = 4 by decide]
  · rcases supported_three ht with rfl | rfl | rfl
    · simp [show kindOf ⟨3, 4⟩ = .simplex from rfl, rtTable, rt0, show numFacets ⟨3, 4⟩ = 4 by decide]
    · simp [show kindOf ⟨3, 8⟩ = .cube from rfl, rtTable, rt0Cube, show numFacets ⟨3, 8⟩ = 6 by decide]
    · simp [show kindOf prismType = .prism from rfl, rtTable, rt0Prism, show numFacets prismType = 5 by decide]

omit [IsStrictOrderedRing K] in
/-- The variant of an element and the values of the discrete functions. -/
theorem mixed_sum (hn : n = 1 ∨ n = 2) {G : LGrid E S Nat} {pos : Nat → Vec K (n + 1)} (hG : MixedGrid G n pos)
    {isects : E → List (Isect E)} (hI : Neighbours G.toGridView isects) (fixed : Option Geo)
    (hfix : ∀ u, fixed = some u → ∀ e, u = G.elemGeo e ∧ (G.elemGeo e = simplexOf G.dim ∨ G.elemGeo e = cubeOf G.dim)) (geo : E → Geometry K (n + 1)) (e : E) :
    ∃ bits, bits < numVariants (G.elemGeo e) ∧ (∀ i, bits.testBit i = true ↔ Flipped (elementIndex G.toGridView) e (isects e) i) ∧
      (∀ vec x, mixedValue G fixed isects geo vec e x = some (axpyAll (((mapperLeaf G.toGridView (rtLayout 0 G.dim) fun e => rtKeys (G.elemGeo e)).loc e).map vec)
        ((globalValued .contra (geo e) (rtTable (kindOf (G.elemGeo e)) bits)).eval x))) ∧
      ∀ vec x, (geo e).OK (gridJac G pos e x) x → mixedValue G fixed isects geo vec e x = some ((|(gridJac G pos e x).det|)⁻¹ • (gridJac G pos e x *ᵥ
        ∑ l ∈ Finset.range (numFacets (G.elemGeo e)), (vec (facetIndex G e l) * if bits.testBit l then (-1 : K) else 1) • bare K n (G.elemGeo e) l x)) := by
  have hstd : StdGrid G.toGridView := ⟨hG.ok.base, hG.ok.std, hG.ok.type, hG.ok.elemInj⟩
  obtain ⟨bits, h1, h2, h3⟩ := C47_raviartThomas G.dim (by rw [hG.dim]; omega) fixed (elementIndex G.toGridView) e (G.elemGeo e) (hstd.type e) (hstd.base.elemMem e).2
    (fun u hu => hfix u hu e) (isects e) (hI.inside e)
  have hv : ∀ vec x, mixedValue G fixed isects geo vec e x = some (axpyAll (((mapperLeaf G.toGridView (rtLayout 0 G.dim) fun e => rtKeys (G.elemGeo e)).loc e).map vec)
        ((globalValued .contra (geo e) (rtTable (kindOf (G.elemGeo e)) bits)).eval x)) := by
    intro vec x
    rw [mixedValue, value, h1]
    rfl
  refine ⟨bits, h2, h3, hv, fun vec x hx => ?_⟩
  rw [hv, Option.some.injEq, axpyAll, foldl_axpy, zero_add, Matrix.mulVec_sum, Finset.smul_sum]
  have hr : ∀ (N : Nat) (f : Nat → Vec K (n + 1)), ∑ l ∈ Finset.range N, f l = ((List.range N).map f).sum := fun _ _ => rfl
  rw [hr]
  have hlen := rt_size (K := K) hn (hG.types e) bits x
  congr 1
  apply List.ext_getElem
  · simp [mapperLeaf, globalValued, apply, contraApply, rtKeys, hlen]
  · intro l g1 g2
    have hl : l < numFacets (G.elemGeo e) := by simpa using g2
    have hl' : l < ((rtTable (K := K) (n := n) (kindOf (G.elemGeo e)) bits).eval x).length := by omega
    have hb := shape_bare (K := K) hn (hG.types e) bits hl x
    rw [LFE.shape, List.getElem?_eq_getElem hl', Option.getD_some] at hb
    simp only [List.getElem_map, List.getElem_zip, List.getElem_range, globalValued, apply, contraApply_eq hx, mapperLeaf, rtKeys, add_zero, hb, Matrix.mulVec_smul]
    simp only [smul_smul]
    congr 1
    ring

/-- The flux of the discrete function through facet `i` is a multiple of the coefficient of the facet. -/
theorem mixed_flux (hn : n = 1 ∨ n = 2) {G : LGrid E S Nat} {pos : Nat → Vec K (n + 1)} (hG : MixedGrid G n pos) (geo : E → Geometry K (n + 1)) {e : E} {bits : Nat}
    (hb : bits < numVariants (G.elemGeo e)) {i : Nat} {u : Geo} (hu : (stdSubs (G.elemGeo e) 1)[i]? = some u) {x : Vec K (n + 1)} (hx : (facetOf K n (G.elemGeo e) i).On x)
    (hJ : (geo e).OK (gridJac G pos e x) x) (vec : Nat → K) :
    outerFlux (axpyAll (((mapperLeaf G.toGridView (rtLayout 0 G.dim) fun e => rtKeys (G.elemGeo e)).loc e).map vec)
        ((globalValued .contra (geo e) (rtTable (kindOf (G.elemGeo e)) bits)).eval x))
      (fun k => gridJac G pos e x *ᵥ (facetOf K n (G.elemGeo e) i).frame k) (gridJac G pos e x *ᵥ (facetOf K n (G.elemGeo e) i).out) =
    vec (facetIndex G e i) * if bits.testBit i then -fluxOf K u else fluxOf K u :=
  facet_flux G.toGridView rtTable rtKeys (facetOf K n) (fluxOf K) e (rt_fluxes hn (hG.types e)) bits hb i u hu (geo e) _ x hJ hx vec

omit [IsStrictOrderedRing K] in
/-- The flags of the two elements at a common facet are opposite. -/
theorem mixed_flags {G : LGrid E S Nat} {pos : Nat → Vec K (n + 1)} (hG : MixedGrid G n pos)
    {isects : E → List (Isect E)} (hI : Neighbours G.toGridView isects) {e e' : E} (hne : e ≠ e') {i i' : Nat} (hi : i < numFacets (G.elemGeo e))
    (hi' : i' < numFacets (G.elemGeo e')) (hs : G.sub e 1 i = G.sub e' 1 i') {b b' : Nat} (hb : ∀ i, b.testBit i = true ↔ Flipped (elementIndex G.toGridView) e (isects e) i)
    (hb' : ∀ i, b'.testBit i = true ↔ Flipped (elementIndex G.toGridView) e' (isects e') i) : b.testBit i = !b'.testBit i' := by
  have hstd : StdGrid G.toGridView := ⟨hG.ok.base, hG.ok.std, hG.ok.type, hG.ok.elemInj⟩
  obtain ⟨n1, n2⟩ := hI.shared e e' i i' hne hi hi' hs
  obtain ⟨m1, m2⟩ := hI.shared e' e i' i hne.symm hi' hi hs.symm
  exact (C47_facet (V := Int) (elementIndex G.toGridView) (elementIndex_injective hstd) e e' hne (isects e) (isects e') i i' n1 m1 n2 m2 b b' hb hb' 0).2

omit [IsStrictOrderedRing K] [LinearOrder K] in
theorem fluxOf_ne [LinearOrder K] [IsStrictOrderedRing K] (u : Geo) : fluxOf K u ≠ 0 := by
  rw [fluxOf]
  split
  · exact two_ne_zero
  · exact one_ne_zero

/-- If two discrete functions have equal normal components on the two sides of a facet, then their coefficients of the facet are equal. -/
theorem mixed_pair (hn : n = 1 ∨ n = 2) {G : LGrid E S Nat} {pos : Nat → Vec K (n + 1)} (hG : MixedGrid G n pos)
    {isects : E → List (Isect E)} (hI : Neighbours G.toGridView isects) (fixed : Option Geo)
    (hfix : ∀ u, fixed = some u → ∀ e, u = G.elemGeo e ∧ (G.elemGeo e = simplexOf G.dim ∨ G.elemGeo e = cubeOf G.dim)) (geo : E → Geometry K (n + 1)) (vec vec' : Nat → K)
    {e e' : E} (hne : e ≠ e') {i i' : Nat} (hi : i < numFacets (G.elemGeo e)) (hi' : i' < numFacets (G.elemGeo e')) (hs : G.sub e 1 i = G.sub e' 1 i')
    {x x' : Vec K (n + 1)} (hin : Inside (G.elemGeo e) x) (hin' : Inside (G.elemGeo e') x') (hx : (facetOf K n (G.elemGeo e) i).On x) (hx' : (facetOf K n (G.elemGeo e') i').On x')
    (hxx : SamePoint G e e' x x') (hJ : (geo e).OK (gridJac G pos e x) x) (hJ' : (geo e').OK (gridJac G pos e' x') x') {v v' : Vec K (n + 1)}
    (hv : mixedValue G fixed isects geo vec e x = some v) (hv' : mixedValue G fixed isects geo vec' e' x' = some v')
    (hN : ∀ N : Vec K (n + 1), (∀ k, N ⬝ᵥ (gridJac G pos e x *ᵥ (facetOf K n (G.elemGeo e) i).frame k) = 0) → N ⬝ᵥ v = N ⬝ᵥ v') :
    vec (facetIndex G e i) = vec' (facetIndex G e i) := by
  obtain ⟨b, b1, b2, b3, -⟩ := mixed_sum hn hG hI fixed hfix geo e
  obtain ⟨b', b1', b2', b3', -⟩ := mixed_sum hn hG hI fixed hfix geo e'
  have hflag := mixed_flags hG hI hne hi hi' hs b2 b2'
  obtain ⟨u, hu, hu', -⟩ := facet_type hG.ok hi hi' hs
  have f1 := mixed_flux hn hG geo b1 hu hx hJ vec
  have f2 := mixed_flux hn hG geo b1' hu' hx' hJ' vec'
  rw [b3, Option.some.injEq] at hv
  rw [b3', Option.some.injEq] at hv'
  rw [hv] at f1
  rw [hv'] at f2
  obtain ⟨U, hU1, hU2⟩ := mixed_frames hn hG.ok hG.types pos hi hi' hs hx hx' hxx
  have hsides := hG.sides e e' i i' hne hi hi' hs x x' hin hin' hx hx' hxx
  change ∀ l, gridJac G pos e' x' *ᵥ (facetOf K n (G.elemGeo e') i').frame l = ∑ k, U l k • (gridJac G pos e x *ᵥ (facetOf K n (G.elemGeo e) i).frame k) at hU2
  rw [show (fun l => gridJac G pos e' x' *ᵥ (facetOf K n (G.elemGeo e') i').frame l) = fun l => ∑ k, U l k • (gridJac G pos e x *ᵥ (facetOf K n (G.elemGeo e) i).frame k) from
    funext hU2, outerFlux_change _ _ _ U hU1] at f2
  have hvol : vol v (fun k => gridJac G pos e x *ᵥ (facetOf K n (G.elemGeo e) i).frame k) = vol v' (fun k => gridJac G pos e x *ᵥ (facetOf K n (G.elemGeo e) i).frame k) := by
    obtain ⟨N, N1, N2⟩ := exists_normal (fun k => gridJac G pos e x *ᵥ (facetOf K n (G.elemGeo e) i).frame k)
    rw [N2, N2]
    exact hN N N1
  rw [outerFlux_eq] at f1 f2
  rw [hvol] at f1
  rw [show facetIndex G e' i' = facetIndex G e i by rw [facetIndex, ← hs]] at f2
  generalize vol (gridJac G pos e x *ᵥ (facetOf K n (G.elemGeo e) i).out) (fun k => gridJac G pos e x *ᵥ (facetOf K n (G.elemGeo e) i).frame k) = w at f1 hsides
  generalize vol (gridJac G pos e' x' *ᵥ (facetOf K n (G.elemGeo e') i').out) (fun k => gridJac G pos e x *ᵥ (facetOf K n (G.elemGeo e) i).frame k) = w' at f2 hsides
  have hsign : (SignType.sign w' : K) = -(SignType.sign w : K) := by
    rcases lt_trichotomy w 0 with h | h | h
    · have : 0 < w' := by nlinarith
      rw [sign_pos this, sign_neg h]
      simp
    · rw [h, zero_mul] at hsides
      exact absurd hsides (lt_irrefl _)
    · have : w' < 0 := by nlinarith
      rw [sign_neg this, sign_pos h]
      simp
  rw [hsign] at f2
  rw [hflag] at f1
  have h := f1.symm.trans (show _ = -(vec' (facetIndex G e i) * if b'.testBit i' then -fluxOf K u else fluxOf K u) by rw [← f2]; ring)
  have ha := fluxOf_ne (K := K) u
  cases hb : b'.testBit i' <;> simp [hb] at h <;> exact h.resolve_right ha

/-! ## Vertices of the reference elements -/

/-- The coordinates of vertex `v` of the reference element. -/
def refCorner (K : Type) [Field K] (n : Nat) (t : Geo) (v : Nat) : Vec K (n + 1) := fun d =>
  if t ∈ ([⟨2, 4⟩, ⟨3, 8⟩] : List Geo) then (if v.testBit d then 1 else 0)
  else if t = prismType then (if d.val = 2 then (if 3 ≤ v then 1 else 0) else if v % 3 = d.val + 1 then 1 else 0) else corner K n v d

omit [LinearOrder K] [IsStrictOrderedRing K] in
theorem refCorner_weight (hn : n = 1 ∨ n = 2) {t : Geo} (ht : Supported (n + 1) t) {v w : Nat} (hv : v < t.nv) (hw : w < t.nv) :
    vertexWeight t w (refCorner K n t v) = if w = v then 1 else 0 := by
  rcases hn with rfl | rfl
  · rcases supported_two ht with rfl | rfl <;> simp only at hv hw <;> interval_cases v <;> interval_cases w <;>
      simp [-Finset.sum_boole, vertexWeight, refCorner, prismType, corner, HDiv.Tangential.bary, Continuity.cubeBw, Fin.sum_univ_succ, Fin.prod_univ_succ, Nat.testBit]
  · rcases supported_three ht with rfl | rfl | rfl <;> simp only at hv hw <;> interval_cases v <;> interval_cases w <;>
      simp [-Finset.sum_boole, vertexWeight, refCorner, prismType, corner, HDiv.Tangential.bary, Continuity.cubeBw, Continuity.prismBw, Continuity.prismBary, coordinate, Fin.sum_univ_succ,
        Fin.prod_univ_succ, Nat.testBit]

theorem refCorner_inside (hn : n = 1 ∨ n = 2) {t : Geo} (ht : Supported (n + 1) t) {v : Nat} (hv : v < t.nv) : Inside t (refCorner K n t v) := by
  intro w hw
  rw [refCorner_weight hn ht hv hw]
  split <;> simp

omit [LinearOrder K] [IsStrictOrderedRing K] in
theorem refCorner_on (hn : n = 1 ∨ n = 2) {t : Geo} (ht : Supported (n + 1) t) {i : Nat} {u : Geo} (hu : (stdSubs t 1)[i]? = some u) {k : Nat} (hk : k < u.nv) :
    (facetOf K n t i).On (refCorner K n t (facetVert t i k)) := by
  have hi := (List.getElem?_eq_some_iff.1 hu).1
  have hs : ∀ n, (n = 1 ∨ n = 2) → ∀ t : Geo, t = simplexOf (n + 1) → k < n + 1 → (facetOf K n t i).On (refCorner K n t (facetVert t i k)) := by
    rintro n hn _ rfl hk
    have h1 : simplexOf (n + 1) ∉ ([⟨2, 4⟩, ⟨3, 8⟩] : List Geo) ∧ simplexOf (n + 1) ≠ prismType := by rcases hn with rfl | rfl <;> decide
    have h2 : refCorner K n (simplexOf (n + 1)) (facetVert (simplexOf (n + 1)) i k) = corner K n (facetVertex n i k) := by
      funext d
      simp only [refCorner, if_neg h1.1, if_neg h1.2]
      rfl
    rw [facetOf, if_neg h1.1, if_neg h1.2, h2]
    refine ⟨Pi.single ⟨k, hk⟩ 1, by simp, ?_⟩
    rw [Finset.sum_eq_single ⟨k, hk⟩]
    · simp
    · intro m _ hm
      rw [Pi.single_eq_of_ne hm, zero_smul]
    · simp
  have hc : ∀ n, ∀ t ∈ ([⟨2, 4⟩, ⟨3, 8⟩] : List Geo), ((facetVert t i k).testBit (i / 2) = true ↔ i % 2 = 1) → (facetOf K n t i).On (refCorner K n t (facetVert t i k)) := by
    intro n t ht h
    rw [facetOf, if_pos ht]
    intro j hj
    rw [refCorner, if_pos ht, hj]
    by_cases h2 : i % 2 = 1
    · rw [if_pos (h.2 h2), h2, Nat.cast_one]
    · rw [if_neg fun h' => h2 (h.1 h'), show i % 2 = 0 by omega, Nat.cast_zero]
  rcases hn with rfl | rfl
  · rcases supported_two ht with rfl | rfl
    · have : ∀ u ∈ stdSubs ⟨2, 3⟩ 1, u.nv = 2 := by decide
      exact hs 1 (Or.inl rfl) _ (by decide) (lt_of_lt_of_eq hk (this u (List.mem_of_getElem? hu)))
    · have : ∀ i < 4, ∀ u ∈ (stdSubs ⟨2, 4⟩ 1)[i]?, ∀ k < u.nv, (facetVert ⟨2, 4⟩ i k).testBit (i / 2) = true ↔ i % 2 = 1 := by decide
      exact hc 1 _ (by decide) (this i hi u hu k hk)
  · rcases supported_three ht with rfl | rfl | rfl
    · have : ∀ u ∈ stdSubs ⟨3, 4⟩ 1, u.nv = 3 := by decide
      exact hs 2 (Or.inr rfl) _ (by decide) (lt_of_lt_of_eq hk (this u (List.mem_of_getElem? hu)))
    · have : ∀ i < 6, ∀ u ∈ (stdSubs ⟨3, 8⟩ 1)[i]?, ∀ k < u.nv, (facetVert ⟨3, 8⟩ i k).testBit (i / 2) = true ↔ i % 2 = 1 := by decide
      exact hc 2 _ (by decide) (this i hi u hu k hk)
    · have h5 : (stdSubs prismType 1).length = 5 := by decide
      have hv : ∀ i < 5, ∀ u ∈ (stdSubs prismType 1)[i]?, ∀ k < u.nv, facetVert prismType i k ∈
          (([[0, 1, 3, 4], [0, 2, 3, 5], [1, 2, 4, 5], [0, 1, 2], [3, 4, 5]] : List (List Nat)).getD i []) := by decide
      have hv := hv i (by omega) u hu k hk
      generalize facetVert prismType i k = v at hv
      have hi' : i = 0 ∨ i = 1 ∨ i = 2 ∨ i = 3 ∨ i = 4 := by omega
      rcases hi' with rfl | rfl | rfl | rfl | rfl <;> simp at hv
      · rcases hv with rfl | rfl | rfl | rfl <;> simp [facetOf, prismFacet, refCorner, prismType, coordinate]
      · rcases hv with rfl | rfl | rfl | rfl <;> simp [facetOf, prismFacet, refCorner, prismType, coordinate]
      · rcases hv with rfl | rfl | rfl | rfl <;> simp [facetOf, prismFacet, refCorner, prismType, coordinate]
      · rcases hv with rfl | rfl | rfl <;> simp [facetOf, prismFacet, refCorner, prismType, coordinate]
      · rcases hv with rfl | rfl | rfl <;> simp [facetOf, prismFacet, refCorner, prismType, coordinate]

/-- A common facet has a common point. -/
theorem common_point (hn : n = 1 ∨ n = 2) {G : LGrid E S Nat} (ok : G.OK) (types : ∀ e, Supported (n + 1) (G.elemGeo e)) {e e' : E} {i i' : Nat}
    (hi : i < numFacets (G.elemGeo e)) (hi' : i' < numFacets (G.elemGeo e')) (hs : G.sub e 1 i = G.sub e' 1 i') :
    ∃ x x' : Vec K (n + 1), Inside (G.elemGeo e) x ∧ Inside (G.elemGeo e') x' ∧ (facetOf K n (G.elemGeo e) i).On x ∧ (facetOf K n (G.elemGeo e') i').On x' ∧ SamePoint G e e' x x' := by
  obtain ⟨u, hu, hu', -⟩ := facet_type ok hi hi' hs
  have h0 : 0 < u.nv := by
    have : ∀ t ∈ elemTypes, t.dim = n + 1 → ∀ u ∈ stdSubs t 1, 0 < u.nv := by rcases hn with rfl | rfl <;> decide
    exact this _ (ok.type e) (types e).2.1 u (List.mem_of_getElem? hu)
  obtain ⟨m, hm, hid⟩ := (facet_ids ok hu hu' hs).1 0 h0
  have lt := (facetVert_inj (ok.type e) hu).1 m hm
  have lt' := (facetVert_inj (ok.type e') hu').1 0 h0
  refine ⟨refCorner K n (G.elemGeo e) (facetVert (G.elemGeo e) i m), refCorner K n (G.elemGeo e') (facetVert (G.elemGeo e') i' 0), refCorner_inside hn (types e) lt,
    refCorner_inside hn (types e') lt', refCorner_on hn (types e) hu hm, refCorner_on hn (types e') hu' h0, fun v hv v' hv' h => ?_⟩
  rw [refCorner_weight hn (types e) lt hv, refCorner_weight hn (types e') lt' hv']
  by_cases hvm : v = facetVert (G.elemGeo e) i m
  · rw [if_pos hvm, if_pos]
    exact ok.idsInj e' _ _ hv' lt' (by rw [← h, hvm, ← hid])
  · rw [if_neg hvm, if_neg]
    rintro rfl
    exact hvm (ok.idsInj e _ _ hv lt (by rw [h, hid]))

/-! ## Indices -/

omit [IsStrictOrderedRing K] in
theorem facetIndex_inj (hn : n = 1 ∨ n = 2) {G : LGrid E S Nat} {pos : Nat → Vec K (n + 1)} (hG : MixedGrid G n pos) {e e' : E} {i i' : Nat} (hi : i < numFacets (G.elemGeo e))
    (hi' : i' < numFacets (G.elemGeo e')) (h : facetIndex G e i = facetIndex G e' i') : G.sub e 1 i = G.sub e' 1 i' := by
  have hlay : ∀ e i, i < numFacets (G.elemGeo e) → 0 < rtLayout 0 G.dim (G.geo (G.sub e 1 i)) := by
    intro e i hi
    rw [hG.ok.base.subGeo e 1 i _ (by rw [hG.ok.std]; exact List.getElem?_eq_getElem hi), hG.dim]
    have t : ∀ t ∈ elemTypes, t.dim = n + 1 → t ≠ ⟨3, 5⟩ → ∀ u ∈ stdSubs t 1, 0 < rtLayout 0 (n + 1) u := by rcases hn with rfl | rfl <;> decide
    exact t _ (hG.types e).1 (hG.types e).2.1 (hG.types e).2.2 _ (List.getElem_mem _)
  exact ((mapper_inj hG.ok.base (rtLayout 0 G.dim) _ _ 0 0 (hlay e i hi) (hlay e' i' hi')).1 (by simpa using h)).1

omit [IsStrictOrderedRing K] in
/-- Every index belongs to a facet. -/
theorem facetIndex_surj (hn : n = 1 ∨ n = 2) {G : LGrid E S Nat} {pos : Nat → Vec K (n + 1)} (hG : MixedGrid G n pos) {m : Nat}
    (hm : m < mapperSize G.toGridView (rtLayout 0 G.dim)) : ∃ e i, i < numFacets (G.elemGeo e) ∧ m = facetIndex G e i := by
  obtain ⟨s, j, hj, rfl⟩ := mapper_surj hG.ok.base (rtLayout 0 G.dim) m hm
  obtain ⟨e, c, i, hc, hi, rfl⟩ := hG.ok.base.subSurj s
  rw [hG.dim] at hc
  rw [hG.ok.std] at hi
  rw [hG.ok.base.subGeo e c i _ (by rw [hG.ok.std]; exact List.getElem?_eq_getElem hi), hG.dim] at hj
  have t : ∀ t ∈ elemTypes, t.dim = n + 1 → t ≠ ⟨3, 5⟩ → ∀ c < n + 2, ∀ u ∈ stdSubs t c, rtLayout 0 (n + 1) u = if c = 1 then 1 else 0 := by rcases hn with rfl | rfl <;> decide
  rw [t _ (hG.types e).1 (hG.types e).2.1 (hG.types e).2.2 c (by omega) _ (List.getElem_mem _)] at hj
  obtain rfl : c = 1 := by
    by_contra h
    rw [if_neg h] at hj
    omega
  rw [if_pos rfl] at hj
  obtain rfl : j = 0 := by omega
  exact ⟨e, i, hi, rfl⟩

/-! ## Theorems -/

/-- Every transformed field of the reference element belongs to some coefficients. -/
theorem mixed_local (hn : n = 1 ∨ n = 2) {G : LGrid E S Nat} {pos : Nat → Vec K (n + 1)} (hG : MixedGrid G n pos)
    {isects : E → List (Isect E)} (hI : Neighbours G.toGridView isects) (fixed : Option Geo)
    (hfix : ∀ u, fixed = some u → ∀ e, u = G.elemGeo e ∧ (G.elemGeo e = simplexOf G.dim ∨ G.elemGeo e = cubeOf G.dim)) {geo : E → Geometry K (n + 1)}
    (hgeo : ∀ e x, Inside (G.elemGeo e) x → (geo e).OK (gridJac G pos e x) x) (e : E) {f : Vec K (n + 1) → Vec K (n + 1)} (hf : PiolaField (G.elemGeo e) (gridJac G pos e) f) :
    ∃ vec, ∀ x, Inside (G.elemGeo e) x → mixedValue G fixed isects geo vec e x = some (f x) := by
  obtain ⟨bits, -, -, -, hb⟩ := mixed_sum hn hG hI fixed hfix geo e
  obtain ⟨g, ⟨c, q, h1, h2, h3⟩, hf⟩ := hf
  have hinj : ∀ l l', l < numFacets (G.elemGeo e) → l' < numFacets (G.elemGeo e) → facetIndex G e l = facetIndex G e l' → l = l' := by
    intro l l' hl hl' h
    exact (hG.ok.base.subInj e 1 l 1 l' (by rw [hG.ok.std]; exact hl) (by rw [hG.ok.std]; exact hl') (facetIndex_inj hn hG hl hl' h)).2
  classical
  let vec : Nat → K := fun m => if h : ∃ l, l < numFacets (G.elemGeo e) ∧ facetIndex G e l = m then
    fieldWeight n (G.elemGeo e) c q h.choose * (if bits.testBit h.choose then (-1 : K) else 1) else 0
  have hvec : ∀ l, l < numFacets (G.elemGeo e) → vec (facetIndex G e l) = fieldWeight n (G.elemGeo e) c q l * if bits.testBit l then (-1 : K) else 1 := by
    intro l hl
    have h : ∃ l', l' < numFacets (G.elemGeo e) ∧ facetIndex G e l' = facetIndex G e l := ⟨l, hl, rfl⟩
    simp only [vec, dif_pos h]
    rw [hinj _ _ h.choose_spec.1 hl h.choose_spec.2]
  refine ⟨vec, fun x hx => ?_⟩
  have habs : |(gridJac G pos e x).det| ≠ 0 := abs_ne_zero.2 (hgeo e x hx).nondeg
  have hsum : ∑ l ∈ Finset.range (numFacets (G.elemGeo e)), (vec (facetIndex G e l) * if bits.testBit l then (-1 : K) else 1) • bare K n (G.elemGeo e) l x = g x := by
    funext j
    rw [h3, field_sum hn (hG.types e) h1 h2]
    refine congrFun (Finset.sum_congr rfl fun l hl => ?_) j
    rw [hvec l (Finset.mem_range.1 hl), mul_assoc]
    congr 1
    split <;> simp
  rw [hb vec x (hgeo e x hx), hsum, Option.some.injEq, ← hf x hx, smul_smul, inv_mul_cancel₀ habs, one_smul]

/-- **C102: space.** On every conforming grid of triangles and quadrilaterals or of tetrahedra, hexahedra and prisms with affine or multilinear geometries, a family of vector fields on the elements is
a function of the Raviart–Thomas basis of order 0 if and only if it is on each element the contravariant Piola transform of a field `(c j + q j x j) j` of the reference element (with equal slopes on
simplices and on the triangle of prisms) and its normal components are continuous. -/
theorem C102_space (hn : n = 1 ∨ n = 2) {G : LGrid E S Nat} {pos : Nat → Vec K (n + 1)} (hG : MixedGrid G n pos)
    {isects : E → List (Isect E)} (hI : Neighbours G.toGridView isects) (fixed : Option Geo)
    (hfix : ∀ u, fixed = some u → ∀ e, u = G.elemGeo e ∧ (G.elemGeo e = simplexOf G.dim ∨ G.elemGeo e = cubeOf G.dim)) {geo : E → Geometry K (n + 1)}
    (hgeo : ∀ e x, Inside (G.elemGeo e) x → (geo e).OK (gridJac G pos e x) x) (f : E → Vec K (n + 1) → Vec K (n + 1)) :
    (∃ vec, ∀ e x, Inside (G.elemGeo e) x → mixedValue G fixed isects geo vec e x = some (f e x)) ↔
      (∀ e, PiolaField (G.elemGeo e) (gridJac G pos e) (f e)) ∧ NormalMatching G n pos f := by
  constructor
  · rintro ⟨vec, hv⟩
    refine ⟨fun e => ?_, ?_⟩
    · obtain ⟨bits, -, -, -, hb⟩ := mixed_sum hn hG hI fixed hfix geo e
      refine ⟨fun x => ∑ l ∈ Finset.range (numFacets (G.elemGeo e)), (vec (facetIndex G e l) * if bits.testBit l then (-1 : K) else 1) • bare K n (G.elemGeo e) l x,
        RefField.sum _ fun l hl => (bare_field hn (hG.types e) (Finset.mem_range.1 hl)).smul _, fun x hx => ?_⟩
      have habs : |(gridJac G pos e x).det| ≠ 0 := abs_ne_zero.2 (hgeo e x hx).nondeg
      have := hb vec x (hgeo e x hx)
      rw [hv e x hx, Option.some.injEq] at this
      rw [this, smul_smul, mul_inv_cancel₀ habs, one_smul]
    · intro e e' i i' hne hi hi' hs x x' hin hin' hx hx' hxx N hN
      obtain ⟨v, v', h1, h2, h3⟩ := C67_mixed hn hG.ok hG.dim hG.types pos hI fixed hfix geo vec hne hi hi' hs hx hx' hxx (hgeo e x hin) (hgeo e' x' hin')
        (hG.sides e e' i i' hne hi hi' hs x x' hin hin' hx hx' hxx)
      have g1 := (hv e x hin).symm.trans h1
      have g2 := (hv e' x' hin').symm.trans h2
      rw [Option.some.injEq] at g1 g2
      rw [g1, g2]
      exact h3 N hN
  · rintro ⟨hloc, hcont⟩
    choose vecs hvecs using fun e => mixed_local hn hG hI fixed hfix hgeo e (hloc e)
    have hsame : ∀ e e' i i', i < numFacets (G.elemGeo e) → i' < numFacets (G.elemGeo e') → facetIndex G e i = facetIndex G e' i' →
        vecs e (facetIndex G e i) = vecs e' (facetIndex G e i) := by
      intro e e' i i' hi hi' h
      by_cases hne : e = e'
      · rw [hne]
      · have hs := facetIndex_inj hn hG hi hi' h
        obtain ⟨x, x', hin, hin', hx, hx', hxx⟩ := common_point (K := K) hn hG.ok hG.types hi hi' hs
        exact mixed_pair hn hG hI fixed hfix geo (vecs e) (vecs e') hne hi hi' hs hin hin' hx hx' hxx (hgeo e x hin) (hgeo e' x' hin') (hvecs e x hin) (hvecs e' x' hin')
          (hcont e e' i i' hne hi hi' hs x x' hin hin' hx hx' hxx)
    classical
    let vec : Nat → K := fun m => if h : ∃ e i, i < numFacets (G.elemGeo e) ∧ facetIndex G e i = m then vecs h.choose m else 0
    refine ⟨vec, fun e x hx => ?_⟩
    obtain ⟨bits, -, -, -, hb⟩ := mixed_sum hn hG hI fixed hfix geo e
    rw [← hvecs e x hx, hb _ x (hgeo e x hx), hb _ x (hgeo e x hx)]
    congr 3
    refine Finset.sum_congr rfl fun l hl => ?_
    have hl := Finset.mem_range.1 hl
    have h : ∃ e' i, i < numFacets (G.elemGeo e') ∧ facetIndex G e' i = facetIndex G e l := ⟨e, l, hl, rfl⟩
    have : vec (facetIndex G e l) = vecs e (facetIndex G e l) := by
      simp only [vec, dif_pos h]
      obtain ⟨i, hi, he⟩ := h.choose_spec
      have := hsame _ e i l hi hl he
      rwa [he] at this
    rw [this]

/-- **C102: facets.** The components of two functions orthogonal to a facet agree in a point of the facet if and only if their coefficients of the facet agree. -/
theorem C102_facet (hn : n = 1 ∨ n = 2) {G : LGrid E S Nat} {pos : Nat → Vec K (n + 1)} (hG : MixedGrid G n pos)
    {isects : E → List (Isect E)} (hI : Neighbours G.toGridView isects) (fixed : Option Geo)
    (hfix : ∀ u, fixed = some u → ∀ e, u = G.elemGeo e ∧ (G.elemGeo e = simplexOf G.dim ∨ G.elemGeo e = cubeOf G.dim)) (geo : E → Geometry K (n + 1)) (vec vec' : Nat → K)
    (e : E) {i : Nat} (hi : i < numFacets (G.elemGeo e)) {x : Vec K (n + 1)} (hx : (facetOf K n (G.elemGeo e) i).On x) (hJ : (geo e).OK (gridJac G pos e x) x) :
    ∃ v v', mixedValue G fixed isects geo vec e x = some v ∧ mixedValue G fixed isects geo vec' e x = some v' ∧
      (vec (facetIndex G e i) = vec' (facetIndex G e i) ↔
        ∀ N : Vec K (n + 1), (∀ k, N ⬝ᵥ (gridJac G pos e x *ᵥ (facetOf K n (G.elemGeo e) i).frame k) = 0) → N ⬝ᵥ v = N ⬝ᵥ v') := by
  obtain ⟨b, b1, b2, b3, -⟩ := mixed_sum hn hG hI fixed hfix geo e
  refine ⟨_, _, b3 vec x, b3 vec' x, ?_⟩
  have hu : (stdSubs (G.elemGeo e) 1)[i]? = some (stdSubs (G.elemGeo e) 1)[i] := List.getElem?_eq_getElem hi
  have f1 := mixed_flux hn hG geo b1 hu hx hJ vec
  have f2 := mixed_flux hn hG geo b1 hu hx hJ vec'
  have f3 := mixed_flux hn hG geo b1 hu hx hJ fun _ => 1
  generalize axpyAll (((mapperLeaf G.toGridView (rtLayout 0 G.dim) fun e => rtKeys (G.elemGeo e)).loc e).map vec)
    ((globalValued .contra (geo e) (rtTable (kindOf (G.elemGeo e)) b)).eval x) = v at f1 ⊢
  generalize axpyAll (((mapperLeaf G.toGridView (rtLayout 0 G.dim) fun e => rtKeys (G.elemGeo e)).loc e).map vec')
    ((globalValued .contra (geo e) (rtTable (kindOf (G.elemGeo e)) b)).eval x) = v' at f2 ⊢
  rw [outerFlux_eq] at f1 f2 f3
  have hs : (if b.testBit i then -fluxOf K (stdSubs (G.elemGeo e) 1)[i] else fluxOf K (stdSubs (G.elemGeo e) 1)[i]) ≠ 0 := by
    have := fluxOf_ne (K := K) (stdSubs (G.elemGeo e) 1)[i]
    split <;> simpa using this
  rw [one_mul] at f3
  have hw : vol (gridJac G pos e x *ᵥ (facetOf K n (G.elemGeo e) i).out) (fun k => gridJac G pos e x *ᵥ (facetOf K n (G.elemGeo e) i).frame k) ≠ 0 := by
    intro h
    rw [h, sign_zero] at f3
    simp only [SignType.coe_zero, mul_zero] at f3
    exact hs f3.symm
  have hsn : (SignType.sign (vol (gridJac G pos e x *ᵥ (facetOf K n (G.elemGeo e) i).out) (fun k => gridJac G pos e x *ᵥ (facetOf K n (G.elemGeo e) i).frame k)) : K) ≠ 0 := by
    rcases lt_or_gt_of_ne hw with h | h
    · rw [sign_neg h]
      simp
    · rw [sign_pos h]
      simp
  constructor
  · intro h N hN
    have hvol : vol v (fun k => gridJac G pos e x *ᵥ (facetOf K n (G.elemGeo e) i).frame k) = vol v' (fun k => gridJac G pos e x *ᵥ (facetOf K n (G.elemGeo e) i).frame k) := by
      apply mul_right_cancel₀ hsn
      rw [f1, f2, h]
    have := normal_zero hw (show vol (v + (-1 : K) • v') _ = 0 by rw [vol_add, vol_smul, hvol]; ring) N hN
    rw [dotProduct_add, dotProduct_smul, smul_eq_mul] at this
    linear_combination this
  · intro h
    obtain ⟨N, N1, N2⟩ := exists_normal (fun k => gridJac G pos e x *ᵥ (facetOf K n (G.elemGeo e) i).frame k)
    have hN := h N N1
    rw [← N2, ← N2] at hN
    apply mul_right_cancel₀ hs
    rw [← f1, ← f2, hN]

/-- **C102: coefficients.** The coefficients of a function are unique. -/
theorem C102_unique (hn : n = 1 ∨ n = 2) {G : LGrid E S Nat} {pos : Nat → Vec K (n + 1)} (hG : MixedGrid G n pos)
    {isects : E → List (Isect E)} (hI : Neighbours G.toGridView isects) (fixed : Option Geo)
    (hfix : ∀ u, fixed = some u → ∀ e, u = G.elemGeo e ∧ (G.elemGeo e = simplexOf G.dim ∨ G.elemGeo e = cubeOf G.dim)) {geo : E → Geometry K (n + 1)}
    (hgeo : ∀ e x, Inside (G.elemGeo e) x → (geo e).OK (gridJac G pos e x) x) (vec vec' : Nat → K)
    (heq : ∀ e x, Inside (G.elemGeo e) x → mixedValue G fixed isects geo vec e x = mixedValue G fixed isects geo vec' e x) :
    ∀ m < (mapperLeaf G.toGridView (rtLayout 0 G.dim) fun e => rtKeys (G.elemGeo e)).dim, vec m = vec' m := by
  intro m hm
  obtain ⟨e, i, hi, rfl⟩ := facetIndex_surj hn hG hm
  obtain ⟨x, -, hin, -, hx, -⟩ := common_point (K := K) hn hG.ok hG.types hi hi rfl
  obtain ⟨v, v', h1, h2, h3⟩ := C102_facet hn hG hI fixed hfix geo vec vec' e hi hx (hgeo e x hin)
  refine h3.2 fun N _ => ?_
  rw [heq e x hin, h2, Option.some.injEq] at h1
  rw [h1]

/-- Area of a facet of a reference element. -/
def refArea (K : Type) [Field K] (u : Geo) : K := if u = ⟨2, 3⟩ then 1 / 2 else 1

/-- Volume of a reference element. -/
def refVolume (K : Type) [Field K] (t : Geo) : K := if t = ⟨2, 3⟩ ∨ t = prismType then 1 / 2 else if t = ⟨3, 4⟩ then 1 / 6 else 1

/-- Divergence of the shape functions of the reference elements: their total flux, which is 1, divided by the volume. -/
theorem bare_divergence (hn : n = 1 ∨ n = 2) {t : Geo} (ht : Supported (n + 1) t) {l : Nat} (hl : l < numFacets t) (x : Vec K (n + 1)) :
    refVolume K t * ∑ j : Fin (n + 1), (bare K n t l (x + unit K n j) j - bare K n t l x j) = 1 := by
  rcases hn with rfl | rfl
  · rcases supported_two ht with rfl | rfl
    · have : l < 3 := lt_of_lt_of_eq hl (by decide)
      simp [refVolume, bare, prismType, unit]
    · have : l < 4 := lt_of_lt_of_eq hl (by decide)
      interval_cases l <;> simp [refVolume, bare, prismType, unit, Fin.sum_univ_succ]
  · rcases supported_three ht with rfl | rfl | rfl
    · have : l < 4 := lt_of_lt_of_eq hl (by decide)
      simp [refVolume, bare, prismType, unit, Fin.sum_univ_succ]
      ring
    · have : l < 6 := lt_of_lt_of_eq hl (by decide)
      interval_cases l <;> simp [refVolume, bare, prismType, unit, Fin.sum_univ_succ]
    · have : l < 5 := lt_of_lt_of_eq hl (by decide)
      interval_cases l <;> simp [refVolume, bare, prismType, unit, Fin.sum_univ_succ, prismField, coordinate] <;> ring

theorem area_flux (u : Geo) : refArea K u * fluxOf K u = 1 := by
  rw [refArea, fluxOf]
  split <;> simp

/-- **C102: divergence.** On each element, the divergence `∑ q j` of the field of the reference element times the volume of the reference element is the total flux through the facets; the flux through
a facet is constant on the facet. -/
theorem C102_divergence (hn : n = 1 ∨ n = 2) {G : LGrid E S Nat} {pos : Nat → Vec K (n + 1)} (hG : MixedGrid G n pos)
    {isects : E → List (Isect E)} (hI : Neighbours G.toGridView isects) (fixed : Option Geo)
    (hfix : ∀ u, fixed = some u → ∀ e, u = G.elemGeo e ∧ (G.elemGeo e = simplexOf G.dim ∨ G.elemGeo e = cubeOf G.dim)) {geo : E → Geometry K (n + 1)}
    (hgeo : ∀ e x, Inside (G.elemGeo e) x → (geo e).OK (gridJac G pos e x) x) (vec : Nat → K) (e : E) (f : Vec K (n + 1) → Vec K (n + 1))
    (hf : ∀ x, Inside (G.elemGeo e) x → mixedValue G fixed isects geo vec e x = some (f x)) :
    ∃ c q : Vec K (n + 1), (∀ x, Inside (G.elemGeo e) x → |(gridJac G pos e x).det| • f x = gridJac G pos e x *ᵥ fun j => c j + q j * x j) ∧
      ∀ x : Nat → Vec K (n + 1), (∀ i < numFacets (G.elemGeo e), Inside (G.elemGeo e) (x i) ∧ (facetOf K n (G.elemGeo e) i).On (x i)) →
        refVolume K (G.elemGeo e) * ∑ j, q j = ∑ i ∈ Finset.range (numFacets (G.elemGeo e)), refArea K ((stdSubs (G.elemGeo e) 1).getD i ⟨0, 1⟩) *
          outerFlux (f (x i)) (fun k => gridJac G pos e (x i) *ᵥ (facetOf K n (G.elemGeo e) i).frame k) (gridJac G pos e (x i) *ᵥ (facetOf K n (G.elemGeo e) i).out) := by
  obtain ⟨bits, b1, -, b3, hb⟩ := mixed_sum hn hG hI fixed hfix geo e
  set w : Nat → K := fun l => vec (facetIndex G e l) * if bits.testBit l then (-1 : K) else 1 with hw
  obtain ⟨c, q, -, -, h3⟩ := RefField.sum (Finset.range (numFacets (G.elemGeo e))) fun l hl => (bare_field (K := K) hn (hG.types e) (Finset.mem_range.1 hl)).smul (w l)
  refine ⟨c, q, fun x hx => ?_, fun x hx => ?_⟩
  · have habs : |(gridJac G pos e x).det| ≠ 0 := abs_ne_zero.2 (hgeo e x hx).nondeg
    have := hb vec x (hgeo e x hx)
    rw [hf x hx, Option.some.injEq] at this
    rw [this, smul_smul, mul_inv_cancel₀ habs, one_smul]
    congr 1
    funext j
    exact h3 x j
  · have hq : ∀ j, q j = ∑ l ∈ Finset.range (numFacets (G.elemGeo e)), w l * (bare K n (G.elemGeo e) l (0 + unit K n j) j - bare K n (G.elemGeo e) l 0 j) := by
      intro j
      have e1 := h3 (0 + unit K n j) j
      have e2 := h3 0 j
      simp only [Finset.sum_apply, Pi.smul_apply, smul_eq_mul] at e1 e2
      simp only [mul_sub, Finset.sum_sub_distrib]
      rw [e1, e2]
      simp [unit]
    simp only [hq]
    rw [Finset.sum_comm, Finset.mul_sum]
    refine Finset.sum_congr rfl fun i hi => ?_
    have hi := Finset.mem_range.1 hi
    rw [← Finset.mul_sum, mul_left_comm, bare_divergence hn (hG.types e) hi, mul_one]
    have hu : (stdSubs (G.elemGeo e) 1)[i]? = some (stdSubs (G.elemGeo e) 1)[i] := List.getElem?_eq_getElem hi
    have hfl := mixed_flux hn hG geo b1 hu (hx i hi).2 (hgeo e _ (hx i hi).1) vec
    have := hf (x i) (hx i hi).1
    rw [b3, Option.some.injEq] at this
    rw [this] at hfl
    rw [hfl, List.getD_eq_getElem?_getD, hu, Option.getD_some]
    simp only [hw]
    have ha := area_flux (K := K) (stdSubs (G.elemGeo e) 1)[i]
    cases hbit : bits.testBit i
    · simp only [Bool.false_eq_true, ↓reduceIte]
      linear_combination -(vec (facetIndex G e i)) * ha
    · simp only [↓reduceIte]
      linear_combination (vec (facetIndex G e i)) * ha

/-! ## Examples: a trapezoid and a triangle -/

/-- Positions of the vertices of `mixedGrid`. -/
def trapezoidPos (v : Nat) : Vec ℝ 2 := if v = 10 then ![0, 0] else if v = 20 then ![2, 0] else if v = 30 then ![0, 1] else if v = 40 then ![1, 1] else ![3, 1]

def trapezoidIsects (e : Fin 2) : List (Isect (Fin 2)) :=
  if e = 0 then [⟨0, none, true⟩, ⟨1, some 1, true⟩, ⟨2, none, true⟩, ⟨3, none, true⟩] else [⟨0, some 0, true⟩, ⟨1, none, true⟩, ⟨2, none, true⟩]

theorem trapezoid_neighbours : Neighbours Continuity.mixedGrid.toGridView trapezoidIsects where
  inside := by decide
  shared := by
    have : ∀ e e' : Fin 2, ∀ i ∈ List.range (numFacets (Continuity.mixedGrid.elemGeo e)), ∀ i' ∈ List.range (numFacets (Continuity.mixedGrid.elemGeo e')), e ≠ e' →
        Continuity.mixedGrid.sub e 1 i = Continuity.mixedGrid.sub e' 1 i' →
        (∃ s ∈ trapezoidIsects e, s.inside = i ∧ s.contained = true ∧ s.outside = some e') ∧ ∀ s ∈ trapezoidIsects e, s.inside = i → s.outside = some e' := by decide +kernel
    exact fun e e' i i' hne hi hi' hs => this e e' i (List.mem_range.2 hi) i' (List.mem_range.2 hi') hne hs

theorem quadrilateral_position (p : Nat → Vec ℝ 2) (x : Vec ℝ 2) :
    position ⟨2, 4⟩ p x = ((1 - x 0) * (1 - x 1)) • p 0 + (x 0 * (1 - x 1)) • p 1 + ((1 - x 0) * x 1) • p 2 + (x 0 * x 1) • p 3 := by
  simp [position, Fin.sum_univ_succ, vertexWeight, Continuity.cubeBw, Fin.prod_univ_succ, Nat.testBit]
  abel

theorem triangle_position (p : Nat → Vec ℝ 2) (x : Vec ℝ 2) : position ⟨2, 3⟩ p x = (1 - (x 0 + x 1)) • p 0 + x 0 • p 1 + x 1 • p 2 := by
  simp [position, Fin.sum_univ_succ, vertexWeight, HDiv.Tangential.bary, prismType]
  abel

/-- The positions of the points of the trapezoid and of the triangle. -/
theorem trapezoid_position (x : Vec ℝ 2) : position (Continuity.mixedGrid.elemGeo 0) (fun v => trapezoidPos (Continuity.mixedGrid.ids 0 v)) x = ![x 0 * (2 - x 1), x 1] ∧
    position (Continuity.mixedGrid.elemGeo 1) (fun v => trapezoidPos (Continuity.mixedGrid.ids 1 v)) x = ![1 + x 0 + 2 * x 1, 1 - x 0] := by
  constructor
  · refine (quadrilateral_position _ x).trans ?_
    funext d
    fin_cases d <;> simp [Continuity.mixedGrid, trapezoidPos] <;> ring
  · refine (triangle_position _ x).trans ?_
    funext d
    fin_cases d <;> simp [Continuity.mixedGrid, trapezoidPos] <;> ring

/-- Their Jacobians. -/
theorem trapezoid_jac (x : Vec ℝ 2) : gridJac Continuity.mixedGrid trapezoidPos 0 x = !![2 - x 1, -x 0; 0, 1] ∧ gridJac Continuity.mixedGrid trapezoidPos 1 x = !![1, 2; -1, 0] := by
  constructor
  · ext d j
    simp only [gridJac, jacobian, Matrix.of_apply]
    rw [(trapezoid_position _).1, (trapezoid_position _).1]
    fin_cases d <;> fin_cases j <;> simp [unit] <;> ring
  · ext d j
    simp only [gridJac, jacobian, Matrix.of_apply]
    rw [(trapezoid_position _).2, (trapezoid_position _).2]
    fin_cases d <;> fin_cases j <;> simp [unit] <;> ring

theorem trapezoid_det (x : Vec ℝ 2) : (gridJac Continuity.mixedGrid trapezoidPos 0 x).det = 2 - x 1 ∧ (gridJac Continuity.mixedGrid trapezoidPos 1 x).det = 2 := by
  rw [(trapezoid_jac x).1, (trapezoid_jac x).2]
  exact ⟨(Matrix.det_fin_two_of _ _ _ _).trans (by ring), (Matrix.det_fin_two_of _ _ _ _).trans (by ring)⟩

theorem trapezoid_inside {x : Vec ℝ 2} (h : Inside ⟨2, 4⟩ x) : 0 ≤ x 1 ∧ x 1 ≤ 1 := by
  have h0 := h 0 (by decide)
  have h1 := h 1 (by decide)
  have h2 := h 2 (by decide)
  have h3 := h 3 (by decide)
  simp [vertexWeight, Continuity.cubeBw, Fin.prod_univ_succ, Nat.testBit] at h0 h1 h2 h3
  constructor <;> nlinarith

theorem trapezoid_grid : MixedGrid Continuity.mixedGrid 1 trapezoidPos where
  ok := Continuity.mixedGrid_OK
  dim := rfl
  types := by decide
  sides := by
    intro e e' i i' hne hi hi' hs x x' hin hin' hx hx' _
    have t : ∀ e e' : Fin 2, ∀ i ∈ List.range (numFacets (Continuity.mixedGrid.elemGeo e)), ∀ i' ∈ List.range (numFacets (Continuity.mixedGrid.elemGeo e')), e ≠ e' →
        Continuity.mixedGrid.sub e 1 i = Continuity.mixedGrid.sub e' 1 i' → e = 0 ∧ e' = 1 ∧ i = 1 ∧ i' = 0 ∨ e = 1 ∧ e' = 0 ∧ i = 0 ∧ i' = 1 := by decide +kernel
    have hf : (facetOf ℝ 1 (Continuity.mixedGrid.elemGeo 0) 1).out = ![1, 0] ∧ (facetOf ℝ 1 (Continuity.mixedGrid.elemGeo 0) 1).frame = ![![0, 1]] := by
      constructor
      · funext d
        fin_cases d <;> simp [facetOf, Continuity.mixedGrid, cubeFacet, unit]
      · funext k d
        fin_cases d <;> simp [facetOf, Continuity.mixedGrid, cubeFacet, unit]
    have hf' : (facetOf ℝ 1 (Continuity.mixedGrid.elemGeo 1) 0).out = ![0, -1] ∧ (facetOf ℝ 1 (Continuity.mixedGrid.elemGeo 1) 0).frame = ![![1, 0]] := by
      constructor
      · funext d
        fin_cases d <;> simp [facetOf, Continuity.mixedGrid, prismType, simplexFacet, corner, facetVertex, simplexOf, refOf, subVerts, triangle]
      · funext k d
        fin_cases d <;> simp [facetOf, Continuity.mixedGrid, prismType, simplexFacet, corner, facetVertex, simplexOf, refOf, subVerts, triangle]
    have hgeo : Continuity.mixedGrid.elemGeo 0 = ⟨2, 4⟩ := rfl
    rcases t e e' i (List.mem_range.2 hi) i' (List.mem_range.2 hi') hne hs with ⟨rfl, rfl, rfl, rfl⟩ | ⟨rfl, rfl, rfl, rfl⟩
    · have hx0 : x 0 = 1 := by simpa [facetOf, Continuity.mixedGrid, cubeFacet] using hx
      have := trapezoid_inside hin
      rw [(trapezoid_jac x).1, (trapezoid_jac x').2, hf.1, hf.2, hf'.1]
      simp [vol, Matrix.det_fin_two, hx0]
      linarith
    · have hx0 : x' 0 = 1 := by simpa [facetOf, Continuity.mixedGrid, cubeFacet] using hx'
      have := trapezoid_inside hin'
      rw [(trapezoid_jac x').1, (trapezoid_jac x).2, hf.1, hf'.1, hf'.2]
      simp [vol, Matrix.det_fin_two]
      linarith

noncomputable def trapezoidGeo (e : Fin 2) : Geometry ℝ 2 := ofJacobian fun x => gridJac Continuity.mixedGrid trapezoidPos e x

theorem trapezoid_geo : ∀ e x, Inside (Continuity.mixedGrid.elemGeo e) x → (trapezoidGeo e).OK (gridJac Continuity.mixedGrid trapezoidPos e x) x := by
  intro e x hx
  refine ofJacobian_OK _ x ?_
  fin_cases e
  · have := trapezoid_inside hx
    simp only [Fin.zero_eta, (trapezoid_det x).1]
    intro h
    linarith
  · simp [(trapezoid_det x).2]

/-- Constant fields are functions of the basis, although the Jacobian of the trapezoid is not constant. -/
example (p : Vec ℝ 2) : ∃ vec, ∀ e x, Inside (Continuity.mixedGrid.elemGeo e) x → mixedValue Continuity.mixedGrid none trapezoidIsects trapezoidGeo vec e x = some p := by
  refine (C102_space (Or.inl rfl) trapezoid_grid trapezoid_neighbours none (by simp) trapezoid_geo fun _ _ => p).2 ⟨fun e => ?_, fun _ _ _ _ _ _ _ _ _ _ _ _ _ _ _ _ _ => rfl⟩
  fin_cases e
  · refine ⟨fun x => ![p 0 + p 1 * x 0, 2 * p 1 - p 1 * x 1], ⟨![p 0, 2 * p 1], ![p 1, -p 1], fun h => absurd h (by decide), fun h => absurd h (by decide), fun x j => ?_⟩,
      fun x hx => ?_⟩
    · fin_cases j <;> simp <;> ring
    · have := trapezoid_inside hx
      simp only [Fin.zero_eta, (trapezoid_det x).1]
      rw [(trapezoid_jac x).1]
      rw [abs_of_nonneg (by linarith)]
      funext d
      fin_cases d <;> simp [Matrix.mulVec, dotProduct, Fin.sum_univ_succ] <;> ring
  · refine ⟨fun _ => ![-2 * p 1, p 0 + p 1], ⟨![-2 * p 1, p 0 + p 1], 0, fun _ _ _ => rfl, fun _ _ _ _ _ => rfl, fun x j => by simp⟩, fun x hx => ?_⟩
    simp only [Fin.mk_one, (trapezoid_det x).2]
    rw [(trapezoid_jac x).2]
    funext d
    fin_cases d <;> simp [Matrix.mulVec, dotProduct, Fin.sum_univ_succ] <;> ring

/-- The field of the positions is not: its transform to the reference square is not affine in the second coordinate. -/
example : ¬ ∃ vec, ∀ e x, Inside (Continuity.mixedGrid.elemGeo e) x → mixedValue Continuity.mixedGrid none trapezoidIsects trapezoidGeo vec e x =
    some (position (Continuity.mixedGrid.elemGeo e) (fun v => trapezoidPos (Continuity.mixedGrid.ids e v)) x) := by
  intro h
  obtain ⟨g, ⟨c, q, -, -, h3⟩, hf⟩ := ((C102_space (Or.inl rfl) trapezoid_grid trapezoid_neighbours none (by simp) trapezoid_geo _).1 h).1 0
  have hy : ∀ y : ℝ, 0 ≤ y → y ≤ 1 → (2 - y) * y = c 1 + q 1 * y := by
    intro y h0 h1
    have hin : Inside (Continuity.mixedGrid.elemGeo 0) ![0, y] := by
      show Inside ⟨2, 4⟩ _
      intro v hv
      simp only at hv
      interval_cases v <;> simp [vertexWeight, Continuity.cubeBw, Fin.prod_univ_succ, Nat.testBit, h0, h1]
    have := congrFun (hf _ hin) 1
    rw [(trapezoid_det _).1, (trapezoid_jac _).1, (trapezoid_position _).1] at this
    simp [Matrix.mulVec, dotProduct, Fin.sum_univ_succ, h3] at this
    rw [abs_of_nonneg (by linarith)] at this
    exact this
  have h0 := hy 0 le_rfl zero_le_one
  have h1 := hy 1 zero_le_one le_rfl
  have h2 := hy (1 / 2) (by norm_num) (by norm_num)
  linarith

/-- Six degrees of freedom, one for each edge. -/
example (vec vec' : Nat → ℝ) (h : ∀ e x, Inside (Continuity.mixedGrid.elemGeo e) x → mixedValue Continuity.mixedGrid none trapezoidIsects trapezoidGeo vec e x =
    mixedValue Continuity.mixedGrid none trapezoidIsects trapezoidGeo vec' e x) : ∀ m < 6, vec m = vec' m :=
  fun m hm => C102_unique (Or.inl rfl) trapezoid_grid trapezoid_neighbours none (by simp) trapezoid_geo vec vec' h m
    (lt_of_lt_of_eq hm (show 6 = mapperSize Continuity.mixedGrid.toGridView (rtLayout 0 2) by decide +kernel))

end Verif.HDiv.Trace
