import Verif.HDiv.BDM
import Verif.HDiv.RTSpace

/-!
# The space of Brezzi–Douglas–Marini functions

On triangle grids whose elements have the same orientation, the functions of the Brezzi–Douglas–Marini basis of order 1 are the fields that are affine on each triangle and have continuous normal components.
-/

namespace Verif.HDiv.BDM

open Matrix Verif.Mapper Verif.Lagrange Verif.Piola Verif.HDiv.Trace
open Verif.Lagrange.Continuity (Supported vertexWeight prismType)

variable {E S K : Type} [Field K] [LinearOrder K] [IsStrictOrderedRing K]

/-! ## Specification -/

/-- A conforming grid of affine triangles with its intersections, indices of the elements and geometries. -/
structure Setting (G : LGrid E S Nat) (pos : Nat → Vec K 2) (jac : E → Mat K 2) (idx : E → Nat) (isects : E → List (Isect E)) (geo : E → Geometry K 2) : Prop where
  grid : SimplexGrid G 1 pos jac
  idxInj : Function.Injective idx
  neighbours : Neighbours G.toGridView isects
  contained : ∀ e, ∀ s ∈ isects e, s.outside ≠ none → s.contained = true
  geo : ∀ e x, (geo e).OK (jac e) x

/-- All elements have the same orientation. -/
def Oriented (jac : E → Mat K 2) : Prop := ∀ e e', 0 < (jac e).det * (jac e').det

/-- A vector field, given in local coordinates, is affine in the global coordinates. -/
def AffineField (p0 : Vec K 2) (J : Mat K 2) (f : Vec K 2 → Vec K 2) : Prop := ∃ (p : Vec K 2) (Q : Mat K 2), ∀ x, f x = p + Q *ᵥ global (n := 1) p0 J x

/-- A discrete function of the Brezzi–Douglas–Marini basis of order 1. -/
abbrev bdmValue (G : LGrid E S Nat) (idx : E → Nat) (isects : E → List (Isect E)) (geo : E → Geometry K 2) (vec : Nat → K) (e : E) (x : Vec K 2) : Option (Vec K 2) :=
  value G.toGridView idx isects bdmTable bdmKeys geo vec e x

/-- The first index of edge `i` of the element `e`; the second one follows. -/
abbrev bdmIndex (G : LGrid E S Nat) (e : E) (i : Nat) : Nat := mapperIndex G.toGridView (bdmLayout 1 G.dim) (G.sub e 1 i)

/-! ## One element -/

/-- The second shape function of edge `i`. -/
def second (i : Fin 3) (x : Vec K 2) : Vec K 2 :=
  ![![3 * x 0, 3 - 6 * x 0 - 3 * x 1], ![-3 + 3 * x 0 + 6 * x 1, -3 * x 1], ![-3 * x 0, 3 * x 1]] i

variable {G : LGrid E S Nat} {pos : Nat → Vec K 2} {jac : E → Mat K 2} {idx : E → Nat} {isects : E → List (Isect E)} {geo : E → Geometry K 2}

omit [IsStrictOrderedRing K] in
/-- The values of the discrete function on one element. -/
theorem bdm_sum (h : Setting G pos jac idx isects geo) (e : E) :
    ∃ bits, (∀ i, bits.testBit i = true ↔ Flipped idx e (isects e) i) ∧
      (∀ vec x, bdmValue G idx isects geo vec e x = some (axpyAll (((mapperLeaf G.toGridView (bdmLayout 1 G.dim) fun e => bdmKeys (G.elemGeo e)).loc e).map vec)
        ((globalValued .contra (geo e) (bdmTable (kindOf (G.elemGeo e)) bits)).eval x))) ∧
      ∀ vec x, bdmValue G idx isects geo vec e x = some ((|(jac e).det|)⁻¹ • (jac e *ᵥ ∑ l : Fin 3,
        ((vec (bdmIndex G e l) * if bits.testBit l then -1 else 1) • (x - corner K 1 (2 - l)) + vec (bdmIndex G e l + 1) • second l x))) := by
  have ht : G.elemGeo e = ⟨2, 3⟩ := h.grid.simplices e
  obtain ⟨bits, h1, h2⟩ := C47_bdm G.dim idx e (G.elemGeo e) (by rw [ht]; tauto) (h.grid.ok.base.elemMem e).2 (isects e) (h.neighbours.inside e) (h.contained e)
  have hv : ∀ vec x, bdmValue G idx isects geo vec e x = some (axpyAll (((mapperLeaf G.toGridView (bdmLayout 1 G.dim) fun e => bdmKeys (G.elemGeo e)).loc e).map vec)
        ((globalValued .contra (geo e) (bdmTable (kindOf (G.elemGeo e)) bits)).eval x)) := by
    intro vec x
    rw [bdmValue, value, h1]
    rfl
  refine ⟨bits, h2, hv, fun vec x => ?_⟩
  rw [hv, Option.some.injEq]
  have hk : bdmKeys (G.elemGeo e) = [⟨0, 1, 0⟩, ⟨1, 1, 0⟩, ⟨2, 1, 0⟩, ⟨0, 1, 1⟩, ⟨1, 1, 1⟩, ⟨2, 1, 1⟩] := by
    rw [ht]
    decide
  have hkind : bdmTable (K := K) (kindOf (G.elemGeo e)) bits = bdm1Simplex bits := by
    rw [ht]
    rfl
  simp only [mapperLeaf, hk, hkind, globalValued, apply, contraApply_eq (h.geo e x), bdm1Simplex, List.map_cons, List.map_nil, axpyAll, List.zip_cons_cons, List.zip_nil_left,
    List.foldl_cons, List.foldl_nil, Fin.sum_univ_three, Fin.val_zero, Fin.val_one, Fin.val_two]
  generalize (if bits.testBit 0 = true then (-1 : K) else 1) = s0
  generalize (if bits.testBit 1 = true then (-1 : K) else 1) = s1
  generalize (if bits.testBit 2 = true then (-1 : K) else 1) = s2
  generalize (|(jac e).det|)⁻¹ = w
  generalize jac e = J
  funext d
  simp [second, corner, Matrix.mulVec, dotProduct, Fin.sum_univ_two, Matrix.vecHead, Matrix.vecTail]
  ring

omit [LinearOrder K] [IsStrictOrderedRing K] in
/-- The shape functions span the affine fields on the reference triangle. -/
theorem reference_span (hK : (6 : K) ≠ 0) (c : Vec K 2) (M : Mat K 2) : ∃ a b : Fin 3 → K, ∀ x, c + M *ᵥ x = ∑ l : Fin 3, (a l • (x - corner K 1 (2 - l)) + b l • second l x) := by
  have h2 : (2 : K) ≠ 0 := fun h => hK (by linear_combination 3 * h)
  refine ⟨![-(c 1 + M 1 0 / 2), -(c 0 + M 0 1 / 2), c 0 + c 1 + (M 0 0 + M 0 1 + M 1 0 + M 1 1) / 2],
    ![-M 1 0 / 6, M 0 1 / 6, (M 0 1 + M 1 1 - M 0 0 - M 1 0) / 6], fun x => ?_⟩
  funext d
  fin_cases d <;> simp [second, corner, Matrix.mulVec, dotProduct, Fin.sum_univ_two, Fin.sum_univ_three] <;> field_simp <;> ring

/-! ## Indices -/

omit [IsStrictOrderedRing K] in
theorem two_indices (h : Setting G pos jac idx isects geo) (e : E) {i : Nat} (hi : i < 3) : bdmLayout 1 G.dim (G.geo (G.sub e 1 i)) = 2 := by
  obtain ⟨u, hu⟩ : ∃ u, (stdSubs ⟨2, 3⟩ 1)[i]? = some u := ⟨_, List.getElem?_eq_getElem hi⟩
  rw [h.grid.ok.base.subGeo e 1 i u (by rw [h.grid.ok.std, h.grid.simplices]; exact hu), h.grid.dim]
  have t : ∀ u ∈ stdSubs ⟨2, 3⟩ 1, bdmLayout 1 2 u = 2 := by decide
  exact t u (List.mem_of_getElem? hu)

omit [IsStrictOrderedRing K] in
theorem bdmIndex_inj (h : Setting G pos jac idx isects geo) {e e' : E} {i i' : Nat} (hi : i < 3) (hi' : i' < 3) {m m' : Nat} (hm : m < 2) (hm' : m' < 2)
    (he : bdmIndex G e i + m = bdmIndex G e' i' + m') : G.sub e 1 i = G.sub e' 1 i' ∧ m = m' :=
  (mapper_inj h.grid.ok.base (bdmLayout 1 G.dim) _ _ m m' (by rw [two_indices h e hi]; exact hm) (by rw [two_indices h e' hi']; exact hm')).1 he

omit [IsStrictOrderedRing K] in
/-- Every index belongs to an edge. -/
theorem bdmIndex_surj (h : Setting G pos jac idx isects geo) {m : Nat} (hm : m < mapperSize G.toGridView (bdmLayout 1 G.dim)) :
    ∃ e i j, i < 3 ∧ j < 2 ∧ m = bdmIndex G e i + j := by
  obtain ⟨s, j, hj, rfl⟩ := mapper_surj h.grid.ok.base (bdmLayout 1 G.dim) m hm
  obtain ⟨e, c, i, hc, hi, rfl⟩ := h.grid.ok.base.subSurj s
  rw [h.grid.dim] at hc
  rw [h.grid.ok.std, h.grid.simplices] at hi
  obtain ⟨u, hu⟩ : ∃ u, (stdSubs (simplexOf (1 + 1)) c)[i]? = some u := ⟨_, List.getElem?_eq_getElem hi⟩
  rw [h.grid.ok.base.subGeo e c i u (by rw [h.grid.ok.std, h.grid.simplices]; exact hu), h.grid.dim] at hj
  have t : ∀ c < 3, ∀ u ∈ stdSubs ⟨2, 3⟩ c, bdmLayout 1 2 u = if c = 1 then 2 else 0 := by decide
  rw [t c (by omega) u (List.mem_of_getElem? hu)] at hj
  obtain rfl : c = 1 := by
    by_contra hne
    rw [if_neg hne] at hj
    omega
  rw [if_pos rfl] at hj
  exact ⟨e, i, j, hi, hj, rfl⟩

/-! ## Common points -/

omit [LinearOrder K] [IsStrictOrderedRing K] in
theorem facet_simplex (i : Nat) : facetOf K 1 ⟨2, 3⟩ i = simplexFacet K 1 i := by simp [facetOf, prismType]

theorem facetVert_simplex (i k : Nat) : facetVert ⟨2, 3⟩ i k = facetVertex 1 i k := rfl

omit [LinearOrder K] [IsStrictOrderedRing K] in
theorem weight_corner {v w : Nat} (hv : v < 3) (hw : w < 3) : vertexWeight (K := K) ⟨2, 3⟩ v (corner K 1 w) = if v = w then 1 else 0 := by
  have h1 : v = 0 ∨ v = 1 ∨ v = 2 := by omega
  have h2 : w = 0 ∨ w = 1 ∨ w = 2 := by omega
  rcases h1 with rfl | rfl | rfl <;> rcases h2 with rfl | rfl | rfl <;>
    simp only [vertexWeight, prismType, HDiv.Tangential.bary, Fin.sum_univ_succ, Finset.univ_eq_empty, Finset.sum_empty] <;> simp [corner]

omit [LinearOrder K] [IsStrictOrderedRing K] in
theorem on_corner {i m : Nat} (hm : m < 2) : (simplexFacet K 1 i).On (corner K 1 (facetVertex 1 i m)) := by
  refine ⟨Pi.single ⟨m, hm⟩ 1, by simp, ?_⟩
  rw [Finset.sum_eq_single ⟨m, hm⟩]
  · simp
  · intro k _ hk
    rw [Pi.single_eq_of_ne hk, zero_smul]
  · simp

omit [IsStrictOrderedRing K] in
theorem gridJac_eq (hG : SimplexGrid G 1 pos jac) (e : E) (x : Vec K 2) : gridJac (n := 1) G pos e x = jac e := by
  ext d j
  rw [gridJac, show G.elemGeo e = ⟨2, 3⟩ from hG.simplices e, triangle_jac, hG.jac]

omit [LinearOrder K] [IsStrictOrderedRing K] in
/-- Weights of the vertices in a point of an edge. -/
theorem weight_on {i : Nat} (hi : i < 3) {w : Fin 2 → K} (hw : ∑ k, w k = 1) {v : Nat} (hv : v < 3) :
    vertexWeight (K := K) ⟨2, 3⟩ v (∑ k : Fin 2, w k • corner K 1 (facetVertex 1 i k)) = ∑ k : Fin 2, if v = facetVertex 1 i k then w k else 0 := by
  have h1 : v = 0 ∨ v = 1 ∨ v = 2 := by omega
  have h2 : i = 0 ∨ i = 1 ∨ i = 2 := by omega
  rw [Fin.sum_univ_two] at hw
  rcases h1 with rfl | rfl | rfl <;> rcases h2 with rfl | rfl | rfl <;>
    simp only [vertexWeight, prismType, HDiv.Tangential.bary, Fin.sum_univ_succ, Finset.univ_eq_empty, Finset.sum_empty] <;>
    simp [corner, facetVertex, simplexOf, refOf, subVerts, triangle] <;> linear_combination -hw

/-- Local points of a common edge with the same position give the common vertices the same weights. -/
theorem same_weights (h : Setting G pos jac idx isects geo) {e e' : E} (hne : e ≠ e') {i i' : Nat} (hi : i < 3) (hi' : i' < 3) (hs : G.sub e 1 i = G.sub e' 1 i')
    {x x' : Vec K 2} (hx : (simplexFacet K 1 i).On x) (hx' : (simplexFacet K 1 i').On x')
    (hp : global (n := 1) (pos (G.ids e 0)) (jac e) x = global (n := 1) (pos (G.ids e' 0)) (jac e') x') :
    ∀ v < 3, ∀ v' < 3, G.ids e v = G.ids e' v' → vertexWeight (K := K) ⟨2, 3⟩ v x = vertexWeight ⟨2, 3⟩ v' x' := by
  have hG := h.grid
  obtain ⟨s1, s2⟩ := shared_ids (Or.inl rfl) hG.ok hG.simplices hi hi' hs
  have hlt : ∀ k < 2, facetVertex 1 i k < 3 := fun k hk => facetVertex_lt (Or.inl rfl) hi hk
  have hlt' : ∀ k < 2, facetVertex 1 i' k < 3 := fun k hk => facetVertex_lt (Or.inl rfl) hi' hk
  have hinj : ∀ e v w, v < 3 → w < 3 → (G.ids e v = G.ids e w ↔ v = w) := fun e v w hv hw =>
    ⟨fun hh => hG.ok.idsInj e v w (by rw [hG.simplices]; exact hv) (by rw [hG.simplices]; exact hw) hh, fun hh => by rw [hh]⟩
  obtain ⟨w, hw, rfl⟩ := hx
  obtain ⟨w', hw', rfl⟩ := hx'
  -- positions
  have hpos : ∀ e (i : Nat) (w : Fin 2 → K), i < 3 → ∑ k, w k = 1 → global (n := 1) (pos (G.ids e 0)) (jac e) (∑ k : Fin 2, w k • corner K 1 (facetVertex 1 i k)) =
      ∑ k : Fin 2, w k • pos (G.ids e (facetVertex 1 i k)) := by
    intro e i w hi hw
    have hc : ∀ k : Fin 2, jac e *ᵥ corner K 1 (facetVertex 1 i k) = pos (G.ids e (facetVertex 1 i k)) - pos (G.ids e 0) := by
      intro k
      have := jac_corner (p := fun v => pos (G.ids e v)) (hG.jac e) (facetVertex 1 i k) 0 (facetVertex_lt (Or.inl rfl) hi k.2) (by omega)
      rwa [corner_zero, sub_zero] at this
    rw [global, Matrix.mulVec_sum]
    simp only [Matrix.mulVec_smul, hc, smul_sub, Finset.sum_sub_distrib, ← Finset.sum_smul, hw, one_smul]
    abel
  rw [hpos e i w hi hw, hpos e' i' w' hi' hw'] at hp
  rw [Fin.sum_univ_two] at hw hw'
  rw [Fin.sum_univ_two, Fin.sum_univ_two] at hp
  -- the end points are different
  have hd : pos (G.ids e (facetVertex 1 i 1)) ≠ pos (G.ids e (facetVertex 1 i 0)) := by
    intro hh
    have := hG.sides e e' i i' hne hi hi' hs
    have h0 : (fun k : Fin 1 => pos (G.ids e (facetVertex 1 i (k + 1))) - pos (G.ids e (facetVertex 1 i 0))) = fun _ => 0 := by
      funext k
      rw [Subsingleton.elim k 0]
      simpa using sub_eq_zero.2 hh
    rw [h0] at this
    simp [vol, Matrix.det_fin_two] at this
  obtain ⟨a, ha, ea⟩ := s1 0 (by omega)
  obtain ⟨b, hb, eb⟩ := s1 1 (by omega)
  have hab : a ≠ b := by
    rintro rfl
    exact absurd (s2 0 (by omega) 1 (by omega) (ea.trans eb.symm)) (by omega)
  obtain ⟨d, hd⟩ : ∃ d, pos (G.ids e (facetVertex 1 i 1)) d - pos (G.ids e (facetVertex 1 i 0)) d ≠ 0 := by
    by_contra hh
    push Not at hh
    exact hd (funext fun d => sub_eq_zero.1 (hh d))
  have hpd := congrFun hp d
  simp only [Pi.add_apply, Pi.smul_apply, smul_eq_mul, Fin.val_zero, Fin.val_one] at hpd
  have hweights : w' 0 = (if a = 0 then w 0 else w 1) ∧ w' 1 = if b = 0 then w 0 else w 1 := by
    have : a = 0 ∧ b = 1 ∨ a = 1 ∧ b = 0 := by omega
    rcases this with ⟨rfl, rfl⟩ | ⟨rfl, rfl⟩
    · have : w' 1 = w 1 := by
        rw [ea, eb] at hpd
        apply mul_right_cancel₀ hd
        linear_combination -hpd + pos (G.ids e (facetVertex 1 i 0)) d * (hw - hw')
      refine ⟨?_, by simpa using this⟩
      simp
      linear_combination hw' - hw - this
    · have : w' 0 = w 1 := by
        rw [ea, eb] at hpd
        apply mul_right_cancel₀ hd
        linear_combination -hpd + pos (G.ids e (facetVertex 1 i 0)) d * (hw - hw')
      refine ⟨by simpa using this, ?_⟩
      simp
      linear_combination hw' - hw - this
  intro v hv v' hv' hvv
  rw [weight_on hi (by rw [Fin.sum_univ_two]; exact hw) hv, weight_on hi' (by rw [Fin.sum_univ_two]; exact hw') hv', Fin.sum_univ_two, Fin.sum_univ_two]
  have e0 : v' = facetVertex 1 i' 0 ↔ v = facetVertex 1 i a := by
    rw [← hinj e' _ _ hv' (hlt' 0 (by omega)), ← hinj e _ _ hv (hlt a ha), hvv, ea]
  have e1 : v' = facetVertex 1 i' 1 ↔ v = facetVertex 1 i b := by
    rw [← hinj e' _ _ hv' (hlt' 1 (by omega)), ← hinj e _ _ hv (hlt b hb), hvv, eb]
  simp only [Fin.val_zero, Fin.val_one, e0, e1, hweights]
  have : a = 0 ∧ b = 1 ∨ a = 1 ∧ b = 0 := by omega
  rcases this with ⟨rfl, rfl⟩ | ⟨rfl, rfl⟩
  · simp
  · simp [add_comm]

/-! ## Two elements -/

theorem sides_of (h : Setting G pos jac idx isects geo) {e e' : E} (hne : e ≠ e') {i i' : Nat} (hi : i < 3) (hi' : i' < 3) (hs : G.sub e 1 i = G.sub e' 1 i') :
    vol (n := 1) (jac e *ᵥ (simplexFacet K 1 i).out) (fun k => jac e *ᵥ (simplexFacet K 1 i).frame k) *
      vol (n := 1) (jac e' *ᵥ (simplexFacet K 1 i').out) (fun k => jac e *ᵥ (simplexFacet K 1 i).frame k) < 0 :=
  (simplex_meet (Or.inl rfl) h.grid hne hi hi' hs).sides

/-- The difference of the normal components of two discrete functions on the two sides of an edge. -/
theorem jump_two (h : Setting G pos jac idx isects geo) {e e' : E} (hne : e ≠ e') {i i' : Nat} (hi : i < 3) (hi' : i' < 3) (hs : G.sub e 1 i = G.sub e' 1 i') :
    ∃ c : K, c ≠ 0 ∧ ∀ (vec vec' : Nat → K) (x x' v v' : Vec K 2), (simplexFacet K 1 i).On x → (simplexFacet K 1 i').On x' →
      (∀ v < 3, ∀ v' < 3, G.ids e v = G.ids e' v' → vertexWeight (K := K) ⟨2, 3⟩ v x = vertexWeight ⟨2, 3⟩ v' x') →
      bdmValue G idx isects geo vec e x = some v → bdmValue G idx isects geo vec' e' x' = some v' →
      vol (n := 1) v (fun k => jac e *ᵥ (simplexFacet K 1 i).frame k) - vol (n := 1) v' (fun k => jac e *ᵥ (simplexFacet K 1 i).frame k) =
        c * (vec (bdmIndex G e i) - vec' (bdmIndex G e i)) +
        3 * ((SignType.sign (jac e).det : K) * vec (bdmIndex G e i + 1) - (SignType.sign (jac e').det : K) * vec' (bdmIndex G e i + 1)) * along ⟨2, 3⟩ i x := by
  have ht : ∀ e, G.elemGeo e = ⟨2, 3⟩ := fun e => h.grid.simplices e
  have hnum : ∀ e, numFacets (G.elemGeo e) = 3 := fun e => by rw [ht, three]
  obtain ⟨b, b1, b2, -⟩ := bdm_sum h e
  obtain ⟨b', b1', b2', -⟩ := bdm_sum h e'
  obtain ⟨n1, n2⟩ := h.neighbours.shared e e' i i' hne (by rw [hnum]; exact hi) (by rw [hnum]; exact hi') hs
  obtain ⟨m1, m2⟩ := h.neighbours.shared e' e i' i hne.symm (by rw [hnum]; exact hi') (by rw [hnum]; exact hi) hs.symm
  have hflag := (C47_facet (V := Int) idx h.idxInj e e' hne (isects e) (isects e') i i' n1 m1 n2 m2 b b' b1 b1' 0).2
  have sides := sides_of h hne hi hi' hs
  have hT0 : vol (n := 1) (jac e *ᵥ (simplexFacet K 1 i).out) (fun k => jac e *ᵥ (simplexFacet K 1 i).frame k) ≠ 0 := fun hh => by
    rw [hh, zero_mul] at sides
    exact lt_irrefl _ sides
  rw [vol_mulVec] at hT0
  have hsg : ∀ y : K, y ≠ 0 → (SignType.sign y : K) ≠ 0 := fun y hy => by
    rcases sign_cases hy with ⟨-, hh⟩ | ⟨-, hh⟩ <;> rw [hh] <;> norm_num
  refine ⟨(SignType.sign (jac e).det : K) * (SignType.sign (vol (n := 1) (simplexFacet K 1 i).out (simplexFacet K 1 i).frame) : K) * (if b.testBit i then -1 else 1),
    mul_ne_zero (mul_ne_zero (hsg _ (left_ne_zero_of_mul hT0)) (hsg _ (right_ne_zero_of_mul hT0))) (by split <;> norm_num), ?_⟩
  intro vec vec' x x' v v' hx hx' hxx hv hv'
  obtain ⟨a, ha, hfr, hal⟩ := edge_order h.grid.ok (fun e => by rw [ht]; decide) pos (e := e) (e' := e') (i := i) (i' := i') (by rw [hnum]; exact hi) (by rw [hnum]; exact hi') hs
    (x := x) (x' := x') (by rw [ht, facet_simplex]; exact hx) (by rw [ht, facet_simplex]; exact hx') (by rw [ht, ht]; exact hxx)
  rw [ht, ht, facet_simplex, facet_simplex, gridJac_eq h.grid, gridJac_eq h.grid] at hfr
  rw [ht, ht] at hal
  have f1 := edge_flux G.toGridView bdmTable bdmKeys 1 3 e (by rw [ht]; exact simplex_moments) b i (by rw [hnum]; exact hi) (geo e) _ x (h.geo e x) (by rw [ht, facet_simplex]; exact hx) vec
  have f2 := edge_flux G.toGridView bdmTable bdmKeys 1 3 e' (by rw [ht]; exact simplex_moments) b' i' (by rw [hnum]; exact hi') (geo e') _ x' (h.geo e' x')
    (by rw [ht, facet_simplex]; exact hx') vec'
  rw [b2, Option.some.injEq] at hv
  rw [b2', Option.some.injEq] at hv'
  rw [hv, ht, facet_simplex] at f1
  rw [hv', ht, facet_simplex] at f2
  have hA' : vec' (bdmIndex G e' i') * (if b'.testBit i' then -1 else 1) = -(vec' (bdmIndex G e i) * if b.testBit i then -1 else 1) := by
    rw [bdmIndex, ← hs, hflag]
    cases b'.testBit i' <;> simp
  have hB' : vec' (bdmIndex G e' i' + 1) = vec' (bdmIndex G e i + 1) := by rw [bdmIndex, ← hs]
  have := jump_eq (v := v) (v' := v') (A := vec (bdmIndex G e i) * if b.testBit i then -1 else 1) (A' := vec' (bdmIndex G e i) * if b.testBit i then -1 else 1)
    (B := vec (bdmIndex G e i + 1) * 3) (B' := vec' (bdmIndex G e i + 1) * 3) (al := along ⟨2, 3⟩ i x) ha hfr sides (by rw [f1]; ring) (by
      rw [f2, hal]
      linear_combination hA' + (3 * (SignType.sign (vol (n := 1) (simplexFacet K 1 i').out (simplexFacet K 1 i').frame) : K) * (a * along ⟨2, 3⟩ i x)) * hB')
  rw [this]
  ring

omit [LinearOrder K] [IsStrictOrderedRing K] in
/-- The end points of an edge. -/
theorem along_corner {i m : Nat} (hi : i < 3) (hm : m < 2) : along (K := K) ⟨2, 3⟩ i (corner K 1 (facetVertex 1 i m)) = if m = 0 then -1 else 1 := by
  have hlt : ∀ k < 2, facetVertex 1 i k < 3 := fun k hk => facetVertex_lt (Or.inl rfl) hi hk
  rw [along, facetVert_simplex, facetVert_simplex, weight_corner (hlt 1 (by omega)) (hlt m hm), weight_corner (hlt 0 (by omega)) (hlt m hm)]
  have t : ∀ i < 3, facetVertex 1 i 0 ≠ facetVertex 1 i 1 := by decide
  have : m = 0 ∨ m = 1 := by omega
  rcases this with rfl | rfl
  · simp [(t i hi).symm]
  · simp [t i hi]

/-- If two discrete functions have equal normal components in the two end points of an edge between elements of the same orientation, then their coefficients of the edge are equal. -/
theorem bdm_pair (h : Setting G pos jac idx isects geo) (ho : Oriented jac) {e e' : E} (hne : e ≠ e') {i i' : Nat} (hi : i < 3) (hi' : i' < 3) (hs : G.sub e 1 i = G.sub e' 1 i')
    {f f' : Vec K 2 → Vec K 2} {vec vec' : Nat → K} (hv : ∀ x, bdmValue G idx isects geo vec e x = some (f x)) (hv' : ∀ x, bdmValue G idx isects geo vec' e' x = some (f' x))
    (hN : ∀ x x', (simplexFacet K 1 i).On x → (simplexFacet K 1 i').On x' → global (n := 1) (pos (G.ids e 0)) (jac e) x = global (n := 1) (pos (G.ids e' 0)) (jac e') x' →
      ∀ N : Vec K 2, (∀ k < 2, N ⬝ᵥ pos (G.ids e (facetVertex 1 i k)) = N ⬝ᵥ pos (G.ids e (facetVertex 1 i 0))) → N ⬝ᵥ f x = N ⬝ᵥ f' x') :
    ∀ m < 2, vec (bdmIndex G e i + m) = vec' (bdmIndex G e i + m) := by
  have hG := h.grid
  obtain ⟨c, hc, hj⟩ := jump_two h hne hi hi' hs
  have hlt : ∀ k < 2, facetVertex 1 i k < 3 := fun k hk => facetVertex_lt (Or.inl rfl) hi hk
  have hsign : (SignType.sign (jac e').det : K) = SignType.sign (jac e).det ∧ (SignType.sign (jac e).det : K) ≠ 0 := by
    have hp := ho e e'
    have h1 : (jac e).det ≠ 0 := fun hh => by simp [hh] at hp
    have h2 : (jac e').det ≠ 0 := fun hh => by simp [hh] at hp
    rcases sign_cases h1 with ⟨p, q⟩ | ⟨p, q⟩ <;> rcases sign_cases h2 with ⟨p', q'⟩ | ⟨p', q'⟩ <;> rw [q, q']
    · norm_num
    · nlinarith
    · nlinarith
    · norm_num
  have hpos : ∀ e v, v < 3 → global (n := 1) (pos (G.ids e 0)) (jac e) (corner K 1 v) = pos (G.ids e v) := by
    intro e v hv
    have := jac_corner (p := fun v => pos (G.ids e v)) (hG.jac e) v 0 hv (by omega)
    rw [corner_zero, sub_zero] at this
    rw [global, this]
    abel
  have key : ∀ m < 2, 0 = c * (vec (bdmIndex G e i) - vec' (bdmIndex G e i)) +
      3 * ((SignType.sign (jac e).det : K) * (vec (bdmIndex G e i + 1) - vec' (bdmIndex G e i + 1))) * if m = 0 then -1 else 1 := by
    intro m hm
    obtain ⟨s1, -⟩ := shared_ids (Or.inl rfl) hG.ok hG.simplices hi' hi hs.symm
    obtain ⟨k, hk, hid⟩ := s1 m hm
    have hp : global (n := 1) (pos (G.ids e 0)) (jac e) (corner K 1 (facetVertex 1 i m)) = global (n := 1) (pos (G.ids e' 0)) (jac e') (corner K 1 (facetVertex 1 i' k)) := by
      rw [hpos _ _ (hlt m hm), hpos _ _ (facetVertex_lt (Or.inl rfl) hi' hk), hid]
    have := hj vec vec' _ _ _ _ (on_corner hm) (on_corner hk) (same_weights h hne hi hi' hs (on_corner hm) (on_corner hk) hp) (hv _) (hv' _)
    rw [along_corner hi hm, hsign.1] at this
    rw [mul_sub (SignType.sign (jac e).det : K), ← this, eq_comm, sub_eq_zero]
    obtain ⟨N, N1, N2⟩ := exists_normal (n := 1) (fun k => jac e *ᵥ (simplexFacet K 1 i).frame k)
    rw [N2, N2]
    refine hN _ _ (on_corner hm) (on_corner hk) hp N fun k hk => ?_
    cases k with
    | zero => rfl
    | succ k =>
      have := N1 ⟨k, by omega⟩
      rw [show jac e *ᵥ (simplexFacet K 1 i).frame ⟨k, by omega⟩ = pos (G.ids e (facetVertex 1 i (k + 1))) - pos (G.ids e (facetVertex 1 i 0)) from
        jac_corner (p := fun v => pos (G.ids e v)) (hG.jac e) _ _ (hlt _ (by omega)) (hlt _ (by omega)), dotProduct_sub] at this
      exact sub_eq_zero.1 this
  have k0 := key 0 (by omega)
  have k1 := key 1 (by omega)
  rw [if_pos rfl] at k0
  rw [if_neg (by omega)] at k1
  have g0 : c * (vec (bdmIndex G e i) - vec' (bdmIndex G e i)) = 0 := by linear_combination (-1 / 2 : K) * (k0 + k1)
  have g1 : (SignType.sign (jac e).det : K) * (vec (bdmIndex G e i + 1) - vec' (bdmIndex G e i + 1)) = 0 := by linear_combination (1 / 6 : K) * (k0 - k1)
  intro m hm
  have : m = 0 ∨ m = 1 := by omega
  rcases this with rfl | rfl
  · exact sub_eq_zero.1 ((mul_eq_zero.1 g0).resolve_left hc)
  · exact sub_eq_zero.1 ((mul_eq_zero.1 g1).resolve_left hsign.2)

/-! ## Local representation -/

/-- Every field that is affine on one element belongs to some coefficients. -/
theorem bdm_local (h : Setting G pos jac idx isects geo) (e : E) {f : Vec K 2 → Vec K 2} (hf : AffineField (pos (G.ids e 0)) (jac e) f) :
    ∃ vec, ∀ x, bdmValue G idx isects geo vec e x = some (f x) := by
  obtain ⟨bits, -, -, hb⟩ := bdm_sum h e
  obtain ⟨p, Q, hf⟩ := hf
  have hdet : (jac e).det ≠ 0 := (h.geo e 0).nondeg
  have hJ : jac e * (jac e)⁻¹ = 1 := Matrix.mul_nonsing_inv _ (isUnit_iff_ne_zero.2 hdet)
  have habs : |(jac e).det| ≠ 0 := abs_ne_zero.2 hdet
  obtain ⟨a, b, hab⟩ := reference_span (K := K) (by norm_num) ((jac e)⁻¹ *ᵥ (p + Q *ᵥ pos (G.ids e 0))) ((jac e)⁻¹ * (Q * jac e))
  have hW : ∀ x, f x = jac e *ᵥ ∑ l : Fin 3, (a l • (x - corner K 1 (2 - l)) + b l • second l x) := by
    intro x
    rw [← hab, Matrix.mulVec_add, Matrix.mulVec_mulVec, Matrix.mulVec_mulVec, ← Matrix.mul_assoc, hJ, Matrix.one_mulVec, Matrix.one_mul, hf, global, Matrix.mulVec_add,
      Matrix.mulVec_mulVec, add_assoc]
  have hinj : ∀ q q' : Fin 3 × Fin 2, bdmIndex G e q.1 + q.2 = bdmIndex G e q'.1 + q'.2 → q = q' := by
    intro q q' hq
    obtain ⟨h1, h2⟩ := bdmIndex_inj h q.1.2 q'.1.2 q.2.2 q'.2.2 hq
    have := h.grid.ok.base.subInj e 1 q.1 1 q'.1 (by rw [h.grid.ok.std, h.grid.simplices]; exact q.1.2) (by rw [h.grid.ok.std, h.grid.simplices]; exact q'.1.2) h1
    exact Prod.ext (Fin.ext this.2) (Fin.ext h2)
  classical
  let vec : Nat → K := fun m => if hm : ∃ q : Fin 3 × Fin 2, bdmIndex G e q.1 + q.2 = m then
    (if hm.choose.2 = 0 then |(jac e).det| * a hm.choose.1 * (if bits.testBit hm.choose.1 then -1 else 1) else |(jac e).det| * b hm.choose.1) else 0
  have hvec : ∀ q : Fin 3 × Fin 2, vec (bdmIndex G e q.1 + q.2) = if q.2 = 0 then |(jac e).det| * a q.1 * (if bits.testBit q.1 then -1 else 1) else |(jac e).det| * b q.1 := by
    intro q
    have hm : ∃ q' : Fin 3 × Fin 2, bdmIndex G e q'.1 + q'.2 = bdmIndex G e q.1 + q.2 := ⟨q, rfl⟩
    simp only [vec, dif_pos hm]
    rw [hinj _ _ hm.choose_spec]
  refine ⟨vec, fun x => ?_⟩
  rw [hb, hW, Option.some.injEq, ← Matrix.mulVec_smul, Finset.smul_sum]
  congr 1
  refine Finset.sum_congr rfl fun l _ => ?_
  have v0 := hvec (l, 0)
  have v1 := hvec (l, 1)
  simp only [Fin.val_zero, Fin.val_one, add_zero, if_true, one_ne_zero, if_false] at v0 v1
  rw [v0, v1, smul_add, smul_smul, smul_smul]
  have hs : (if bits.testBit l then (-1 : K) else 1) * (if bits.testBit l then (-1 : K) else 1) = 1 := by split <;> norm_num
  congr 2
  · rw [mul_assoc, hs, mul_one, ← mul_assoc, inv_mul_cancel₀ habs, one_mul]
  · rw [← mul_assoc, inv_mul_cancel₀ habs, one_mul]

/-- The discrete function is affine on each element; its divergence is given by the first coefficients of the edges. -/
theorem bdm_affine (h : Setting G pos jac idx isects geo) (e : E) (vec : Nat → K) : ∃ (p : Vec K 2) (Q : Mat K 2),
    (∀ x, bdmValue G idx isects geo vec e x = some (p + Q *ᵥ global (n := 1) (pos (G.ids e 0)) (jac e) x)) ∧
    ∃ s : Fin 3 → K, (∀ i : Fin 3, (Flipped idx e (isects e) i → s i = -1) ∧ (¬ Flipped idx e (isects e) i → s i = 1)) ∧
      Q.trace * |(jac e).det| = 2 * ∑ i : Fin 3, vec (bdmIndex G e i) * s i := by
  obtain ⟨bits, hfl, -, hb⟩ := bdm_sum h e
  have hdet : (jac e).det ≠ 0 := (h.geo e 0).nondeg
  have hJ : (jac e)⁻¹ * jac e = 1 := Matrix.nonsing_inv_mul _ (isUnit_iff_ne_zero.2 hdet)
  have habs : |(jac e).det| ≠ 0 := abs_ne_zero.2 hdet
  -- the field on the reference element
  obtain ⟨c, M, hM, htr⟩ : ∃ (c : Vec K 2) (M : Mat K 2), (∀ x, ∑ l : Fin 3, ((vec (bdmIndex G e l) * if bits.testBit l then -1 else 1) • (x - corner K 1 (2 - l)) +
      vec (bdmIndex G e l + 1) • second l x) = c + M *ᵥ x) ∧ M.trace = 2 * ∑ l : Fin 3, vec (bdmIndex G e l) * if bits.testBit l then -1 else 1 := by
    generalize ha : (fun l : Fin 3 => vec (bdmIndex G e l) * if bits.testBit l then -1 else 1) = a
    generalize hb' : (fun l : Fin 3 => vec (bdmIndex G e l + 1)) = b
    have ha' : ∀ l : Fin 3, (vec (bdmIndex G e l) * if bits.testBit l then -1 else 1) = a l := fun l => by rw [← ha]
    have hb'' : ∀ l : Fin 3, vec (bdmIndex G e l + 1) = b l := fun l => by rw [← hb']
    simp only [ha', hb'']
    refine ⟨![-a 1 - 3 * b 1, -a 0 + 3 * b 0], !![a 0 + a 1 + a 2 + 3 * b 0 + 3 * b 1 - 3 * b 2, 6 * b 1; -6 * b 0, a 0 + a 1 + a 2 - 3 * b 0 - 3 * b 1 + 3 * b 2], fun x => ?_, ?_⟩
    · funext d
      fin_cases d <;> simp [second, corner, dotProduct, Fin.sum_univ_two, Fin.sum_univ_three] <;> ring
    · simp [Matrix.trace, Fin.sum_univ_two, Fin.sum_univ_three]
      ring
  refine ⟨(|(jac e).det|)⁻¹ • (jac e *ᵥ c) - ((|(jac e).det|)⁻¹ • (jac e * M * (jac e)⁻¹)) *ᵥ pos (G.ids e 0), (|(jac e).det|)⁻¹ • (jac e * M * (jac e)⁻¹), fun x => ?_,
    fun i => if bits.testBit i then -1 else 1, fun i => ⟨fun hi => if_pos ((hfl i).2 hi), fun hi => if_neg fun hh => hi ((hfl i).1 hh)⟩, ?_⟩
  · rw [hb, Option.some.injEq, hM, global, Matrix.mulVec_add ((|(jac e).det|)⁻¹ • _), Matrix.mulVec_add, smul_add, Matrix.smul_mulVec, Matrix.smul_mulVec, Matrix.mulVec_mulVec,
      Matrix.mulVec_mulVec, Matrix.mul_assoc _ _ (jac e), hJ, Matrix.mul_one]
    abel
  · rw [← htr, Matrix.trace_smul, Matrix.mul_assoc, Matrix.trace_mul_comm, Matrix.mul_assoc, hJ, Matrix.mul_one, smul_eq_mul, mul_comm, ← mul_assoc, mul_inv_cancel₀ habs, one_mul]

/-! ## Theorems -/

/-- **C97: space.** On every conforming grid of affine triangles of the same orientation, a family of vector fields on the elements is a function of the Brezzi–Douglas–Marini
basis of order 1 if and only if it is affine on each element and its normal components are continuous. -/
theorem C97_space (h : Setting G pos jac idx isects geo) (ho : Oriented jac) (f : E → Vec K 2 → Vec K 2) :
    (∃ vec, ∀ e x, bdmValue G idx isects geo vec e x = some (f e x)) ↔ (∀ e, AffineField (pos (G.ids e 0)) (jac e) (f e)) ∧ NormalContinuous G 1 pos jac f := by
  have hG := h.grid
  constructor
  · rintro ⟨vec, hv⟩
    refine ⟨fun e => ?_, ?_⟩
    · obtain ⟨p, Q, hpQ, -⟩ := bdm_affine h e vec
      exact ⟨p, Q, fun x => by
        have := hpQ x
        rwa [hv, Option.some.injEq] at this⟩
    · intro e e' i i' hne hi hi' hs x x' hx hx' hp N hN
      have ht : ∀ e, G.elemGeo e = ⟨2, 3⟩ := fun e => hG.simplices e
      have hlt : ∀ k < 2, facetVertex 1 i k < 3 := fun k hk => facetVertex_lt (Or.inl rfl) hi hk
      have sides := sides_of h hne hi hi' hs
      obtain ⟨v, v', h1, h2, h3⟩ := C96_partial hG.ok hG.dim (Or.inl rfl) ht pos h.idxInj h.neighbours h.contained geo vec hne (i := i) (i' := i') hi hi' hs
        (x := x) (x' := x') (by rw [facet_simplex]; exact hx) (by rw [facet_simplex]; exact hx') (same_weights h hne hi hi' hs hx hx' hp)
        (by rw [gridJac_eq hG]; exact h.geo e x) (by rw [gridJac_eq hG]; exact h.geo e' x') (by rw [gridJac_eq hG, gridJac_eq hG, facet_simplex, facet_simplex]; exact sides)
        (by rw [gridJac_eq hG, gridJac_eq hG]; exact ho e e')
      have g1 := (hv e x).symm.trans h1
      have g2 := (hv e' x').symm.trans h2
      rw [Option.some.injEq] at g1 g2
      rw [g1, g2]
      refine h3 N fun k => ?_
      rw [gridJac_eq hG, facet_simplex, show jac e *ᵥ (simplexFacet K 1 i).frame k = pos (G.ids e (facetVertex 1 i (k + 1))) - pos (G.ids e (facetVertex 1 i 0)) from
        jac_corner (p := fun v => pos (G.ids e v)) (hG.jac e) _ _ (hlt _ (by omega)) (hlt _ (by omega)), dotProduct_sub, hN _ (by omega), sub_self]
  · rintro ⟨hloc, hcont⟩
    choose vecs hvecs using fun e => bdm_local h e (hloc e)
    have hsame : ∀ e e' i i' m m', i < 3 → i' < 3 → m < 2 → m' < 2 → bdmIndex G e i + m = bdmIndex G e' i' + m' → vecs e (bdmIndex G e i + m) = vecs e' (bdmIndex G e i + m) := by
      intro e e' i i' m m' hi hi' hm hm' hh
      by_cases hne : e = e'
      · rw [hne]
      · obtain ⟨hs, -⟩ := bdmIndex_inj h hi hi' hm hm' hh
        exact bdm_pair h ho hne hi hi' hs (hvecs e) (hvecs e') (hcont e e' i i' hne hi hi' hs) m hm
    classical
    let vec : Nat → K := fun k => if hk : ∃ e i m, i < 3 ∧ m < 2 ∧ bdmIndex G e i + m = k then vecs hk.choose k else 0
    refine ⟨vec, fun e x => ?_⟩
    have hvec : ∀ i < 3, ∀ m < 2, vec (bdmIndex G e i + m) = vecs e (bdmIndex G e i + m) := by
      intro i hi m hm
      have hk : ∃ e' i' m', i' < 3 ∧ m' < 2 ∧ bdmIndex G e' i' + m' = bdmIndex G e i + m := ⟨e, i, m, hi, hm, rfl⟩
      simp only [vec, dif_pos hk]
      obtain ⟨i', m', hi', hm', he⟩ := hk.choose_spec
      have := hsame _ e i' i m' m hi' hi hm' hm he
      rwa [he] at this
    obtain ⟨bits, -, -, hb⟩ := bdm_sum h e
    rw [← hvecs e x, hb, hb, Option.some.injEq]
    congr 2
    refine Finset.sum_congr rfl fun l _ => ?_
    rw [show vec (bdmIndex G e l) = vecs e (bdmIndex G e l) from hvec l l.2 0 (by omega), hvec l l.2 1 (by omega)]

/-- **C97: edges.** The normal components of two functions agree on an edge of an element if and only if their coefficients of the edge agree. In particular, the coefficients of the
boundary edges determine the normal components on the boundary. -/
theorem C97_edge (h : Setting G pos jac idx isects geo) (vec vec' : Nat → K) (e : E) {i : Nat} (hi : i < 3) :
    (∀ m < 2, vec (bdmIndex G e i + m) = vec' (bdmIndex G e i + m)) ↔
      ∀ x, (simplexFacet K 1 i).On x → ∀ v v', bdmValue G idx isects geo vec e x = some v → bdmValue G idx isects geo vec' e x = some v' →
        ∀ N : Vec K 2, (∀ k < 2, N ⬝ᵥ pos (G.ids e (facetVertex 1 i k)) = N ⬝ᵥ pos (G.ids e (facetVertex 1 i 0))) → N ⬝ᵥ v = N ⬝ᵥ v' := by
  have hG := h.grid
  have ht : G.elemGeo e = ⟨2, 3⟩ := hG.simplices e
  obtain ⟨b, -, b2, -⟩ := bdm_sum h e
  have hlt : ∀ k < 2, facetVertex 1 i k < 3 := fun k hk => facetVertex_lt (Or.inl rfl) hi hk
  have hfr : ∀ k : Fin 1, jac e *ᵥ (simplexFacet K 1 i).frame k = pos (G.ids e (facetVertex 1 i (k + 1))) - pos (G.ids e (facetVertex 1 i 0)) :=
    fun k => jac_corner (p := fun v => pos (G.ids e v)) (hG.jac e) _ _ (hlt _ (by omega)) (hlt _ (by omega))
  have hvol : vol (n := 1) (simplexFacet K 1 i).out (simplexFacet K 1 i).frame ≠ 0 := by
    have t : i = 0 ∨ i = 1 ∨ i = 2 := by omega
    rcases t with rfl | rfl | rfl <;>
      simp [simplexFacet, facetVertex, simplexOf, refOf, subVerts, triangle, vol, Matrix.det_fin_two, corner]
  have hdet : (jac e).det ≠ 0 := (h.geo e 0).nondeg
  have hw : vol (n := 1) (jac e *ᵥ (simplexFacet K 1 i).out) (fun k => jac e *ᵥ (simplexFacet K 1 i).frame k) ≠ 0 := by
    rw [vol_mulVec]
    exact mul_ne_zero hdet hvol
  have hsg : ∀ y : K, y ≠ 0 → (SignType.sign y : K) ≠ 0 := fun y hy => by
    rcases sign_cases hy with ⟨-, hh⟩ | ⟨-, hh⟩ <;> rw [hh] <;> norm_num
  have flux : ∀ vec x v, (simplexFacet K 1 i).On x → bdmValue G idx isects geo vec e x = some v →
      vol (n := 1) v (fun k => jac e *ᵥ (simplexFacet K 1 i).frame k) * (SignType.sign (vol (n := 1) (jac e *ᵥ (simplexFacet K 1 i).out) (fun k => jac e *ᵥ (simplexFacet K 1 i).frame k)) : K) =
        vec (bdmIndex G e i) * (if b.testBit i then -1 else 1) +
          vec (bdmIndex G e i + 1) * (3 * (SignType.sign (vol (n := 1) (simplexFacet K 1 i).out (simplexFacet K 1 i).frame) : K) * along ⟨2, 3⟩ i x) := by
    intro vec x v hx hv
    have f1 := edge_flux G.toGridView bdmTable bdmKeys 1 3 e (by rw [ht]; exact simplex_moments) b i (by rw [ht, three]; exact hi) (geo e) _ x (h.geo e x)
      (by rw [ht, facet_simplex]; exact hx) vec
    rw [b2, Option.some.injEq] at hv
    rw [hv, ht, facet_simplex, outerFlux_eq] at f1
    exact f1
  constructor
  · intro hc x hx v v' hv hv' N hN
    have f1 := flux vec x v hx hv
    have f2 := flux vec' x v' hx hv'
    have c0 : vec (bdmIndex G e i) = vec' (bdmIndex G e i) := hc 0 (by omega)
    rw [c0, hc 1 (by omega), ← f2] at f1
    have := mul_right_cancel₀ (hsg _ hw) f1
    have := normal_zero (n := 1) hw (show vol (n := 1) (v + (-1 : K) • v') _ = 0 by rw [vol_add, vol_smul, this]; ring) N fun k => by
      rw [hfr, dotProduct_sub, hN _ (by omega), sub_self]
    rw [dotProduct_add, dotProduct_smul, smul_eq_mul] at this
    linear_combination this
  · intro hc
    have key : ∀ m < 2, (vec (bdmIndex G e i) - vec' (bdmIndex G e i)) * (if b.testBit i then -1 else 1) + (vec (bdmIndex G e i + 1) - vec' (bdmIndex G e i + 1)) *
        (3 * (SignType.sign (vol (n := 1) (simplexFacet K 1 i).out (simplexFacet K 1 i).frame) : K) * if m = 0 then -1 else 1) = 0 := by
      intro m hm
      have f1 := flux vec _ _ (on_corner hm) (b2 vec _)
      have f2 := flux vec' _ _ (on_corner hm) (b2 vec' _)
      obtain ⟨N, N1, N2⟩ := exists_normal (n := 1) (fun k => jac e *ᵥ (simplexFacet K 1 i).frame k)
      have hN := hc _ (on_corner hm) _ _ (b2 vec _) (b2 vec' _) N fun k hk => by
        cases k with
        | zero => rfl
        | succ k =>
          have := N1 ⟨k, by omega⟩
          rw [hfr, dotProduct_sub] at this
          exact sub_eq_zero.1 this
      rw [← N2, ← N2] at hN
      rw [along_corner hi hm] at f1 f2
      rw [hN] at f1
      linear_combination f2 - f1
    have k0 := key 0 (by omega)
    have k1 := key 1 (by omega)
    rw [if_pos rfl] at k0
    rw [if_neg one_ne_zero] at k1
    have hs : (if b.testBit i then (-1 : K) else 1) ≠ 0 := by split <;> norm_num
    have g0 : (vec (bdmIndex G e i) - vec' (bdmIndex G e i)) * (if b.testBit i then -1 else 1) = 0 := by linear_combination (1 / 2 : K) * (k0 + k1)
    have g1 : (vec (bdmIndex G e i + 1) - vec' (bdmIndex G e i + 1)) * (SignType.sign (vol (n := 1) (simplexFacet K 1 i).out (simplexFacet K 1 i).frame) : K) = 0 := by
      linear_combination (1 / 6 : K) * (k1 - k0)
    intro m hm
    have : m = 0 ∨ m = 1 := by omega
    rcases this with rfl | rfl
    · exact sub_eq_zero.1 ((mul_eq_zero.1 g0).resolve_right hs)
    · exact sub_eq_zero.1 ((mul_eq_zero.1 g1).resolve_right (hsg _ hvol))

/-- **C97: coefficients.** The coefficients of a function are unique. -/
theorem C97_unique (h : Setting G pos jac idx isects geo) (vec vec' : Nat → K)
    (heq : ∀ e x, bdmValue G idx isects geo vec e x = bdmValue G idx isects geo vec' e x) :
    ∀ m < (mapperLeaf G.toGridView (bdmLayout 1 G.dim) fun e => bdmKeys (G.elemGeo e)).dim, vec m = vec' m := by
  intro m hm
  obtain ⟨e, i, j, hi, hj, rfl⟩ := bdmIndex_surj h hm
  refine (C97_edge h vec vec' e hi).2 (fun x _ v v' hv hv' N _ => ?_) j hj
  rw [heq, hv', Option.some.injEq] at hv
  rw [hv]

/-- **C97: Raviart–Thomas functions.** Every function of the Raviart–Thomas basis of order 0 is a function of the Brezzi–Douglas–Marini basis. -/
theorem C97_contains (h : Setting G pos jac idx isects geo) (ho : Oriented jac) (fixed : Option Geo) (hfix : ∀ u, fixed = some u → u = simplexOf 2) {a : K} (ha : a ≠ 0)
    (vec : Nat → K) : ∃ vec', ∀ e x, bdmValue G idx isects geo vec' e x = rtValue (n := 1) G fixed isects geo a vec e x := by
  choose bits _ _ _ hb using fun e => rt_sum (Or.inl rfl) h.grid h.neighbours fixed hfix h.geo a e
  have hv := fun e x => hb e vec x
  obtain ⟨h1, h2⟩ := (C87_space (n := 1) (Or.inl rfl) h.grid h.neighbours fixed hfix h.geo ha _).1 ⟨vec, hv⟩
  obtain ⟨vec', hv'⟩ := (C97_space h ho _).2 ⟨fun e => by
    obtain ⟨p, q, hpq⟩ := h1 e
    exact ⟨p, q • (1 : Mat K 2), fun x => by rw [hpq, Matrix.smul_mulVec, Matrix.one_mulVec]⟩, h2⟩
  exact ⟨vec', fun e x => by rw [hv', hv]⟩

/-- **C97: divergence.** On each element the function is affine, and its divergence times the volume of the element is the sum of the first coefficients of the edges, each with the sign of the
orientation of the edge. In particular, the second coefficients do not change the divergence. -/
theorem C97_divergence (h : Setting G pos jac idx isects geo) (e : E) (vec : Nat → K) : ∃ (p : Vec K 2) (Q : Mat K 2),
    (∀ x, bdmValue G idx isects geo vec e x = some (p + Q *ᵥ global (n := 1) (pos (G.ids e 0)) (jac e) x)) ∧
    ∃ s : Fin 3 → K, (∀ i : Fin 3, (Flipped idx e (isects e) i → s i = -1) ∧ (¬ Flipped idx e (isects e) i → s i = 1)) ∧
      Q.trace * (|(jac e).det| / 2) = ∑ i : Fin 3, vec (bdmIndex G e i) * s i := by
  obtain ⟨p, Q, h1, s, h2, h3⟩ := bdm_affine h e vec
  exact ⟨p, Q, h1, s, h2, by linear_combination h3 / 2⟩

/-- **C97: quadrilaterals.** In each variant, the eight shape functions of the reference square span the affine fields and the rotations of `x² y` and `x y²`. In particular, all of them have a
constant divergence. -/
theorem C97_square (bits : Nat) (f : Vec K 2 → Vec K 2) :
    (∃ a : Fin 8 → K, ∀ x, f x = axpyAll (List.ofFn a) ((bdm1Cube bits).eval x)) ↔
      ∃ (c : Vec K 2) (M : Mat K 2) (r s : K), ∀ x, f x = c + M *ᵥ x + r • ![x 0 * x 0, -2 * x 0 * x 1] + s • ![2 * x 0 * x 1, -(x 1 * x 1)] := by
  have hs : ∀ i, (if bits.testBit i then (-1 : K) else 1) * (if bits.testBit i then (-1 : K) else 1) = 1 := fun i => by split <;> norm_num
  have h0 := hs 0
  have h1 := hs 1
  have h2 := hs 2
  have h3 := hs 3
  simp only [bdm1Cube]
  generalize (if bits.testBit 0 = true then (-1 : K) else 1) = s0 at h0 ⊢
  generalize (if bits.testBit 1 = true then (-1 : K) else 1) = s1 at h1 ⊢
  generalize (if bits.testBit 2 = true then (-1 : K) else 1) = s2 at h2 ⊢
  generalize (if bits.testBit 3 = true then (-1 : K) else 1) = s3 at h3 ⊢
  constructor
  · rintro ⟨a, ha⟩
    refine ⟨![-a 0 * s0 + 3 * a 1, -a 4 * s2 - 3 * a 5], !![a 0 * s0 - 3 * a 1 + a 2 * s1 + 3 * a 3 - 3 * a 5 + 3 * a 7, -6 * a 1;
      6 * a 5, 3 * a 1 - 3 * a 3 + a 4 * s2 + 3 * a 5 + a 6 * s3 - 3 * a 7], 3 * a 5 - 3 * a 7, 3 * a 1 - 3 * a 3, fun x => ?_⟩
    rw [ha]
    funext d
    fin_cases d <;> simp [axpyAll, List.ofFn_succ, dotProduct, Fin.sum_univ_two, Matrix.vecHead, Matrix.vecTail, Fin.succ] <;> ring
  · rintro ⟨c, M, r, s, hf⟩
    refine ⟨![-(c 0 + M 0 1 / 2) * s0, -M 0 1 / 6, s1 * (M 0 0 + c 0 + M 0 1 / 2 + s + r), -M 0 1 / 6 - s / 3, -(c 1 + M 1 0 / 2) * s2, M 1 0 / 6,
      s3 * (M 1 1 - s - r + c 1 + M 1 0 / 2), M 1 0 / 6 - r / 3], fun x => ?_⟩
    rw [hf]
    funext d
    fin_cases d
    · simp [axpyAll, List.ofFn_succ, Matrix.mulVec, dotProduct, Fin.sum_univ_two, Matrix.vecHead, Matrix.vecTail, Fin.succ]
      linear_combination (-(c 0 + M 0 1 / 2) * (1 - x 0)) * h0 - (M 0 0 + c 0 + M 0 1 / 2 + s + r) * x 0 * h1
    · simp [axpyAll, List.ofFn_succ, Matrix.mulVec, dotProduct, Fin.sum_univ_two, Matrix.vecHead, Matrix.vecTail, Fin.succ]
      linear_combination (-(c 1 + M 1 0 / 2) * (1 - x 1)) * h2 - (M 1 1 - s - r + c 1 + M 1 0 / 2) * x 1 * h3

/-- The rotation of `x² y` is spanned in a variant with two reversed edges; the field `(x², 0)` is not spanned, because its divergence is not constant. -/
example : (∃ a : Fin 8 → ℚ, ∀ x, ![x 0 * x 0, -2 * x 0 * x 1] = axpyAll (List.ofFn a) ((bdm1Cube 5).eval x)) ∧
    ¬ ∃ a : Fin 8 → ℚ, ∀ x, (fun x : Vec ℚ 2 => ![x 0 * x 0, 0]) x = axpyAll (List.ofFn a) ((bdm1Cube 5).eval x) := by
  refine ⟨(C97_square 5 fun x => ![x 0 * x 0, -2 * x 0 * x 1]).2 ⟨0, 0, 1, 0, fun x => by simp⟩, fun h => ?_⟩
  obtain ⟨c, M, r, s, hf⟩ := (C97_square 5 _).1 h
  have e : ∀ x d, _ := fun x d => congrFun (hf x) d
  have a1 := e ![1, 0] 0
  have a2 := e ![-1, 0] 0
  have a3 := e ![0, 0] 0
  have b1 := e ![1, 1] 1
  have b2 := e ![1, 0] 1
  have b3 := e ![0, 1] 1
  have b4 := e ![0, 0] 1
  simp [Matrix.vecHead, Matrix.vecTail, Matrix.mulVec, dotProduct, Fin.sum_univ_two] at a1 a2 a3 b1 b2 b3 b4
  linarith

/-! ## Examples: two triangles -/

theorem demo_setting : Setting demoGrid demoPos demoJac (fun e : Fin 2 => (e : Nat)) demoIsects (fun e => ofJacobian fun _ => demoJac e : Fin 2 → Geometry ℝ 2) where
  grid := demo_simplexGrid
  idxInj := Fin.val_injective
  neighbours := demo_neighbours
  contained := by decide
  geo := demo_geo

theorem demo_oriented : Oriented (demoJac : Fin 2 → Mat ℝ 2) := by
  intro e e'
  fin_cases e <;> fin_cases e' <;> simp [demoJac]

/-- All affine fields are functions of the basis. -/
example (p : Vec ℝ 2) (Q : Mat ℝ 2) : ∃ vec, ∀ e x, bdmValue demoGrid (fun e : Fin 2 => (e : Nat)) demoIsects (fun e => ofJacobian fun _ => demoJac e) vec e x =
    some (p + Q *ᵥ global (n := 1) (demoPos (demoGrid.ids e 0)) (demoJac e) x) :=
  (C97_space demo_setting demo_oriented _).2 ⟨fun _ => ⟨p, Q, fun _ => rfl⟩, fun _ _ _ _ _ _ _ _ _ _ _ _ h _ _ => by simp only [h]⟩

/-- The coefficients of a function of the basis are unique; the space contains the Raviart–Thomas functions. -/
example (vec vec' : Nat → ℝ) (h : ∀ e x, bdmValue demoGrid (fun e : Fin 2 => (e : Nat)) demoIsects (fun e => ofJacobian fun _ => demoJac e) vec e x =
    bdmValue demoGrid (fun e : Fin 2 => (e : Nat)) demoIsects (fun e => ofJacobian fun _ => demoJac e) vec' e x) : ∀ m < 10, vec m = vec' m :=
  fun m hm => C97_unique demo_setting vec vec' h m (lt_of_lt_of_eq hm (by decide))

example (vec : Nat → ℝ) : ∃ vec', ∀ e x, bdmValue demoGrid (fun e : Fin 2 => (e : Nat)) demoIsects (fun e => ofJacobian fun _ => demoJac e) vec' e x =
    rtValue (n := 1) demoGrid none demoIsects (fun e => ofJacobian fun _ => demoJac e) 1 vec e x :=
  C97_contains demo_setting demo_oriented none (by simp) one_ne_zero vec

end Verif.HDiv.BDM
