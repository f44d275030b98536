import Verif.HDiv.NormalTrace

/-!
# The space of Raviart–Thomas functions of order 0 on simplices

The functions of the Raviart–Thomas basis of order 0 on a grid of triangles or tetrahedra are exactly the vector fields that have the form `p + q y` on each element (`y` global
coordinates, `p` a vector, `q` a number) and whose normal components are continuous. The coefficients are unique; each coefficient belongs to the flux through one facet.
-/

namespace Verif.HDiv.Trace

open Matrix Verif.Mapper Verif.Lagrange Verif.Piola

variable {E S K : Type} [Field K] [LinearOrder K] [IsStrictOrderedRing K] {n : Nat}

/-! ## Specification -/

/-- The position of the local point `x` of a simplex with the Jacobian `J` and the corner `p0`. -/
def global (p0 : Vec K (n + 1)) (J : Mat K (n + 1)) (x : Vec K (n + 1)) : Vec K (n + 1) := p0 + J *ᵥ x

/-- A vector field, given in local coordinates, has the form `p + q y` in global coordinates `y`. -/
def RTField (p0 : Vec K (n + 1)) (J : Mat K (n + 1)) (f : Vec K (n + 1) → Vec K (n + 1)) : Prop :=
  ∃ (p : Vec K (n + 1)) (q : K), ∀ x, f x = p + q • global p0 J x

/-- The normal components of the fields of two elements agree in the common points of their common facets. -/
def NormalContinuous (G : LGrid E S Nat) (n : Nat) (pos : Nat → Vec K (n + 1)) (jac : E → Mat K (n + 1)) (f : E → Vec K (n + 1) → Vec K (n + 1)) : Prop :=
  ∀ e e' i i', e ≠ e' → i < n + 2 → i' < n + 2 → G.sub e 1 i = G.sub e' 1 i' → ∀ x x', (simplexFacet K n i).On x → (simplexFacet K n i').On x' →
    global (pos (G.ids e 0)) (jac e) x = global (pos (G.ids e' 0)) (jac e') x' →
    ∀ N : Vec K (n + 1), (∀ k < n + 1, N ⬝ᵥ pos (G.ids e (facetVertex n i k)) = N ⬝ᵥ pos (G.ids e (facetVertex n i 0))) → N ⬝ᵥ f e x = N ⬝ᵥ f e' x'

/-- A discrete function of the Raviart–Thomas basis of order 0 with the elements of dune-localfunctions for triangles and tetrahedra. -/
abbrev rtValue (G : LGrid E S Nat) (fixed : Option Geo) (isects : E → List (Isect E)) (geo : E → Geometry K (n + 1)) (a : K) (vec : Nat → K) (e : E) (x : Vec K (n + 1)) :
    Option (Vec K (n + 1)) :=
  value G.toGridView fixed isects (fun _ bits => rt0 a bits) (fun _ => rt0Keys n) geo vec e x

/-- The index of the degree of freedom of facet `i` of the element `e`. -/
abbrev rtIndex (G : LGrid E S Nat) (e : E) (i : Nat) : Nat := mapperIndex G.toGridView (rtLayout 0 G.dim) (G.sub e 1 i)

/-! ## Local spaces -/

omit [LinearOrder K] [IsStrictOrderedRing K] in
theorem corner_zero (n : Nat) : corner K n 0 = 0 := by
  funext d
  simp [corner]

omit [LinearOrder K] [IsStrictOrderedRing K] in
theorem sum_corner (c : Vec K (n + 1)) : ∑ j : Fin (n + 1), c j • corner K n (j + 1) = c := by
  funext d
  simp only [Finset.sum_apply, Pi.smul_apply, smul_eq_mul, corner]
  rw [Finset.sum_eq_single d]
  · simp
  · intro j _ hj
    rw [if_neg, mul_zero]
    intro h
    exact hj (Fin.ext (by omega))
  · simp

omit [LinearOrder K] [IsStrictOrderedRing K] in
/-- The fields `c + d x` are combinations of the differences to the corners of the reference simplex. -/
theorem affine_corners (c : Vec K (n + 1)) (d : K) (x : Vec K (n + 1)) :
    c + d • x = ∑ v : Fin (n + 2), (Fin.cons (d + ∑ j, c j) fun j => -c j : Fin (n + 2) → K) v • (x - corner K n v) := by
  rw [Fin.sum_univ_succ]
  simp only [Fin.cons_zero, Fin.cons_succ, Fin.val_zero, Fin.val_succ, corner_zero, sub_zero, smul_sub, neg_smul, sub_neg_eq_add, add_smul,
    Finset.sum_add_distrib]
  rw [sum_corner, Finset.sum_neg_distrib, ← Finset.sum_smul]
  abel

omit [IsStrictOrderedRing K] in
/-- The values of the discrete function on one element. -/
theorem rt_sum {n : Nat} (hn : n = 1 ∨ n = 2) {G : LGrid E S Nat} {pos : Nat → Vec K (n + 1)} {jac : E → Mat K (n + 1)} (hG : SimplexGrid G n pos jac)
    {isects : E → List (Isect E)} (hI : Neighbours G.toGridView isects) (fixed : Option Geo) (hfix : ∀ u, fixed = some u → u = simplexOf (n + 1))
    {geo : E → Geometry K (n + 1)} (hgeo : ∀ e x, (geo e).OK (jac e) x) (a : K) (e : E) :
    ∃ bits, bits < numVariants (G.elemGeo e) ∧ (∀ i, bits.testBit i = true ↔ Flipped (elementIndex G.toGridView) e (isects e) i) ∧
      (∀ vec x, rtValue G fixed isects geo a vec e x = some (axpyAll (((mapperLeaf G.toGridView (rtLayout 0 G.dim) fun _ => rt0Keys n).loc e).map vec)
        ((globalValued .contra (geo e) (rt0 a bits)).eval x))) ∧
      ∀ vec x, rtValue G fixed isects geo a vec e x = some (∑ l : Fin (n + 2),
        (vec (rtIndex G e l) * if bits.testBit l then -a else a) • ((|(jac e).det|)⁻¹ • (jac e *ᵥ (x - corner K n (n + 1 - l))))) := by
  have hstd : StdGrid G.toGridView := ⟨hG.ok.base, hG.ok.std, hG.ok.type, hG.ok.elemInj⟩
  obtain ⟨bits, h1, h2, h3⟩ := C47_raviartThomas G.dim (by rw [hG.dim]; omega) fixed (elementIndex G.toGridView) e (G.elemGeo e) (hstd.type e) (hstd.base.elemMem e).2
    (fun u hu => ⟨by rw [hfix u hu, hG.simplices], Or.inl (by rw [hG.simplices, hG.dim])⟩) (isects e) (hI.inside e)
  have hv : ∀ vec x, rtValue G fixed isects geo a vec e x = some (axpyAll (((mapperLeaf G.toGridView (rtLayout 0 G.dim) fun _ => rt0Keys n).loc e).map vec)
        ((globalValued .contra (geo e) (rt0 a bits)).eval x)) := by
    intro vec x
    rw [rtValue, value, h1]
    rfl
  refine ⟨bits, h2, h3, hv, fun vec x => ?_⟩
  rw [hv, Option.some.injEq, axpyAll, foldl_axpy, zero_add]
  have : (((((mapperLeaf G.toGridView (rtLayout 0 G.dim) fun _ => rt0Keys n).loc e).map vec).zip ((globalValued .contra (geo e) (rt0 a bits)).eval x)).map fun cv => cv.1 • cv.2) =
      List.ofFn fun l : Fin (n + 2) => (vec (rtIndex G e l) * if bits.testBit l then -a else a) • ((|(jac e).det|)⁻¹ • (jac e *ᵥ (x - corner K n (n + 1 - l)))) := by
    apply List.ext_getElem
    · simp [mapperLeaf, globalValued, apply, contraApply, rt0, rt0Keys]
    · intro l g1 g2
      simp only [List.getElem_map, List.getElem_zip, List.getElem_ofFn, globalValued, apply, contraApply_eq (hgeo e x), mapperLeaf, rt0, rt0Keys, List.getElem_range, add_zero,
        Matrix.mulVec_smul]
      rw [smul_comm (|det (jac e)|⁻¹) (if bits.testBit l = true then -a else a), smul_smul]
  rw [this, List.sum_ofFn]

/-- The flux of the discrete function through facet `i` is, up to the sign, the coefficient of the facet. -/
theorem rt_flux {n : Nat} (hn : n = 1 ∨ n = 2) {G : LGrid E S Nat} {pos : Nat → Vec K (n + 1)} {jac : E → Mat K (n + 1)} (hG : SimplexGrid G n pos jac)
    {geo : E → Geometry K (n + 1)} (hgeo : ∀ e x, (geo e).OK (jac e) x) (a : K) {e : E} {bits : Nat} (hb : bits < numVariants (G.elemGeo e)) {i : Nat} (hi : i < n + 2)
    {x : Vec K (n + 1)} (hx : (simplexFacet K n i).On x) (vec : Nat → K) :
    outerFlux (axpyAll (((mapperLeaf G.toGridView (rtLayout 0 G.dim) fun _ => rt0Keys n).loc e).map vec) ((globalValued .contra (geo e) (rt0 a bits)).eval x))
      (fun k => jac e *ᵥ (simplexFacet K n i).frame k) (jac e *ᵥ (simplexFacet K n i).out) = vec (rtIndex G e i) * if bits.testBit i then -a else a := by
  obtain ⟨u, hu⟩ : ∃ u, (stdSubs (G.elemGeo e) 1)[i]? = some u :=
    ⟨_, List.getElem?_eq_getElem (by rw [hG.simplices]; exact lt_of_lt_of_eq hi (numFacets_simplex hn).symm)⟩
  exact facet_flux G.toGridView (fun _ bits => rt0 a bits) (fun _ => rt0Keys n) (fun _ => simplexFacet K n) (fun _ => a) e (by rw [hG.simplices]; exact rt0_fluxes hn a) bits hb i u
    hu (geo e) (jac e) x (hgeo e x) hx vec

omit [LinearOrder K] [IsStrictOrderedRing K] in
/-- A vector that is orthogonal to the facet and measures the flux. -/
theorem exists_normal (t : Fin n → Vec K (n + 1)) : ∃ N : Vec K (n + 1), (∀ k, N ⬝ᵥ t k = 0) ∧ ∀ u, vol u t = N ⬝ᵥ u := by
  have h : ∀ u, vol u t = (fun j => vol (Pi.single j 1) t) ⬝ᵥ u := by
    intro u
    have hu : u = ∑ j, u j • (Pi.single j 1 : Vec K (n + 1)) := by
      funext d
      simp [Finset.sum_apply, Pi.single_apply]
    conv_lhs => rw [hu]
    rw [vol_sum]
    refine Finset.sum_congr rfl fun j _ => ?_
    rw [vol_smul, mul_comm]
  exact ⟨fun j => vol (Pi.single j 1) t, fun k => by rw [← h, vol_frame], h⟩

omit [IsStrictOrderedRing K] in
/-- The flags of the two elements at a common facet are opposite. -/
theorem flags_opposite {n : Nat} (hn : n = 1 ∨ n = 2) {G : LGrid E S Nat} {pos : Nat → Vec K (n + 1)} {jac : E → Mat K (n + 1)} (hG : SimplexGrid G n pos jac)
    {isects : E → List (Isect E)} (hI : Neighbours G.toGridView isects) {e e' : E} (hne : e ≠ e') {i i' : Nat} (hi : i < n + 2) (hi' : i' < n + 2)
    (hs : G.sub e 1 i = G.sub e' 1 i') {b b' : Nat} (hb : ∀ i, b.testBit i = true ↔ Flipped (elementIndex G.toGridView) e (isects e) i)
    (hb' : ∀ i, b'.testBit i = true ↔ Flipped (elementIndex G.toGridView) e' (isects e') i) : b.testBit i = !b'.testBit i' := by
  have hstd : StdGrid G.toGridView := ⟨hG.ok.base, hG.ok.std, hG.ok.type, hG.ok.elemInj⟩
  have hnf : ∀ e, numFacets (G.elemGeo e) = n + 2 := by
    intro e
    rw [hG.simplices]
    exact numFacets_simplex hn
  obtain ⟨n1, n2⟩ := hI.shared e e' i i' hne (by rw [hnf]; exact hi) (by rw [hnf]; exact hi') hs
  obtain ⟨m1, m2⟩ := hI.shared e' e i' i hne.symm (by rw [hnf]; exact hi') (by rw [hnf]; exact hi) hs.symm
  exact (C47_facet (V := Int) (elementIndex G.toGridView) (elementIndex_injective hstd) e e' hne (isects e) (isects e') i i' n1 m1 n2 m2 b b' hb hb' 0).2

/-- If two discrete functions have equal normal components on the two sides of a facet, then their coefficients of the facet are equal. -/
theorem rt_pair {n : Nat} (hn : n = 1 ∨ n = 2) {G : LGrid E S Nat} {pos : Nat → Vec K (n + 1)} {jac : E → Mat K (n + 1)} (hG : SimplexGrid G n pos jac)
    {isects : E → List (Isect E)} (hI : Neighbours G.toGridView isects) (fixed : Option Geo) (hfix : ∀ u, fixed = some u → u = simplexOf (n + 1))
    {geo : E → Geometry K (n + 1)} (hgeo : ∀ e x, (geo e).OK (jac e) x) {a : K} (ha : a ≠ 0) (vec vec' : Nat → K)
    {e e' : E} (hne : e ≠ e') {i i' : Nat} (hi : i < n + 2) (hi' : i' < n + 2) (hs : G.sub e 1 i = G.sub e' 1 i')
    {x x' : Vec K (n + 1)} (hx : (simplexFacet K n i).On x) (hx' : (simplexFacet K n i').On x') {v v' : Vec K (n + 1)}
    (hv : rtValue G fixed isects geo a vec e x = some v) (hv' : rtValue G fixed isects geo a vec' e' x' = some v')
    (hN : ∀ N : Vec K (n + 1), (∀ k < n + 1, N ⬝ᵥ pos (G.ids e (facetVertex n i k)) = N ⬝ᵥ pos (G.ids e (facetVertex n i 0))) → N ⬝ᵥ v = N ⬝ᵥ v') :
    vec (rtIndex G e i) = vec' (rtIndex G e i) := by
  obtain ⟨b, b1, b2, b3, -⟩ := rt_sum hn hG hI fixed hfix hgeo a e
  obtain ⟨b', b1', b2', b3', -⟩ := rt_sum hn hG hI fixed hfix hgeo a e'
  have hflag := flags_opposite hn hG hI hne hi hi' hs b2 b2'
  have f1 := rt_flux hn hG hgeo a b1 hi hx vec
  have f2 := rt_flux hn hG hgeo a b1' hi' hx' vec'
  rw [b3, Option.some.injEq] at hv
  rw [b3', Option.some.injEq] at hv'
  rw [hv] at f1
  rw [hv'] at f2
  have hM := simplex_meet hn hG hne hi hi' hs
  obtain ⟨U, hU1, hU2⟩ := hM.frame
  rw [show (fun l => jac e' *ᵥ (simplexFacet K n i').frame l) = fun l => ∑ k, U l k • (jac e *ᵥ (simplexFacet K n i).frame k) from funext hU2,
    outerFlux_change _ _ _ U hU1] at f2
  have hsides := hM.sides
  have hlt := fun k hk => facetVertex_lt hn (i := i) (k := k) hi hk
  have hvol : vol v (fun k => jac e *ᵥ (simplexFacet K n i).frame k) = vol v' (fun k => jac e *ᵥ (simplexFacet K n i).frame k) := by
    obtain ⟨N, N1, N2⟩ := exists_normal (fun k => jac e *ᵥ (simplexFacet K n i).frame k)
    rw [N2, N2]
    refine hN N fun k hk => ?_
    cases k with
    | zero => rfl
    | succ k =>
      have := N1 ⟨k, by omega⟩
      rw [show jac e *ᵥ (simplexFacet K n i).frame ⟨k, by omega⟩ = pos (G.ids e (facetVertex n i (k + 1))) - pos (G.ids e (facetVertex n i 0)) from
        jac_corner (p := fun v => pos (G.ids e v)) (hG.jac e) _ _ (hlt _ (by omega)) (hlt _ (by omega)), dotProduct_sub] at this
      exact sub_eq_zero.1 this
  rw [outerFlux_eq] at f1 f2
  rw [hvol] at f1
  rw [show rtIndex G e' i' = rtIndex G e i by rw [rtIndex, ← hs]] at f2
  generalize vol (jac e *ᵥ (simplexFacet K n i).out) (fun k => jac e *ᵥ (simplexFacet K n i).frame k) = w at f1 hsides
  generalize vol (jac e' *ᵥ (simplexFacet K n i').out) (fun k => jac e *ᵥ (simplexFacet K n i).frame k) = w' at f2 hsides
  have hsign : (SignType.sign w' : K) = -(SignType.sign w : K) := by
    rcases lt_trichotomy w 0 with h | h | h
    · have : 0 < w' := by nlinarith
      rw [sign_pos this, sign_neg h]
      simp
    · rw [h, zero_mul] at hsides
      exact absurd hsides (lt_irrefl _)
    · have : w' < 0 := by nlinarith
      rw [sign_neg this, sign_pos h]
      simp
  rw [hsign] at f2
  rw [hflag] at f1
  have h := f1.symm.trans (show _ = -(vec' (rtIndex G e i) * if b'.testBit i' then -a else a) by rw [← f2]; ring)
  cases hb : b'.testBit i' <;> simp [hb] at h <;> exact h.resolve_right ha

/-! ## Local space and indices -/

omit [IsStrictOrderedRing K] in
theorem rtIndex_inj {n : Nat} (hn : n = 1 ∨ n = 2) {G : LGrid E S Nat} {pos : Nat → Vec K (n + 1)} {jac : E → Mat K (n + 1)} (hG : SimplexGrid G n pos jac)
    {e e' : E} {i i' : Nat} (hi : i < n + 2) (hi' : i' < n + 2) (h : rtIndex G e i = rtIndex G e' i') : G.sub e 1 i = G.sub e' 1 i' := by
  have hlay : ∀ e i, i < n + 2 → 0 < rtLayout 0 G.dim (G.geo (G.sub e 1 i)) := by
    intro e i hi
    obtain ⟨u, hu⟩ : ∃ u, (stdSubs (simplexOf (n + 1)) 1)[i]? = some u := ⟨_, List.getElem?_eq_getElem (lt_of_lt_of_eq hi (numFacets_simplex hn).symm)⟩
    rw [hG.ok.base.subGeo e 1 i u (by rw [hG.ok.std, hG.simplices]; exact hu), hG.dim]
    have hm := List.mem_of_getElem? hu
    have t : ∀ n : Fin 3, n.val = 1 ∨ n.val = 2 → ∀ u ∈ stdSubs (simplexOf (n + 1)) 1, 0 < rtLayout 0 (n + 1) u := by decide
    exact t ⟨n, by omega⟩ hn u hm
  exact ((mapper_inj hG.ok.base (rtLayout 0 G.dim) _ _ 0 0 (hlay e i hi) (hlay e' i' hi')).1 (by simpa using h)).1

omit [IsStrictOrderedRing K] in
/-- Every index belongs to a facet. -/
theorem rtIndex_surj {n : Nat} (hn : n = 1 ∨ n = 2) {G : LGrid E S Nat} {pos : Nat → Vec K (n + 1)} {jac : E → Mat K (n + 1)} (hG : SimplexGrid G n pos jac)
    {m : Nat} (hm : m < mapperSize G.toGridView (rtLayout 0 G.dim)) : ∃ e i, i < n + 2 ∧ m = rtIndex G e i := by
  obtain ⟨s, j, hj, rfl⟩ := mapper_surj hG.ok.base (rtLayout 0 G.dim) m hm
  obtain ⟨e, c, i, hc, hi, rfl⟩ := hG.ok.base.subSurj s
  rw [hG.dim] at hc
  rw [hG.ok.std, hG.simplices] at hi
  obtain ⟨u, hu⟩ : ∃ u, (stdSubs (simplexOf (n + 1)) c)[i]? = some u := ⟨_, List.getElem?_eq_getElem hi⟩
  rw [hG.ok.base.subGeo e c i u (by rw [hG.ok.std, hG.simplices]; exact hu), hG.dim] at hj
  have hm := List.mem_of_getElem? hu
  have t : ∀ n : Fin 3, n.val = 1 ∨ n.val = 2 → ∀ c < n.val + 2, ∀ u ∈ stdSubs (simplexOf (n + 1)) c, rtLayout 0 (n + 1) u = if c = 1 then 1 else 0 := by decide
  rw [t ⟨n, by omega⟩ hn c (by simp only; omega) u hm] at hj
  obtain rfl : c = 1 := by
    by_contra h
    rw [if_neg h] at hj
    omega
  rw [if_pos rfl] at hj
  obtain rfl : j = 0 := by omega
  exact ⟨e, i, lt_of_lt_of_eq hi (numFacets_simplex hn), rfl⟩

/-- Every field `p + q y` on one element belongs to some coefficients. -/
theorem rt_local {n : Nat} (hn : n = 1 ∨ n = 2) {G : LGrid E S Nat} {pos : Nat → Vec K (n + 1)} {jac : E → Mat K (n + 1)} (hG : SimplexGrid G n pos jac)
    {isects : E → List (Isect E)} (hI : Neighbours G.toGridView isects) (fixed : Option Geo) (hfix : ∀ u, fixed = some u → u = simplexOf (n + 1))
    {geo : E → Geometry K (n + 1)} (hgeo : ∀ e x, (geo e).OK (jac e) x) {a : K} (ha : a ≠ 0) (e : E) {f : Vec K (n + 1) → Vec K (n + 1)}
    (hf : RTField (pos (G.ids e 0)) (jac e) f) : ∃ vec, ∀ x, rtValue G fixed isects geo a vec e x = some (f x) := by
  obtain ⟨bits, -, -, -, hb⟩ := rt_sum hn hG hI fixed hfix hgeo a e
  obtain ⟨p, q, hf⟩ := hf
  have hdet : (jac e).det ≠ 0 := (hgeo e 0).nondeg
  have hJ : jac e * (jac e)⁻¹ = 1 := Matrix.mul_nonsing_inv _ (isUnit_iff_ne_zero.2 hdet)
  have habs : |(jac e).det| ≠ 0 := abs_ne_zero.2 hdet
  let c : Vec K (n + 1) := |(jac e).det| • ((jac e)⁻¹ *ᵥ (p + q • pos (G.ids e 0)))
  let W : Fin (n + 2) → K := Fin.cons (|(jac e).det| * q + ∑ j, c j) fun j => -c j
  have hW : ∀ x, f x = ∑ v : Fin (n + 2), W v • ((|(jac e).det|)⁻¹ • (jac e *ᵥ (x - corner K n v))) := by
    intro x
    have h1 := affine_corners c (|(jac e).det| * q) x
    have h2 : f x = (|(jac e).det|)⁻¹ • (jac e *ᵥ (c + (|(jac e).det| * q) • x)) := by
      rw [hf, global, Matrix.mulVec_add, Matrix.mulVec_smul, Matrix.mulVec_smul, Matrix.mulVec_mulVec, hJ, Matrix.one_mulVec, smul_add (|(jac e).det|)⁻¹, smul_smul, smul_smul,
        ← mul_assoc, inv_mul_cancel₀ habs, one_smul, one_mul, smul_add, add_assoc]
    rw [h2, h1, Matrix.mulVec_sum, Finset.smul_sum]
    refine Finset.sum_congr rfl fun v _ => ?_
    rw [Matrix.mulVec_smul, smul_comm]
  have hinj : ∀ l l' : Fin (n + 2), rtIndex G e l = rtIndex G e l' → l = l' := by
    intro l l' h
    have := hG.ok.base.subInj e 1 l 1 l' (by rw [hG.ok.std, hG.simplices]; exact lt_of_lt_of_eq l.2 (numFacets_simplex hn).symm)
      (by rw [hG.ok.std, hG.simplices]; exact lt_of_lt_of_eq l'.2 (numFacets_simplex hn).symm) (rtIndex_inj hn hG l.2 l'.2 h)
    exact Fin.ext this.2
  classical
  let vec : Nat → K := fun m => if h : ∃ l : Fin (n + 2), rtIndex G e l = m then W (Fin.rev h.choose) / (if bits.testBit h.choose then -a else a) else 0
  have hvec : ∀ l : Fin (n + 2), vec (rtIndex G e l) = W (Fin.rev l) / (if bits.testBit l then -a else a) := by
    intro l
    have h : ∃ l' : Fin (n + 2), rtIndex G e l' = rtIndex G e l := ⟨l, rfl⟩
    simp only [vec, dif_pos h]
    rw [hinj _ _ h.choose_spec]
  refine ⟨vec, fun x => ?_⟩
  rw [hb, hW, Option.some.injEq, ← Equiv.sum_comp Fin.revPerm fun v : Fin (n + 2) => W v • ((|(jac e).det|)⁻¹ • (jac e *ᵥ (x - corner K n v)))]
  refine Finset.sum_congr rfl fun l _ => ?_
  have hs : (if bits.testBit l then -a else a) ≠ 0 := by split <;> simpa using ha
  rw [hvec, div_mul_cancel₀ _ hs, Fin.revPerm_apply, show ((Fin.rev l : Fin (n + 2)) : Nat) = n + 1 - l by rw [Fin.val_rev]; omega]

/-! ## Theorems -/

omit [LinearOrder K] [IsStrictOrderedRing K] in
/-- The first vertex of a facet lies on the facet. -/
theorem on_vertex (n i : Nat) : (simplexFacet K n i).On (corner K n (facetVertex n i 0)) := by
  refine ⟨Pi.single 0 1, by simp, ?_⟩
  rw [Finset.sum_eq_single 0]
  · simp
  · intro k _ hk
    rw [Pi.single_eq_of_ne hk, zero_smul]
  · simp

/-- **C87: space.** On every conforming grid of affine triangles or tetrahedra, a family of vector fields on the elements is a function of the Raviart–Thomas basis of order 0 if and only if it
has the form `p + q y` on each element and its normal components are continuous. -/
theorem C87_space {n : Nat} (hn : n = 1 ∨ n = 2) {G : LGrid E S Nat} {pos : Nat → Vec K (n + 1)} {jac : E → Mat K (n + 1)} (hG : SimplexGrid G n pos jac)
    {isects : E → List (Isect E)} (hI : Neighbours G.toGridView isects) (fixed : Option Geo) (hfix : ∀ u, fixed = some u → u = simplexOf (n + 1))
    {geo : E → Geometry K (n + 1)} (hgeo : ∀ e x, (geo e).OK (jac e) x) {a : K} (ha : a ≠ 0) (f : E → Vec K (n + 1) → Vec K (n + 1)) :
    (∃ vec, ∀ e x, rtValue G fixed isects geo a vec e x = some (f e x)) ↔
      (∀ e, RTField (pos (G.ids e 0)) (jac e) (f e)) ∧ NormalContinuous G n pos jac f := by
  constructor
  · rintro ⟨vec, hv⟩
    refine ⟨fun e => ?_, ?_⟩
    · obtain ⟨bits, -, -, -, hb⟩ := rt_sum hn hG hI fixed hfix hgeo a e
      let c : Fin (n + 2) → K := fun l => (vec (rtIndex G e l) * if bits.testBit l then -a else a) * (|(jac e).det|)⁻¹
      refine ⟨-(∑ l, c l • (jac e *ᵥ corner K n (n + 1 - l))) - (∑ l, c l) • pos (G.ids e 0), ∑ l, c l, fun x => ?_⟩
      have := hb vec x
      rw [hv, Option.some.injEq] at this
      rw [this, global, smul_add]
      simp only [smul_smul, Matrix.mulVec_sub, smul_sub, Finset.sum_sub_distrib]
      rw [← Finset.sum_smul]
      simp only [c]
      abel
    · intro e e' i i' hne hi hi' hs x x' hx hx' _ N hN
      obtain ⟨v, v', h1, h2, h3⟩ := C67_simplex hn hG hI fixed hfix hgeo a vec hne hi hi' hs hx hx'
      have g1 := (hv e x).symm.trans h1
      have g2 := (hv e' x').symm.trans h2
      rw [Option.some.injEq] at g1 g2
      rw [g1, g2]
      exact h3 N hN
  · rintro ⟨hloc, hcont⟩
    choose vecs hvecs using fun e => rt_local hn hG hI fixed hfix hgeo ha e (hloc e)
    have hsame : ∀ e e' i i', i < n + 2 → i' < n + 2 → rtIndex G e i = rtIndex G e' i' → vecs e (rtIndex G e i) = vecs e' (rtIndex G e i) := by
      intro e e' i i' hi hi' h
      by_cases hne : e = e'
      · rw [hne]
      · have hs := rtIndex_inj hn hG hi hi' h
        have hlt := fun k hk => facetVertex_lt hn (i := i) (k := k) hi hk
        -- a common point of the two facets
        obtain ⟨s1, -⟩ := shared_ids hn hG.ok hG.simplices hi' hi hs.symm
        obtain ⟨m, hm, hid⟩ := s1 0 (by omega)
        have hx' : (simplexFacet K n i').On (corner K n (facetVertex n i' m)) := by
          refine ⟨Pi.single ⟨m, hm⟩ 1, by simp, ?_⟩
          rw [Finset.sum_eq_single ⟨m, hm⟩]
          · simp
          · intro k _ hk
            rw [Pi.single_eq_of_ne hk, zero_smul]
          · simp
        have hpos : ∀ e v, v < n + 2 → global (pos (G.ids e 0)) (jac e) (corner K n v) = pos (G.ids e v) := by
          intro e v hv
          have := jac_corner (p := fun v => pos (G.ids e v)) (hG.jac e) v 0 hv (by omega)
          rw [corner_zero, sub_zero] at this
          rw [global, this]
          abel
        refine rt_pair hn hG hI fixed hfix hgeo ha (vecs e) (vecs e') hne hi hi' hs (on_vertex n i) hx' (hvecs e _) (hvecs e' _) ?_
        refine hcont e e' i i' hne hi hi' hs _ _ (on_vertex n i) hx' ?_
        rw [hpos _ _ (hlt 0 (by omega)), hpos _ _ (facetVertex_lt hn hi' hm), hid]
    classical
    let vec : Nat → K := fun m => if h : ∃ e i, i < n + 2 ∧ rtIndex G e i = m then vecs h.choose m else 0
    refine ⟨vec, fun e x => ?_⟩
    obtain ⟨bits, -, -, -, hb⟩ := rt_sum hn hG hI fixed hfix hgeo a e
    rw [← hvecs e x, hb, hb, Option.some.injEq]
    refine Finset.sum_congr rfl fun l _ => ?_
    have h : ∃ e' i, i < n + 2 ∧ rtIndex G e' i = rtIndex G e l := ⟨e, l, l.2, rfl⟩
    have : vec (rtIndex G e l) = vecs e (rtIndex G e l) := by
      simp only [vec, dif_pos h]
      obtain ⟨i, hi, he⟩ := h.choose_spec
      have := hsame _ e i l hi l.2 he
      rwa [he] at this
    rw [this]

/-- **C87: facets.** The normal components of two functions on a facet agree if and only if their coefficients of the facet agree. In particular, the coefficients of the
boundary facets determine the normal components on the boundary. -/
theorem C87_facet {n : Nat} (hn : n = 1 ∨ n = 2) {G : LGrid E S Nat} {pos : Nat → Vec K (n + 1)} {jac : E → Mat K (n + 1)} (hG : SimplexGrid G n pos jac)
    {isects : E → List (Isect E)} (hI : Neighbours G.toGridView isects) (fixed : Option Geo) (hfix : ∀ u, fixed = some u → u = simplexOf (n + 1))
    {geo : E → Geometry K (n + 1)} (hgeo : ∀ e x, (geo e).OK (jac e) x) {a : K} (ha : a ≠ 0) (vec vec' : Nat → K) (e : E) {i : Nat} (hi : i < n + 2)
    {x : Vec K (n + 1)} (hx : (simplexFacet K n i).On x) :
    ∃ v v', rtValue G fixed isects geo a vec e x = some v ∧ rtValue G fixed isects geo a vec' e x = some v' ∧
      (vec (rtIndex G e i) = vec' (rtIndex G e i) ↔
        ∀ N : Vec K (n + 1), (∀ k < n + 1, N ⬝ᵥ pos (G.ids e (facetVertex n i k)) = N ⬝ᵥ pos (G.ids e (facetVertex n i 0))) → N ⬝ᵥ v = N ⬝ᵥ v') := by
  obtain ⟨b, b1, b2, b3, -⟩ := rt_sum hn hG hI fixed hfix hgeo a e
  refine ⟨_, _, b3 vec x, b3 vec' x, ?_⟩
  have f1 := rt_flux hn hG hgeo a b1 hi hx vec
  have f2 := rt_flux hn hG hgeo a b1 hi hx vec'
  have f3 := rt_flux hn hG hgeo a b1 hi hx fun _ => 1
  have hlt := fun k hk => facetVertex_lt hn (i := i) (k := k) hi hk
  have hfr : ∀ k : Fin n, jac e *ᵥ (simplexFacet K n i).frame k = pos (G.ids e (facetVertex n i (k + 1))) - pos (G.ids e (facetVertex n i 0)) :=
    fun k => jac_corner (p := fun v => pos (G.ids e v)) (hG.jac e) _ _ (hlt _ (by omega)) (hlt _ (by omega))
  generalize axpyAll (((mapperLeaf G.toGridView (rtLayout 0 G.dim) fun _ => rt0Keys n).loc e).map vec) ((globalValued .contra (geo e) (rt0 a b)).eval x) = v at f1 ⊢
  generalize axpyAll (((mapperLeaf G.toGridView (rtLayout 0 G.dim) fun _ => rt0Keys n).loc e).map vec') ((globalValued .contra (geo e) (rt0 a b)).eval x) = v' at f2 ⊢
  rw [outerFlux_eq] at f1 f2 f3
  have hs : (if b.testBit i then -a else a) ≠ 0 := by split <;> simpa using ha
  rw [one_mul] at f3
  have hw : vol (jac e *ᵥ (simplexFacet K n i).out) (fun k => jac e *ᵥ (simplexFacet K n i).frame k) ≠ 0 := by
    intro h
    rw [h, sign_zero] at f3
    simp only [SignType.coe_zero, mul_zero] at f3
    exact hs f3.symm
  have hsn : (SignType.sign (vol (jac e *ᵥ (simplexFacet K n i).out) (fun k => jac e *ᵥ (simplexFacet K n i).frame k)) : K) ≠ 0 := by
    rcases lt_or_gt_of_ne hw with h | h
    · rw [sign_neg h]
      simp
    · rw [sign_pos h]
      simp
  constructor
  · intro h N hN
    have hvol : vol v (fun k => jac e *ᵥ (simplexFacet K n i).frame k) = vol v' (fun k => jac e *ᵥ (simplexFacet K n i).frame k) := by
      apply mul_right_cancel₀ hsn
      rw [f1, f2, h]
    have := normal_zero hw (show vol (v + (-1 : K) • v') _ = 0 by rw [vol_add, vol_smul, hvol]; ring) N fun k => by
      rw [hfr, dotProduct_sub, hN _ (by omega), sub_self]
    rw [dotProduct_add, dotProduct_smul, smul_eq_mul] at this
    linear_combination this
  · intro h
    obtain ⟨N, N1, N2⟩ := exists_normal (fun k => jac e *ᵥ (simplexFacet K n i).frame k)
    have hN := h N fun k hk => by
      cases k with
      | zero => rfl
      | succ k =>
        have := N1 ⟨k, by omega⟩
        rw [hfr, dotProduct_sub] at this
        exact sub_eq_zero.1 this
    rw [← N2, ← N2] at hN
    apply mul_right_cancel₀ hs
    rw [← f1, ← f2, hN]

/-- **C87: coefficients.** The coefficients of a function are unique. -/
theorem C87_unique {n : Nat} (hn : n = 1 ∨ n = 2) {G : LGrid E S Nat} {pos : Nat → Vec K (n + 1)} {jac : E → Mat K (n + 1)} (hG : SimplexGrid G n pos jac)
    {isects : E → List (Isect E)} (hI : Neighbours G.toGridView isects) (fixed : Option Geo) (hfix : ∀ u, fixed = some u → u = simplexOf (n + 1))
    {geo : E → Geometry K (n + 1)} (hgeo : ∀ e x, (geo e).OK (jac e) x) {a : K} (ha : a ≠ 0) (vec vec' : Nat → K)
    (heq : ∀ e x, rtValue G fixed isects geo a vec e x = rtValue G fixed isects geo a vec' e x) :
    ∀ m < (mapperLeaf G.toGridView (rtLayout 0 G.dim) fun _ => rt0Keys n).dim, vec m = vec' m := by
  intro m hm
  obtain ⟨e, i, hi, rfl⟩ := rtIndex_surj hn hG hm
  obtain ⟨v, v', h1, h2, h3⟩ := C87_facet hn hG hI fixed hfix hgeo ha vec vec' e hi (on_vertex n i)
  refine h3.2 fun N _ => ?_
  rw [heq, h2, Option.some.injEq] at h1
  rw [h1]

/-- **C87: divergence.** The field of an element has the form `p + q y`, i.e. the divergence `(n + 1) q`, and `q` times the volume factor of the element is the sum of the fluxes through the
facets. In particular, the field is constant on the element if and only if these fluxes sum up to zero. -/
theorem C87_divergence {n : Nat} (hn : n = 1 ∨ n = 2) {G : LGrid E S Nat} {pos : Nat → Vec K (n + 1)} {jac : E → Mat K (n + 1)} (hG : SimplexGrid G n pos jac)
    {isects : E → List (Isect E)} (hI : Neighbours G.toGridView isects) (fixed : Option Geo) (hfix : ∀ u, fixed = some u → u = simplexOf (n + 1))
    {geo : E → Geometry K (n + 1)} (hgeo : ∀ e x, (geo e).OK (jac e) x) (a : K) (vec : Nat → K) (e : E) :
    ∃ (p : Vec K (n + 1)) (q : K), (∀ x, rtValue G fixed isects geo a vec e x = some (p + q • global (pos (G.ids e 0)) (jac e) x)) ∧
      ∀ x : Fin (n + 2) → Vec K (n + 1), (∀ i : Fin (n + 2), (simplexFacet K n i).On (x i)) →
        q * |(jac e).det| = ∑ i : Fin (n + 2), outerFlux (p + q • global (pos (G.ids e 0)) (jac e) (x i)) (fun k => jac e *ᵥ (simplexFacet K n i).frame k)
          (jac e *ᵥ (simplexFacet K n i).out) := by
  obtain ⟨bits, hb1, -, hb3, hb⟩ := rt_sum hn hG hI fixed hfix hgeo a e
  have habs : |(jac e).det| ≠ 0 := abs_ne_zero.2 (hgeo e 0).nondeg
  let c : Fin (n + 2) → K := fun l => (vec (rtIndex G e l) * if bits.testBit l then -a else a) * (|(jac e).det|)⁻¹
  have hval : ∀ x, rtValue G fixed isects geo a vec e x = some ((-(∑ l, c l • (jac e *ᵥ corner K n (n + 1 - l))) - (∑ l, c l) • pos (G.ids e 0)) +
      (∑ l, c l) • global (pos (G.ids e 0)) (jac e) x) := by
    intro x
    rw [hb, Option.some.injEq, global, smul_add]
    simp only [smul_smul, Matrix.mulVec_sub, smul_sub, Finset.sum_sub_distrib]
    rw [← Finset.sum_smul]
    simp only [c]
    abel
  refine ⟨_, _, hval, fun x hx => ?_⟩
  rw [Finset.sum_mul]
  refine Finset.sum_congr rfl fun i _ => ?_
  have hf := rt_flux hn hG hgeo a hb1 i.2 (hx i) vec
  have := hval (x i)
  rw [hb3, Option.some.injEq] at this
  rw [← this, hf]
  simp only [c]
  rw [mul_assoc, inv_mul_cancel₀ habs, mul_one]

/-! ## Examples: two triangles -/

theorem demo_geo : ∀ e x, ((fun e => ofJacobian fun _ => demoJac e : Fin 2 → Geometry ℝ 2) e).OK (demoJac e) x :=
  fun e x => ofJacobian_OK _ x (by fin_cases e <;> simp [demoJac])

/-- Constant fields and the field of the positions are functions of the basis. -/
example (p : Vec ℝ 2) (q : ℝ) : ∃ vec, ∀ e x, rtValue demoGrid none demoIsects (fun e => ofJacobian fun _ => demoJac e) 1 vec e x =
    some (p + q • global (demoPos (demoGrid.ids e 0)) (demoJac e) x) :=
  (C87_space (Or.inl rfl) demo_simplexGrid demo_neighbours none (by simp) demo_geo one_ne_zero _).2
    ⟨fun _ => ⟨p, q, fun _ => rfl⟩, fun _ _ _ _ _ _ _ _ _ _ _ _ h _ _ => by simp only [h]⟩

/-- A field that is zero on one of the triangles and `(1, 0)` on the other one is not a function of the basis; the field `(1, -1)` is, because it is tangential to
the common edge. -/
example : (¬ ∃ vec, ∀ e x, rtValue demoGrid none demoIsects (fun e => ofJacobian fun _ => demoJac e) 1 vec e x = some (if e = 0 then ![1, 0] else (0 : Vec ℝ 2))) ∧
    ∃ vec, ∀ e x, rtValue demoGrid none demoIsects (fun e => ofJacobian fun _ => demoJac e) 1 vec e x = some (if e = 0 then ![1, -1] else (0 : Vec ℝ 2)) := by
  constructor
  · intro h
    have := ((C87_space (Or.inl rfl) demo_simplexGrid demo_neighbours none (by simp) demo_geo one_ne_zero _).1 h).2 0 1 2 2 (by decide) (by omega) (by omega) rfl
      (corner ℝ 1 1) (corner ℝ 1 2) ⟨![1, 0], by simp, by simp [facetVertex, simplexOf, refOf, subVerts, triangle]⟩
      ⟨![0, 1], by simp, by simp [facetVertex, simplexOf, refOf, subVerts, triangle]⟩ (by
        funext d
        fin_cases d <;> simp [global, demoGrid, demoPos, demoJac, corner, dotProduct, Fin.sum_univ_two]) ![1, 1] (by
        intro k hk
        have : k = 0 ∨ k = 1 := by omega
        rcases this with rfl | rfl <;> simp [facetVertex, simplexOf, refOf, subVerts, triangle, demoGrid, demoPos])
    simp at this
  · refine (C87_space (Or.inl rfl) demo_simplexGrid demo_neighbours none (by simp) demo_geo one_ne_zero _).2 ⟨fun e => ⟨if e = 0 then ![1, -1] else 0, 0, fun x => ?_⟩, ?_⟩
    · simp
    · intro e e' i i' hne hi hi' hs x x' _ _ _ N hN
      obtain ⟨rfl, rfl, h⟩ := demo_shared hne hi hi' hs
      have := hN 1 (by omega)
      rcases h with ⟨rfl, rfl⟩ | ⟨rfl, rfl⟩ <;>
        simp [facetVertex, simplexOf, refOf, subVerts, triangle, demoGrid, demoPos, dotProduct, Fin.sum_univ_two] at this ⊢ <;> linarith

/-- The coefficients are unique, and the field of the positions has the sum of fluxes 1 on each of the triangles. -/
example (vec vec' : Nat → ℝ) (h : ∀ e x, rtValue demoGrid none demoIsects (fun e => ofJacobian fun _ => demoJac e) 1 vec e x =
    rtValue demoGrid none demoIsects (fun e => ofJacobian fun _ => demoJac e) 1 vec' e x) : ∀ m < 5, vec m = vec' m :=
  C87_unique (Or.inl rfl) demo_simplexGrid demo_neighbours none (by simp) demo_geo one_ne_zero vec vec' h

end Verif.HDiv.Trace
