import Verif.HDiv.Orientation
import Verif.FE.Piola
import Mathlib.LinearAlgebra.Matrix.NonsingularInverse
import Mathlib.LinearAlgebra.Matrix.ToLin
import Mathlib.Tactic.LinearCombination

/-!
# Normal components of Raviart–Thomas functions

A coefficient vector of the Raviart–Thomas basis of order 0 defines a vector field on each element. The normal components of the fields of two
elements agree on their common facet.
-/

namespace Verif.HDiv.Trace

open Matrix Verif.Mapper Verif.Lagrange Verif.Piola

variable {E S K : Type} [Field K] [LinearOrder K] [IsStrictOrderedRing K] {n : Nat}

/-! ## Model -/

/-- `mcmgElementLayout`. -/
def elementLayout (dim : Nat) : Layout := fun t => if t.dim = dim then 1 else 0

/-- `elementMapper_.index(e)`. -/
def elementIndex (G : GridView E S) (e : E) : Nat := mapperIndex G (elementLayout G.dim) (G.sub e 0 0)

omit [LinearOrder K] [IsStrictOrderedRing K] in
/-- discreteglobalbasisfunction.hh:351-363 for scalar coefficients: linear combination of the values of the shape functions. -/
def axpyAll (dofs : List K) (values : List (Vec K n)) : Vec K n := (dofs.zip values).foldl (fun y cv => y + cv.1 • cv.2) 0

/-- The value at the local point `x` of the element `e` of the discrete function with coefficients `vec`. `table` are the local finite elements (of
dune-localfunctions) by kind and number of the variant, `keys` their local keys. The node selects the variant (raviartthomasbasis.hh:362-367, 230-234), the finite
element applies the contravariant transform (globalvaluedlocalfiniteelement.hh:274-280). `none` if the access to the table is out of range. -/
def value (G : GridView E S) (fixed : Option Geo) (isects : E → List (Isect E)) (table : HDiv.Kind → Nat → LFE K (n + 1))
    (keys : Geo → List Key) (geo : E → Geometry K (n + 1)) (vec : Nat → K) (e : E) (x : Vec K (n + 1)) : Option (Vec K (n + 1)) :=
  (find G.dim fixed (elementIndex G) e (G.elemGeo e) (isects e)).map fun v =>
    axpyAll (((mapperLeaf G (rtLayout 0 G.dim) fun e => keys (G.elemGeo e)).loc e).map vec) ((globalValued .contra (geo e) (table v.1 v.2)).eval x)

/-! ## Specification -/

/-- A facet of a reference element: the points on it, vectors that span it, and a vector that leaves the element there. -/
structure RefFacet (K : Type) (n : Nat) where
  On : Vec K (n + 1) → Prop
  frame : Fin n → Vec K (n + 1)
  out : Vec K (n + 1)

/-- Contract of the local finite elements of order 0 for the element type `t`: shape function `l` has the flux `c` through the facet of its local key and no flux
through the other facets. The flux `c` depends on the type of the facet only and is reversed if the bit of the facet is set in the number
of the variant. Shape functions whose key does not belong to a facet have no flux through facets. -/
structure Fluxes (table : HDiv.Kind → Nat → LFE K (n + 1)) (keys : Geo → List Key) (facet : Geo → Nat → RefFacet K n) (c : Geo → K) (t : Geo) :
    Prop where
  size : ∀ bits x, ((table (kindOf t) bits).eval x).length = (keys t).length
  nodup : (keys t).Nodup
  full : ∀ i < numFacets t, (⟨i, 1, 0⟩ : Key) ∈ keys t
  flux : ∀ bits < numVariants t, ∀ (l : Nat) (k : Key), (keys t)[l]? = some k → ∀ (i : Nat) (u : Geo), (stdSubs t 1)[i]? = some u →
    ∀ x, (facet t i).On x → outerFlux ((table (kindOf t) bits).shape l x) (facet t i).frame (facet t i).out =
      if k = ⟨i, 1, 0⟩ then (if bits.testBit i then -c u else c u) else 0

/-- Contract of the grid and its intersections: two elements with a common facet are neighbours in an intersection. -/
structure Neighbours (G : GridView E S) (isects : E → List (Isect E)) : Prop where
  inside : ∀ e, ∀ s ∈ isects e, s.inside < numFacets (G.elemGeo e)
  shared : ∀ e e' i i', e ≠ e' → i < numFacets (G.elemGeo e) → i' < numFacets (G.elemGeo e') → G.sub e 1 i = G.sub e' 1 i' →
    (∃ s ∈ isects e, s.inside = i ∧ s.contained = true ∧ s.outside = some e') ∧ ∀ s ∈ isects e, s.inside = i → s.outside = some e'

/-- The determinant of the matrix with the rows `u`, `t 0`, `t 1`, … -/
def vol (u : Vec K (n + 1)) (t : Fin n → Vec K (n + 1)) : K := (Matrix.of (Fin.cons u t : Fin (n + 1) → Vec K (n + 1))).det

/-- Contract of the geometries of two elements in one point of a common facet, with the Jacobians `J`, `J'`: the images of the vectors that span the reference facets
span the same plane with the same volume (e.g. edges of a triangle from different vertices), and the elements lie on different sides. -/
structure Meet (J J' : Mat K (n + 1)) (f f' : RefFacet K n) : Prop where
  frame : ∃ U : Mat K n, |U.det| = 1 ∧ ∀ l, J' *ᵥ f'.frame l = ∑ k, U l k • (J *ᵥ f.frame k)
  sides : vol (J *ᵥ f.out) (fun k => J *ᵥ f.frame k) * vol (J' *ᵥ f'.out) (fun k => J *ᵥ f.frame k) < 0

/-! ## Determinants -/

omit [LinearOrder K] [IsStrictOrderedRing K] in
theorem vol_eq (u : Vec K (n + 1)) (t : Fin n → Vec K (n + 1)) (a : Vec K (n + 1)) :
    vol u t = ((Matrix.of (Fin.cons a t : Fin (n + 1) → Vec K (n + 1))).updateRow 0 u).det := by
  rw [vol]
  congr 1
  funext i k
  refine Fin.cases ?_ (fun i => ?_) i <;> simp [Matrix.updateRow_apply]

omit [LinearOrder K] [IsStrictOrderedRing K] in
theorem vol_add (u v : Vec K (n + 1)) (t : Fin n → Vec K (n + 1)) : vol (u + v) t = vol u t + vol v t := by
  rw [vol_eq _ t 0, vol_eq u t 0, vol_eq v t 0, Matrix.det_updateRow_add]

omit [LinearOrder K] [IsStrictOrderedRing K] in
theorem vol_smul (a : K) (u : Vec K (n + 1)) (t : Fin n → Vec K (n + 1)) : vol (a • u) t = a * vol u t := by
  rw [vol_eq _ t 0, vol_eq u t 0, Matrix.det_updateRow_smul]

omit [LinearOrder K] [IsStrictOrderedRing K] in
theorem vol_zero (t : Fin n → Vec K (n + 1)) : vol 0 t = 0 := by
  have := vol_smul (0 : K) 0 t
  rwa [zero_smul, zero_mul] at this

omit [LinearOrder K] [IsStrictOrderedRing K] in
theorem vol_frame (t : Fin n → Vec K (n + 1)) (k : Fin n) : vol (t k) t = 0 := by
  rw [vol]
  refine Matrix.det_zero_of_row_eq (i := 0) (j := k.succ) (Fin.succ_ne_zero k).symm ?_
  funext j
  simp

omit [LinearOrder K] [IsStrictOrderedRing K] in
theorem vol_sum {ι : Type} (s : Finset ι) (u : ι → Vec K (n + 1)) (t : Fin n → Vec K (n + 1)) : vol (∑ i ∈ s, u i) t = ∑ i ∈ s, vol (u i) t := by
  classical
  induction s using Finset.induction_on with
  | empty => simp [vol_zero]
  | insert a s ha ih => rw [Finset.sum_insert ha, Finset.sum_insert ha, vol_add, ih]

omit [LinearOrder K] [IsStrictOrderedRing K] in
/-- Change of the vectors that span the facet. -/
theorem vol_change (u : Vec K (n + 1)) (t : Fin n → Vec K (n + 1)) (U : Mat K n) : vol u (fun l => ∑ k, U l k • t k) = U.det * vol u t := by
  let W : Mat K (n + 1) := Matrix.of (Fin.cons (Fin.cons 1 0) fun l => Fin.cons 0 (U l))
  have hW : W.det = U.det := by
    rw [Matrix.det_succ_row_zero, Fin.sum_univ_succ]
    have : (W.submatrix Fin.succ (Fin.succAbove 0)) = U := by
      funext i j
      simp [W]
    rw [this]
    simp [W]
  have hm : (Matrix.of (Fin.cons u (fun l => ∑ k, U l k • t k) : Fin (n + 1) → Vec K (n + 1))) =
      W * Matrix.of (Fin.cons u t : Fin (n + 1) → Vec K (n + 1)) := by
    funext i j
    rw [Matrix.mul_apply, Fin.sum_univ_succ]
    refine Fin.cases ?_ (fun l => ?_) i
    · simp [W]
    · simp [W, Finset.sum_apply]
  rw [vol, hm, Matrix.det_mul, hW, vol]

omit [LinearOrder K] [IsStrictOrderedRing K] in
/-- A vector without flux through the facet has no component in normal direction. -/
theorem normal_zero {u w : Vec K (n + 1)} {t : Fin n → Vec K (n + 1)} (hw : vol w t ≠ 0) (hu : vol u t = 0) (N : Vec K (n + 1))
    (hN : ∀ k, N ⬝ᵥ t k = 0) : N ⬝ᵥ u = 0 := by
  set M : Mat K (n + 1) := Matrix.of (Fin.cons w t : Fin (n + 1) → Vec K (n + 1)) with hM
  have hdet : IsUnit M.det := isUnit_iff_ne_zero.2 hw
  set c : Vec K (n + 1) := u ᵥ* M⁻¹ with hc
  have h1 : u = c 0 • w + ∑ k : Fin n, c k.succ • t k := by
    have h2 : c ᵥ* M = u := by rw [hc, Matrix.vecMul_vecMul, Matrix.nonsing_inv_mul _ hdet, Matrix.vecMul_one]
    rw [← h2]
    funext j
    simp only [Matrix.vecMul, dotProduct, Fin.sum_univ_succ, Pi.add_apply, Finset.sum_apply, Pi.smul_apply, smul_eq_mul, hM, Matrix.of_apply,
      Fin.cons_zero, Fin.cons_succ]
  have h0 : c 0 = 0 := by
    rw [h1, vol_add, vol_smul, vol_sum, Finset.sum_eq_zero, add_zero] at hu
    · exact (mul_eq_zero.1 hu).resolve_right hw
    · intro k _
      rw [vol_smul, vol_frame, mul_zero]
  rw [h1, h0, zero_smul, zero_add, dotProduct_sum]
  refine Finset.sum_eq_zero fun k _ => ?_
  rw [dotProduct_smul, hN, smul_zero]

omit [IsStrictOrderedRing K] in
theorem outerFlux_eq (v w : Vec K (n + 1)) (t : Fin n → Vec K (n + 1)) : outerFlux v t w = vol v t * SignType.sign (vol w t) := rfl

theorem outerFlux_change (v w : Vec K (n + 1)) (t : Fin n → Vec K (n + 1)) (U : Mat K n) (hU : |U.det| = 1) :
    outerFlux v (fun l => ∑ k, U l k • t k) w = outerFlux v t w := by
  rw [outerFlux_eq, outerFlux_eq, vol_change, vol_change, sign_mul]
  have h : U.det * (SignType.sign U.det : K) = 1 := by
    rw [← hU, mul_comm]
    exact sign_mul_self _
  push_cast
  linear_combination vol v t * (SignType.sign (vol w t) : K) * h

/-! ## Fluxes of discrete functions -/

omit [LinearOrder K] [IsStrictOrderedRing K] in
theorem foldl_axpy (L : List (K × Vec K n)) (y : Vec K n) :
    L.foldl (fun y cv => y + cv.1 • cv.2) y = y + (L.map fun cv => cv.1 • cv.2).sum := by
  induction L generalizing y with
  | nil => simp
  | cons a L ih => rw [List.foldl_cons, ih, List.map_cons, List.sum_cons, add_assoc]

omit [LinearOrder K] [IsStrictOrderedRing K] in
theorem vol_list (L : List (Vec K (n + 1))) (t : Fin n → Vec K (n + 1)) : vol L.sum t = (L.map fun u => vol u t).sum := by
  induction L with
  | nil => simp [vol_zero]
  | cons a L ih => rw [List.sum_cons, vol_add, ih, List.map_cons, List.sum_cons]

omit [LinearOrder K] [IsStrictOrderedRing K] in
/-- A sum in which only the term of one key is not zero. -/
theorem sum_single {α : Type} [DecidableEq α] (L : List α) (hn : L.Nodup) (a : α) (ha : a ∈ L) (f : α → K) (hf : ∀ b ∈ L, b ≠ a → f b = 0) :
    (L.map f).sum = f a := by
  induction L with
  | nil => simp at ha
  | cons b L ih =>
    rw [List.nodup_cons] at hn
    rw [List.map_cons, List.sum_cons]
    by_cases h : b = a
    · subst h
      rw [List.sum_eq_zero, add_zero]
      intro x hx
      obtain ⟨y, hy, rfl⟩ := List.mem_map.1 hx
      exact hf y (List.mem_cons_of_mem _ hy) fun h => hn.1 (h ▸ hy)
    · rw [hf b List.mem_cons_self h, zero_add]
      refine ih hn.2 ?_ fun y hy => hf y (List.mem_cons_of_mem _ hy)
      rcases List.mem_cons.1 ha with h' | h'
      · exact absurd h'.symm h
      · exact h'

/-- The flux of the discrete function through a facet of one element. -/
theorem facet_flux (G : GridView E S) (table : HDiv.Kind → Nat → LFE K (n + 1)) (keys : Geo → List Key) (facet : Geo → Nat → RefFacet K n) (c : Geo → K)
    (e : E) (hF : Fluxes table keys facet c (G.elemGeo e)) (bits : Nat) (hb : bits < numVariants (G.elemGeo e)) (i : Nat) (u : Geo)
    (hu : (stdSubs (G.elemGeo e) 1)[i]? = some u) (g : Geometry K (n + 1)) (J : Mat K (n + 1)) (x : Vec K (n + 1)) (hg : g.OK J x)
    (hx : (facet (G.elemGeo e) i).On x) (vec : Nat → K) :
    outerFlux (axpyAll (((mapperLeaf G (rtLayout 0 G.dim) fun e => keys (G.elemGeo e)).loc e).map vec)
        ((globalValued .contra g (table (kindOf (G.elemGeo e)) bits)).eval x))
      (fun k => J *ᵥ (facet (G.elemGeo e) i).frame k) (J *ᵥ (facet (G.elemGeo e) i).out) =
    vec (mapperIndex G (rtLayout 0 G.dim) (G.sub e 1 i)) * if bits.testBit i then -c u else c u := by
  set t := G.elemGeo e with ht
  set f := facet t i
  set F := table (kindOf t) bits with hFdef
  have hi : i < numFacets t := (List.getElem?_eq_some_iff.1 hu).1
  have hlen : (F.eval x).length = (keys t).length := hF.size bits x
  -- the flux of each shape function
  have hshape : ∀ v : Vec K (n + 1), outerFlux ((|J.det|)⁻¹ • (J *ᵥ v)) (fun k => J *ᵥ f.frame k) (J *ᵥ f.out) = outerFlux v f.frame f.out := by
    intro v
    obtain ⟨v', h1, h2⟩ := C52_flux hg v f.out f.frame
    rw [contraApply_eq hg] at h1
    simp only [List.map_cons, List.map_nil, List.cons.injEq, and_true] at h1
    rw [h1, h2]
  have hval : axpyAll (((mapperLeaf G (rtLayout 0 G.dim) fun e => keys (G.elemGeo e)).loc e).map vec) ((globalValued .contra g F).eval x) =
      ((List.finRange (keys t).length).map fun l : Fin (keys t).length =>
        vec (mapperIndex G (rtLayout 0 G.dim) (G.sub e (keys t)[l].codim (keys t)[l].sub) + (keys t)[l].index) •
          ((|J.det|)⁻¹ • (J *ᵥ F.shape l x))).sum := by
    rw [axpyAll, foldl_axpy, zero_add]
    congr 1
    apply List.ext_getElem
    · simp [mapperLeaf, globalValued, apply, contraApply, hlen, ← ht]
    · intro l h1 h2
      have hl : l < (keys t).length := by simpa using h2
      have hl' : l < (F.eval x).length := by omega
      simp only [List.getElem_map, List.getElem_zip, List.getElem_finRange, globalValued, apply, contraApply_eq hg, mapperLeaf, LFE.shape]
      simp [hl', ← ht]
  rw [hval, outerFlux_eq, vol_list, List.map_map]
  have hsum : (List.map ((fun w => vol w fun k => J *ᵥ f.frame k) ∘ fun l : Fin (keys t).length =>
        vec (mapperIndex G (rtLayout 0 G.dim) (G.sub e (keys t)[l].codim (keys t)[l].sub) + (keys t)[l].index) •
          ((|J.det|)⁻¹ • (J *ᵥ F.shape l x))) (List.finRange (keys t).length)).sum * (SignType.sign (vol (J *ᵥ f.out) fun k => J *ᵥ f.frame k) : K) =
      ((List.finRange (keys t).length).map fun l : Fin (keys t).length =>
        vec (mapperIndex G (rtLayout 0 G.dim) (G.sub e (keys t)[l].codim (keys t)[l].sub) + (keys t)[l].index) *
          if (keys t)[l] = ⟨i, 1, 0⟩ then (if bits.testBit i then -c u else c u) else 0).sum := by
    rw [← List.sum_map_mul_right]
    congr 1
    refine List.map_congr_left fun l _ => ?_
    simp only [Function.comp_apply]
    rw [vol_smul, mul_assoc, ← outerFlux_eq, hshape, hF.flux bits hb l (keys t)[l] (by simp) i u hu x hx]
  rw [hsum]
  obtain ⟨l0, hl0, hk0⟩ := List.mem_iff_getElem.1 (hF.full i hi)
  rw [sum_single (List.finRange (keys t).length) (List.nodup_finRange _) ⟨l0, hl0⟩ (List.mem_finRange _)]
  · simp [hk0]
  · intro l _ hne
    have : (keys t)[l] ≠ ⟨i, 1, 0⟩ := by
      intro h
      apply hne
      ext
      exact (hF.nodup.getElem_inj_iff).1 (show (keys t)[l.val] = (keys t)[l0] by rw [hk0]; exact h)
    rw [if_neg this, mul_zero]

/-! ## Theorem -/

omit [LinearOrder K] [IsStrictOrderedRing K] [Field K] in
theorem elementIndex_injective {G : GridView E S} (h : StdGrid G) : Function.Injective (elementIndex G) := by
  intro e e' he
  have hd : ∀ e, (G.geo (G.sub e 0 0)).dim = G.dim := by
    intro e
    rw [elem_geo h e]
    exact (h.base.elemMem e).2
  have := (mapper_inj h.base (elementLayout G.dim) (G.sub e 0 0) (G.sub e' 0 0) 0 0 (by simp [elementLayout, hd]) (by simp [elementLayout, hd])).1 (by
    simpa [elementIndex] using he)
  exact h.elemInj _ _ this.1

/-- **C67.** The normal components of a Raviart–Thomas function of order 0 with arbitrary coefficients agree on the two sides of every facet: if the elements `e` and `e'` have
a common facet and the local points `x`, `x'` are the same point there, then the values have the same component in every direction `N` that is
orthogonal to the facet. The elements may have different types. -/
theorem C67_raviartThomas {G : GridView E S} (h : StdGrid G) (hd : G.dim = 2 ∨ G.dim = 3) (fixed : Option Geo)
    (hfix : ∀ u, fixed = some u → ∀ e, u = G.elemGeo e ∧ (G.elemGeo e = simplexOf G.dim ∨ G.elemGeo e = cubeOf G.dim))
    {isects : E → List (Isect E)} (hI : Neighbours G isects) {table : HDiv.Kind → Nat → LFE K (n + 1)} {keys : Geo → List Key}
    {facet : Geo → Nat → RefFacet K n} {c : Geo → K} (hF : ∀ e, Fluxes table keys facet c (G.elemGeo e)) (geo : E → Geometry K (n + 1)) (vec : Nat → K)
    {e e' : E} (hne : e ≠ e') {i i' : Nat} (hi : i < numFacets (G.elemGeo e)) (hi' : i' < numFacets (G.elemGeo e')) (hs : G.sub e 1 i = G.sub e' 1 i')
    {x x' : Vec K (n + 1)} (hx : (facet (G.elemGeo e) i).On x) (hx' : (facet (G.elemGeo e') i').On x') {J J' : Mat K (n + 1)}
    (hJ : (geo e).OK J x) (hJ' : (geo e').OK J' x') (hM : Meet J J' (facet (G.elemGeo e) i) (facet (G.elemGeo e') i')) :
    ∃ v v', value G fixed isects table keys geo vec e x = some v ∧ value G fixed isects table keys geo vec e' x' = some v' ∧
      ∀ N : Vec K (n + 1), (∀ k, N ⬝ᵥ (J *ᵥ (facet (G.elemGeo e) i).frame k) = 0) → N ⬝ᵥ v = N ⬝ᵥ v' := by
  have hfind : ∀ e, ∃ bits, find G.dim fixed (elementIndex G) e (G.elemGeo e) (isects e) = some (kindOf (G.elemGeo e), bits) ∧
      bits < numVariants (G.elemGeo e) ∧ ∀ i, bits.testBit i = true ↔ Flipped (elementIndex G) e (isects e) i := fun e =>
    C47_raviartThomas G.dim hd fixed (elementIndex G) e (G.elemGeo e) (h.type e) (h.base.elemMem e).2 (fun u hu => hfix u hu e) (isects e) (hI.inside e)
  obtain ⟨b, hb1, hb2, hb3⟩ := hfind e
  obtain ⟨b', hb1', hb2', hb3'⟩ := hfind e'
  -- the type of the facet is the same on both sides
  obtain ⟨u, hu⟩ : ∃ u, (stdSubs (G.elemGeo e) 1)[i]? = some u := ⟨_, List.getElem?_eq_getElem hi⟩
  obtain ⟨u', hu'⟩ : ∃ u', (stdSubs (G.elemGeo e') 1)[i']? = some u' := ⟨_, List.getElem?_eq_getElem hi'⟩
  have huu : u' = u := by
    have h1 := h.base.subGeo e 1 i u (by rw [h.std]; exact hu)
    have h2 := h.base.subGeo e' 1 i' u' (by rw [h.std]; exact hu')
    rw [← h1, ← h2, hs]
  subst huu
  -- the flags are opposite
  obtain ⟨n1, n2⟩ := hI.shared e e' i i' hne hi hi' hs
  obtain ⟨m1, m2⟩ := hI.shared e' e i' i hne.symm hi' hi hs.symm
  have hflag := (C47_facet (V := Int) (elementIndex G) (elementIndex_injective h) e e' hne (isects e) (isects e') i i' n1 m1 n2 m2 b b' hb3 hb3' 0).2
  refine ⟨_, _, by rw [value, hb1]; rfl, by rw [value, hb1']; rfl, fun N hN => ?_⟩
  have f1 := facet_flux G table keys facet c e (hF e) b hb2 i u' hu (geo e) J x hJ hx vec
  have f2 := facet_flux G table keys facet c e' (hF e') b' hb2' i' u' hu' (geo e') J' x' hJ' hx' vec
  set v := axpyAll (((mapperLeaf G (rtLayout 0 G.dim) fun e => keys (G.elemGeo e)).loc e).map vec)
        ((globalValued .contra (geo e) (table (kindOf (G.elemGeo e)) b)).eval x) with hv
  set v' := axpyAll (((mapperLeaf G (rtLayout 0 G.dim) fun e => keys (G.elemGeo e)).loc e').map vec)
        ((globalValued .contra (geo e') (table (kindOf (G.elemGeo e')) b')).eval x') with hv'
  obtain ⟨U, hU1, hU2⟩ := hM.frame
  have hfr : (fun l => J' *ᵥ (facet (G.elemGeo e') i').frame l) = fun l => ∑ k, U l k • (J *ᵥ (facet (G.elemGeo e) i).frame k) := funext hU2
  rw [hfr, outerFlux_change _ _ _ U hU1] at f2
  set T : Fin n → Vec K (n + 1) := fun k => J *ᵥ (facet (G.elemGeo e) i).frame k
  have hsides := hM.sides
  set a := vol (J *ᵥ (facet (G.elemGeo e) i).out) T with ha
  set a' := vol (J' *ᵥ (facet (G.elemGeo e') i').out) T with ha'
  have ha0 : a ≠ 0 := fun h => by
    rw [h, zero_mul] at hsides
    exact lt_irrefl _ hsides
  have hsign : (SignType.sign a' : K) = -(SignType.sign a : K) := by
    rcases lt_or_gt_of_ne ha0 with h | h
    · have : 0 < a' := by nlinarith
      rw [sign_pos this, sign_neg h]
      simp
    · have : a' < 0 := by nlinarith
      rw [sign_neg this, sign_pos h]
      simp
  rw [outerFlux_eq] at f1 f2
  rw [← ha] at f1
  rw [← ha', hsign, ← hs] at f2
  have hsn : (SignType.sign a : K) ≠ 0 := by
    rcases lt_or_gt_of_ne ha0 with h | h
    · rw [sign_neg h]
      simp
    · rw [sign_pos h]
      simp
  have hvol : vol v T = vol v' T := by
    apply mul_right_cancel₀ hsn
    rw [f1]
    have : vol v' T * (SignType.sign a : K) = -(vec (mapperIndex G (rtLayout 0 G.dim) (G.sub e 1 i)) * if b'.testBit i' then -c u' else c u') := by
      rw [← f2]
      ring
    rw [this, hflag]
    cases b'.testBit i' <;> simp
  have hdiff : vol (v + (-1 : K) • v') T = 0 := by
    rw [vol_add, vol_smul, hvol]
    ring
  have := normal_zero ha0 hdiff N hN
  rw [dotProduct_add, dotProduct_smul, smul_eq_mul] at this
  linear_combination this

/-! ## Affine simplices -/

/-- Corner `v` of the reference simplex. -/
def corner (K : Type) [Field K] (n v : Nat) : Vec K (n + 1) := fun d => if v = d.val + 1 then 1 else 0

/-- Local number of vertex `k` of facet `i` of the reference triangle (`n = 1`) or tetrahedron (`n = 2`). -/
def facetVertex (n i k : Nat) : Nat := ((subVerts (refOf (simplexOf (n + 1))) 1).getD i []).getD k 0

/-- Facet `i` of the reference simplex: affine combinations of its vertices, its edges from the first vertex, and the direction from the opposite
vertex to the first vertex. -/
def simplexFacet (K : Type) [Field K] (n : Nat) (i : Nat) : RefFacet K n where
  On := fun x => ∃ w : Fin (n + 1) → K, ∑ k, w k = 1 ∧ x = ∑ k : Fin (n + 1), w k • corner K n (facetVertex n i k)
  frame := fun k => corner K n (facetVertex n i (k + 1)) - corner K n (facetVertex n i 0)
  out := corner K n (facetVertex n i 0) - corner K n (n + 1 - i)

/-- The finite elements of order 0 of dune-localfunctions for triangles and tetrahedra: shape function `i` is a multiple of the difference to the vertex opposite of
facet `i`, with the sign given by the variant (`RT02DLocalBasis`: `a = 1`, `RT03DLocalBasis`: `a = 2`). -/
def rt0 (a : K) (bits : Nat) : LFE K (n + 1) where
  size := n + 2
  eval := fun x => (List.range (n + 2)).map fun i => (if bits.testBit i then -a else a) • (x - corner K n (n + 1 - i))
  jac := fun _ => []
  interp := fun _ => []

/-- Their local keys. -/
def rt0Keys (n : Nat) : List Key := (List.range (n + 2)).map fun i => ⟨i, 1, 0⟩

/-- A conforming grid of affine simplices: equal vertices have equal positions, and the elements on both sides of a facet do not overlap. -/
structure SimplexGrid (G : LGrid E S Nat) (n : Nat) (pos : Nat → Vec K (n + 1)) (jac : E → Mat K (n + 1)) : Prop where
  ok : G.OK
  dim : G.dim = n + 1
  simplices : ∀ e, G.elemGeo e = simplexOf (n + 1)
  jac : ∀ e (d j : Fin (n + 1)), jac e d j = pos (G.ids e (j + 1)) d - pos (G.ids e 0) d
  sides : ∀ e e' i i', e ≠ e' → i < n + 2 → i' < n + 2 → G.sub e 1 i = G.sub e' 1 i' →
    vol (pos (G.ids e (facetVertex n i 0)) - pos (G.ids e (n + 1 - i)))
        (fun k => pos (G.ids e (facetVertex n i (k + 1))) - pos (G.ids e (facetVertex n i 0))) *
      vol (pos (G.ids e (facetVertex n i 0)) - pos (G.ids e' (n + 1 - i')))
        (fun k => pos (G.ids e (facetVertex n i (k + 1))) - pos (G.ids e (facetVertex n i 0))) < 0

omit [LinearOrder K] [IsStrictOrderedRing K] in
theorem jac_corner {J : Mat K (n + 1)} {p : Nat → Vec K (n + 1)} (hJ : ∀ d j : Fin (n + 1), J d j = p (j + 1) d - p 0 d) (v w : Nat) (hv : v < n + 2)
    (hw : w < n + 2) : J *ᵥ (corner K n v - corner K n w) = p v - p w := by
  have key : ∀ v, v < n + 2 → J *ᵥ corner K n v = p v - p 0 := by
    intro v hv
    funext d
    simp only [Matrix.mulVec, dotProduct, corner, mul_ite, mul_one, mul_zero, Pi.sub_apply]
    cases v with
    | zero => simp
    | succ v =>
      rw [Finset.sum_eq_single ⟨v, by omega⟩]
      · simp [hJ]
      · intro j _ hj
        rw [if_neg]
        intro h
        apply hj
        ext
        simp only
        omega
      · simp
  rw [Matrix.mulVec_sub, key v hv, key w hw]
  abel

theorem facetVertex_lt {n : Nat} (hn : n = 1 ∨ n = 2) {i k : Nat} (hi : i < n + 2) (hk : k < n + 1) : facetVertex n i k < n + 2 := by
  have h1 : ∀ i < 3, ∀ k < 2, facetVertex 1 i k < 3 := by decide
  have h2 : ∀ i < 4, ∀ k < 3, facetVertex 2 i k < 4 := by decide
  rcases hn with rfl | rfl
  · exact h1 i hi k hk
  · exact h2 i hi k hk

theorem opposite_other {n : Nat} (hn : n = 1 ∨ n = 2) {i l : Nat} (hi : i < n + 2) (hl : l < n + 2) (h : l ≠ i) :
    ∃ m < n + 1, facetVertex n i m = n + 1 - l := by
  have h1 : ∀ i < 3, ∀ l < 3, l ≠ i → ∃ m < 2, facetVertex 1 i m = 2 - l := by decide
  have h2 : ∀ i < 4, ∀ l < 4, l ≠ i → ∃ m < 3, facetVertex 2 i m = 3 - l := by decide
  rcases hn with rfl | rfl
  · exact h1 i hi l hl h
  · exact h2 i hi l hl h

theorem vol_out {n : Nat} (hn : n = 1 ∨ n = 2) {i : Nat} (hi : i < n + 2) : |vol (simplexFacet K n i).out (simplexFacet K n i).frame| = 1 := by
  rcases hn with rfl | rfl
  · have : i = 0 ∨ i = 1 ∨ i = 2 := by omega
    rcases this with rfl | rfl | rfl <;>
      simp [vol, Matrix.det_fin_two, simplexFacet, corner, facetVertex, simplexOf, refOf, subVerts, triangle]
  · have h2 : ∀ (a : Vec K 3) (t : Fin 2 → Vec K 3), (Fin.cons a t : Fin 3 → Vec K 3) 2 = t 1 := fun _ _ => rfl
    have : i = 0 ∨ i = 1 ∨ i = 2 ∨ i = 3 := by omega
    rcases this with rfl | rfl | rfl | rfl <;>
      simp [vol, Matrix.det_fin_three, h2, simplexFacet, corner, facetVertex, simplexOf, refOf, subVerts, tetrahedron]

omit [LinearOrder K] [IsStrictOrderedRing K] in
/-- The difference of a point of a facet and a vertex of the facet has no flux through the facet. -/
theorem vol_on {i : Nat} {x : Vec K (n + 1)} (hx : (simplexFacet K n i).On x) {m : Nat} (hm : m < n + 1) :
    vol (x - corner K n (facetVertex n i m)) (simplexFacet K n i).frame = 0 := by
  have key : ∀ k, k < n + 1 → vol (corner K n (facetVertex n i k) - corner K n (facetVertex n i 0)) (simplexFacet K n i).frame = 0 := by
    intro k hk
    cases k with
    | zero => rw [sub_self, vol_zero]
    | succ k => exact vol_frame (simplexFacet K n i).frame ⟨k, by omega⟩
  obtain ⟨w, hw, rfl⟩ := hx
  have : (∑ k : Fin (n + 1), w k • corner K n (facetVertex n i k)) - corner K n (facetVertex n i m) =
      (∑ k : Fin (n + 1), w k • (corner K n (facetVertex n i k) - corner K n (facetVertex n i 0))) +
        (-1 : K) • (corner K n (facetVertex n i m) - corner K n (facetVertex n i 0)) := by
    simp only [smul_sub, Finset.sum_sub_distrib, ← Finset.sum_smul, hw, one_smul, neg_smul]
    abel
  rw [this, vol_add, vol_smul, key m hm, mul_zero, add_zero, vol_sum]
  refine Finset.sum_eq_zero fun k _ => ?_
  rw [vol_smul, key k k.2, mul_zero]

theorem numFacets_simplex {n : Nat} (hn : n = 1 ∨ n = 2) : numFacets (simplexOf (n + 1)) = n + 2 := by rcases hn with rfl | rfl <;> decide

/-- The elements of order 0 satisfy the contract. -/
theorem rt0_fluxes {n : Nat} (hn : n = 1 ∨ n = 2) (a : K) :
    Fluxes (fun _ bits => rt0 (n := n) a bits) (fun _ => rt0Keys n) (fun _ => simplexFacet K n) (fun _ => a) (simplexOf (n + 1)) where
  size := by simp [rt0, rt0Keys]
  nodup := List.nodup_range.map fun i j h => by simpa using h
  full := by
    intro i hi
    rw [numFacets_simplex hn] at hi
    simp [rt0Keys, hi]
  flux := by
    intro bits _ l k hk i u hu x hx
    have hi : i < n + 2 := by
      rw [← numFacets_simplex hn]
      exact (List.getElem?_eq_some_iff.1 hu).1
    have hl : l < n + 2 := by simpa [rt0Keys] using (List.getElem?_eq_some_iff.1 hk).1
    obtain rfl : k = ⟨l, 1, 0⟩ := by simpa [rt0Keys, hl, eq_comm] using hk
    have hshape : (rt0 (n := n) a bits).shape l x = (if bits.testBit l then -a else a) • (x - corner K n (n + 1 - l)) := by
      simp [LFE.shape, rt0, hl]
    rw [hshape, outerFlux_eq, vol_smul]
    by_cases h : l = i
    · subst h
      have h0 : x - corner K n (n + 1 - l) = (x - corner K n (facetVertex n l 0)) + (simplexFacet K n l).out := by
        simp only [simplexFacet]
        abel
      rw [h0, vol_add, vol_on hx (by omega), zero_add, if_pos rfl, mul_assoc]
      have : vol (simplexFacet K n l).out (simplexFacet K n l).frame *
          (SignType.sign (vol (simplexFacet K n l).out (simplexFacet K n l).frame) : K) = 1 := by
        rw [← vol_out (K := K) hn hi, mul_comm]
        exact sign_mul_self _
      rw [this, mul_one]
    · obtain ⟨m, hm, he⟩ := opposite_other hn hi hl h
      rw [← he, vol_on hx hm, mul_zero, zero_mul, if_neg]
      simp [h]

/-- The vertices of a common facet, seen from both sides, are related by a matrix of determinant 1 or -1. -/
theorem frame_change {n : Nat} (hn : n = 1 ∨ n = 2) {α : Type} (q q' : Nat → α) (p : α → Vec K (n + 1))
    (h : ∀ k < n + 1, ∃ m < n + 1, q' k = q m) (hinj : ∀ k < n + 1, ∀ m < n + 1, q' k = q' m → k = m) :
    ∃ U : Mat K n, |U.det| = 1 ∧ ∀ l : Fin n, p (q' (l + 1)) - p (q' 0) = ∑ k : Fin n, U l k • (p (q (k + 1)) - p (q 0)) := by
  rcases hn with rfl | rfl
  · obtain ⟨m0, h0, e0⟩ := h 0 (by omega)
    obtain ⟨m1, h1, e1⟩ := h 1 (by omega)
    have hne : m0 ≠ m1 := by
      rintro rfl
      exact absurd (hinj 0 (by omega) 1 (by omega) (e0.trans e1.symm)) (by omega)
    have : (m0 = 0 ∧ m1 = 1) ∨ (m0 = 1 ∧ m1 = 0) := by omega
    rcases this with ⟨rfl, rfl⟩ | ⟨rfl, rfl⟩
    · refine ⟨!![1], by simp, fun l => ?_⟩
      fin_cases l
      simp [e0, e1]
    · refine ⟨!![-1], by simp, fun l => ?_⟩
      fin_cases l
      simp [e0, e1]
  · obtain ⟨m0, h0, e0⟩ := h 0 (by omega)
    obtain ⟨m1, h1, e1⟩ := h 1 (by omega)
    obtain ⟨m2, h2, e2⟩ := h 2 (by omega)
    have d01 : m0 ≠ m1 := by
      rintro rfl
      exact absurd (hinj 0 (by omega) 1 (by omega) (e0.trans e1.symm)) (by omega)
    have d02 : m0 ≠ m2 := by
      rintro rfl
      exact absurd (hinj 0 (by omega) 2 (by omega) (e0.trans e2.symm)) (by omega)
    have d12 : m1 ≠ m2 := by
      rintro rfl
      exact absurd (hinj 1 (by omega) 2 (by omega) (e1.trans e2.symm)) (by omega)
    have : (m0 = 0 ∧ m1 = 1 ∧ m2 = 2) ∨ (m0 = 0 ∧ m1 = 2 ∧ m2 = 1) ∨ (m0 = 1 ∧ m1 = 0 ∧ m2 = 2) ∨ (m0 = 1 ∧ m1 = 2 ∧ m2 = 0) ∨
        (m0 = 2 ∧ m1 = 0 ∧ m2 = 1) ∨ (m0 = 2 ∧ m1 = 1 ∧ m2 = 0) := by omega
    rcases this with ⟨rfl, rfl, rfl⟩ | ⟨rfl, rfl, rfl⟩ | ⟨rfl, rfl, rfl⟩ | ⟨rfl, rfl, rfl⟩ | ⟨rfl, rfl, rfl⟩ | ⟨rfl, rfl, rfl⟩
    · refine ⟨!![1, 0; 0, 1], by simp [Matrix.det_fin_two], fun l => ?_⟩
      fin_cases l <;> simp [Fin.sum_univ_two, e0, e1, e2]
    · refine ⟨!![0, 1; 1, 0], by simp [Matrix.det_fin_two], fun l => ?_⟩
      fin_cases l <;> simp [Fin.sum_univ_two, e0, e1, e2]
    · refine ⟨!![-1, 0; -1, 1], by simp [Matrix.det_fin_two], fun l => ?_⟩
      fin_cases l <;> simp [Fin.sum_univ_two, e0, e1, e2]
    · refine ⟨!![-1, 1; -1, 0], by simp [Matrix.det_fin_two], fun l => ?_⟩
      fin_cases l <;> simp [Fin.sum_univ_two, e0, e1, e2]
    · refine ⟨!![0, -1; 1, -1], by simp [Matrix.det_fin_two], fun l => ?_⟩
      fin_cases l <;> simp [Fin.sum_univ_two, e0, e1, e2]
    · refine ⟨!![1, -1; 0, -1], by simp [Matrix.det_fin_two], fun l => ?_⟩
      fin_cases l <;> simp [Fin.sum_univ_two, e0, e1, e2]

/-- The vertices of a common facet have the same ids. -/
theorem shared_ids {n : Nat} (hn : n = 1 ∨ n = 2) {G : LGrid E S Nat} (ok : G.OK) (simplices : ∀ e, G.elemGeo e = simplexOf (n + 1)) {e e' : E} {i i' : Nat}
    (hi : i < n + 2) (hi' : i' < n + 2) (hs : G.sub e 1 i = G.sub e' 1 i') :
    (∀ k < n + 1, ∃ m < n + 1, G.ids e' (facetVertex n i' k) = G.ids e (facetVertex n i m)) ∧
    ∀ k < n + 1, ∀ m < n + 1, G.ids e' (facetVertex n i' k) = G.ids e' (facetVertex n i' m) → k = m := by
  have hnum : ∀ e, (G.refSubs (G.elemGeo e) 1).length = n + 2 := by
    intro e
    rw [ok.std, simplices]
    exact numFacets_simplex hn
  have hv := ok.vertsSame e ⟨i, 1, 0⟩ e' ⟨i', 1, 0⟩ (by rw [hnum]; exact hi) (by rw [hnum]; exact hi') hs
  have hlen : ∀ i < n + 2, ((subVerts (refOf (simplexOf (n + 1))) 1).getD i []).length = n + 1 := by
    rcases hn with rfl | rfl <;> decide
  have hlist : ∀ e i, i < n + 2 → ∀ y, y ∈ G.verts e ⟨i, 1, 0⟩ ↔ ∃ k < n + 1, y = G.ids e (facetVertex n i k) := by
    intro e i hi y
    rw [LGrid.verts, simplices, List.mem_map]
    constructor
    · rintro ⟨v, hv, rfl⟩
      obtain ⟨k, hk, rfl⟩ := List.mem_iff_getElem.1 hv
      refine ⟨k, by rw [← hlen i hi]; exact hk, ?_⟩
      rw [facetVertex, List.getD_eq_getElem?_getD (l := (subVerts (refOf (simplexOf (n + 1))) 1).getD i []), List.getElem?_eq_getElem hk]
      rfl
    · rintro ⟨k, hk, rfl⟩
      have hk' : k < ((subVerts (refOf (simplexOf (n + 1))) 1).getD i []).length := by rw [hlen i hi]; exact hk
      refine ⟨facetVertex n i k, ?_, rfl⟩
      rw [facetVertex, List.getD_eq_getElem?_getD (l := (subVerts (refOf (simplexOf (n + 1))) 1).getD i []), List.getElem?_eq_getElem hk']
      exact List.getElem_mem _
  refine ⟨fun k hk => ?_, fun k hk m hm h => ?_⟩
  · exact (hlist e i hi _).1 ((hv _).2 ((hlist e' i' hi' _).2 ⟨k, hk, rfl⟩))
  · have hlt := fun k hk => facetVertex_lt hn (i := i') (k := k) hi' hk
    have h2 := ok.idsInj e' _ _ (by rw [simplices]; exact hlt k hk) (by rw [simplices]; exact hlt m hm) h
    have t1 : ∀ i < 3, ∀ k < 2, ∀ m < 2, facetVertex 1 i k = facetVertex 1 i m → k = m := by decide
    have t2 : ∀ i < 4, ∀ k < 3, ∀ m < 3, facetVertex 2 i k = facetVertex 2 i m → k = m := by decide
    rcases hn with rfl | rfl
    · exact t1 i' hi' k hk m hm h2
    · exact t2 i' hi' k hk m hm h2

theorem simplex_meet {n : Nat} (hn : n = 1 ∨ n = 2) {G : LGrid E S Nat} {pos : Nat → Vec K (n + 1)} {jac : E → Mat K (n + 1)} (hG : SimplexGrid G n pos jac)
    {e e' : E} (hne : e ≠ e') {i i' : Nat} (hi : i < n + 2) (hi' : i' < n + 2) (hs : G.sub e 1 i = G.sub e' 1 i') :
    Meet (jac e) (jac e') (simplexFacet K n i) (simplexFacet K n i') := by
  have hlt := fun k hk => facetVertex_lt hn (i := i) (k := k) hi hk
  have hlt' := fun k hk => facetVertex_lt hn (i := i') (k := k) hi' hk
  have hf : ∀ k : Fin n, jac e *ᵥ (simplexFacet K n i).frame k = pos (G.ids e (facetVertex n i (k + 1))) - pos (G.ids e (facetVertex n i 0)) :=
    fun k => jac_corner (p := fun v => pos (G.ids e v)) (hG.jac e) _ _ (hlt _ (by omega)) (hlt _ (by omega))
  have hf' : ∀ k : Fin n, jac e' *ᵥ (simplexFacet K n i').frame k = pos (G.ids e' (facetVertex n i' (k + 1))) - pos (G.ids e' (facetVertex n i' 0)) :=
    fun k => jac_corner (p := fun v => pos (G.ids e' v)) (hG.jac e') _ _ (hlt' _ (by omega)) (hlt' _ (by omega))
  have ho : jac e *ᵥ (simplexFacet K n i).out = pos (G.ids e (facetVertex n i 0)) - pos (G.ids e (n + 1 - i)) :=
    jac_corner (p := fun v => pos (G.ids e v)) (hG.jac e) _ _ (hlt _ (by omega)) (by omega)
  have ho' : jac e' *ᵥ (simplexFacet K n i').out = pos (G.ids e' (facetVertex n i' 0)) - pos (G.ids e' (n + 1 - i')) :=
    jac_corner (p := fun v => pos (G.ids e' v)) (hG.jac e') _ _ (hlt' _ (by omega)) (by omega)
  obtain ⟨s1, s2⟩ := shared_ids hn hG.ok hG.simplices hi hi' hs
  refine ⟨?_, ?_⟩
  · obtain ⟨U, hU, h⟩ := frame_change hn (fun k => G.ids e (facetVertex n i k)) (fun k => G.ids e' (facetVertex n i' k)) pos s1 s2
    refine ⟨U, hU, fun l => ?_⟩
    rw [hf', h l]
    simp only [hf]
  · have h := hG.sides e e' i i' hne hi hi' hs
    simp only [ho, ho', hf]
    obtain ⟨m, hm, hm'⟩ := s1 0 (by omega)
    -- both first vertices lie on the facet
    have hv : vol (pos (G.ids e' (facetVertex n i' 0)) - pos (G.ids e' (n + 1 - i')))
          (fun k : Fin n => pos (G.ids e (facetVertex n i (k + 1))) - pos (G.ids e (facetVertex n i 0))) =
        vol (pos (G.ids e (facetVertex n i 0)) - pos (G.ids e' (n + 1 - i')))
          (fun k : Fin n => pos (G.ids e (facetVertex n i (k + 1))) - pos (G.ids e (facetVertex n i 0))) := by
      have : pos (G.ids e' (facetVertex n i' 0)) - pos (G.ids e' (n + 1 - i')) =
          (pos (G.ids e (facetVertex n i m)) - pos (G.ids e (facetVertex n i 0))) +
            (pos (G.ids e (facetVertex n i 0)) - pos (G.ids e' (n + 1 - i'))) := by
        rw [hm']
        abel
      rw [this, vol_add]
      cases m with
      | zero => rw [sub_self, vol_zero, zero_add]
      | succ m =>
        have := vol_frame (fun k : Fin n => pos (G.ids e (facetVertex n i (k + 1))) - pos (G.ids e (facetVertex n i 0))) ⟨m, by omega⟩
        simp only at this
        rw [this, zero_add]
    rw [hv]
    exact h

/-- **C67 on triangles and tetrahedra.** On every conforming grid of affine simplices, and for every coefficient vector, the values of a Raviart–Thomas function of order 0 on the
two sides of a facet have the same component in every direction orthogonal to the facet. -/
theorem C67_simplex {n : Nat} (hn : n = 1 ∨ n = 2) {G : LGrid E S Nat} {pos : Nat → Vec K (n + 1)} {jac : E → Mat K (n + 1)} (hG : SimplexGrid G n pos jac)
    {isects : E → List (Isect E)} (hI : Neighbours G.toGridView isects) (fixed : Option Geo) (hfix : ∀ u, fixed = some u → u = simplexOf (n + 1))
    {geo : E → Geometry K (n + 1)} (hgeo : ∀ e x, (geo e).OK (jac e) x) (a : K) (vec : Nat → K)
    {e e' : E} (hne : e ≠ e') {i i' : Nat} (hi : i < n + 2) (hi' : i' < n + 2) (hs : G.sub e 1 i = G.sub e' 1 i')
    {x x' : Vec K (n + 1)} (hx : (simplexFacet K n i).On x) (hx' : (simplexFacet K n i').On x') :
    ∃ v v', value G.toGridView fixed isects (fun _ bits => rt0 a bits) (fun _ => rt0Keys n) geo vec e x = some v ∧
      value G.toGridView fixed isects (fun _ bits => rt0 a bits) (fun _ => rt0Keys n) geo vec e' x' = some v' ∧
      ∀ N : Vec K (n + 1), (∀ k < n + 1, N ⬝ᵥ pos (G.ids e (facetVertex n i k)) = N ⬝ᵥ pos (G.ids e (facetVertex n i 0))) → N ⬝ᵥ v = N ⬝ᵥ v' := by
  have hstd : StdGrid G.toGridView := ⟨hG.ok.base, hG.ok.std, hG.ok.type, hG.ok.elemInj⟩
  have hnf : ∀ e, numFacets (G.elemGeo e) = n + 2 := by
    intro e
    rw [hG.simplices]
    exact numFacets_simplex hn
  obtain ⟨v, v', h1, h2, h3⟩ := C67_raviartThomas hstd (by rw [hG.dim]; omega) fixed
    (fun u hu e => ⟨by rw [hfix u hu, hG.simplices], Or.inl (by rw [hG.simplices, hG.dim])⟩) hI (table := fun _ bits => rt0 a bits) (keys := fun _ => rt0Keys n)
    (facet := fun _ => simplexFacet K n) (c := fun _ => a) (fun e => by rw [hG.simplices]; exact rt0_fluxes hn a) geo vec hne (by rw [hnf]; exact hi)
    (by rw [hnf]; exact hi') hs hx hx' (hgeo e x) (hgeo e' x') (simplex_meet hn hG hne hi hi' hs)
  refine ⟨v, v', h1, h2, fun N hN => h3 N fun k => ?_⟩
  have hlt := fun k hk => facetVertex_lt hn (i := i) (k := k) hi hk
  rw [show jac e *ᵥ (simplexFacet K n i).frame k = pos (G.ids e (facetVertex n i (k + 1))) - pos (G.ids e (facetVertex n i 0)) from
    jac_corner (p := fun v => pos (G.ids e v)) (hG.jac e) _ _ (hlt _ (by omega)) (hlt _ (by omega)), dotProduct_sub, hN _ (by omega), sub_self]

/-! ## Cubes -/

def unit (K : Type) [Field K] (n : Nat) (d : Nat) : Vec K (n + 1) := fun j => if j.val = d then 1 else 0

/-- Facet `i` of the reference cube: coordinate `i / 2` is 0 or 1. -/
def cubeFacet (K : Type) [Field K] (n : Nat) (i : Nat) : RefFacet K n where
  On := fun x => ∀ j : Fin (n + 1), j.val = i / 2 → x j = (i % 2 : Nat)
  frame := fun k => unit K n (if k.val < i / 2 then k else k + 1)
  out := (if i % 2 = 0 then (-1 : K) else 1) • unit K n (i / 2)

/-- The finite elements of order 0 of dune-localfunctions for quadrilaterals and hexahedra (`RT0Cube2DLocalBasis`, `RT0Cube3DLocalBasis`). -/
def rt0Cube (bits : Nat) : LFE K (n + 1) where
  size := 2 * (n + 1)
  eval := fun x => (List.range (2 * (n + 1))).map fun i => fun j =>
    if j.val = i / 2 then (if bits.testBit i then -1 else 1) * (x j - (1 - i % 2 : Nat)) else 0
  jac := fun _ => []
  interp := fun _ => []

def rt0CubeKeys (n : Nat) : List Key := (List.range (2 * (n + 1))).map fun i => ⟨i, 1, 0⟩

theorem numFacets_cube {n : Nat} (hn : n = 1 ∨ n = 2) : numFacets (cubeOf (n + 1)) = 2 * (n + 1) := by rcases hn with rfl | rfl <;> decide

theorem vol_cube {n : Nat} (hn : n = 1 ∨ n = 2) {i : Nat} (hi : i < 2 * (n + 1)) : |vol (cubeFacet K n i).out (cubeFacet K n i).frame| = 1 := by
  rcases hn with rfl | rfl
  · have : i = 0 ∨ i = 1 ∨ i = 2 ∨ i = 3 := by omega
    rcases this with rfl | rfl | rfl | rfl <;> simp [vol, Matrix.det_fin_two, cubeFacet, unit]
  · have h2 : ∀ (a : Vec K 3) (t : Fin 2 → Vec K 3), (Fin.cons a t : Fin 3 → Vec K 3) 2 = t 1 := fun _ _ => rfl
    have : i = 0 ∨ i = 1 ∨ i = 2 ∨ i = 3 ∨ i = 4 ∨ i = 5 := by omega
    rcases this with rfl | rfl | rfl | rfl | rfl | rfl <;> simp [vol, Matrix.det_fin_three, h2, cubeFacet, unit]

/-- These elements satisfy the contract, too, with the flux 1. -/
theorem rt0Cube_fluxes {n : Nat} (hn : n = 1 ∨ n = 2) :
    Fluxes (K := K) (fun _ bits => rt0Cube (n := n) bits) (fun _ => rt0CubeKeys n) (fun _ => cubeFacet K n) (fun _ => 1) (cubeOf (n + 1)) where
  size := by simp [rt0Cube, rt0CubeKeys]
  nodup := List.nodup_range.map fun i j h => by simpa using h
  full := by
    intro i hi
    rw [numFacets_cube hn] at hi
    simpa [rt0CubeKeys] using hi
  flux := by
    intro bits _ l k hk i u hu x hx
    have hi : i < 2 * (n + 1) := by
      rw [← numFacets_cube hn]
      exact (List.getElem?_eq_some_iff.1 hu).1
    have hl : l < 2 * (n + 1) := by simpa [rt0CubeKeys] using (List.getElem?_eq_some_iff.1 hk).1
    obtain rfl : k = ⟨l, 1, 0⟩ := by simpa [rt0CubeKeys, hl, eq_comm] using hk
    set b : K := if bits.testBit l then -1 else 1 with hb
    have hshape : (rt0Cube (K := K) (n := n) bits).shape l x = (b * (x ⟨l / 2, by omega⟩ - (1 - l % 2 : Nat))) • unit K n (l / 2) := by
      have : ((rt0Cube (K := K) (n := n) bits).eval x)[l]? = some fun j : Fin (n + 1) => if j.val = l / 2 then b * (x j - (1 - l % 2 : Nat)) else 0 := by
        simp [rt0Cube, hl, hb]
      rw [LFE.shape, this]
      funext j
      simp only [Option.getD_some, Pi.smul_apply, smul_eq_mul, unit]
      split
      · next h =>
        rw [mul_one, show j = ⟨l / 2, by omega⟩ from Fin.ext h]
      · rw [mul_zero]
    rw [hshape, outerFlux_eq, vol_smul]
    by_cases h : l / 2 = i / 2
    · have hxl : x ⟨l / 2, by omega⟩ = (i % 2 : Nat) := hx _ h
      rw [hxl]
      by_cases hli : l = i
      · subst hli
        rw [if_pos rfl]
        have hs : vol (cubeFacet K n l).out (cubeFacet K n l).frame *
            (SignType.sign (vol (cubeFacet K n l).out (cubeFacet K n l).frame) : K) = 1 := by
          rw [← vol_cube (K := K) hn hi, mul_comm]
          exact sign_mul_self _
        have ho : vol (cubeFacet K n l).out (cubeFacet K n l).frame =
            (((l % 2 : Nat) : K) - ((1 - l % 2 : Nat) : K)) * vol (unit K n (l / 2)) (cubeFacet K n l).frame := by
          rw [cubeFacet]
          simp only
          rw [vol_smul]
          rcases Nat.mod_two_eq_zero_or_one l with h | h <;> simp [h]
        rw [mul_assoc b, ← ho, mul_assoc, hs, mul_one]
      · have : 1 - l % 2 = i % 2 := by omega
        rw [this, sub_self, mul_zero, zero_mul, zero_mul, if_neg]
        simp [hli]
    · have hz : vol (unit K n (l / 2)) (cubeFacet K n i).frame = 0 := by
        by_cases hlt : l / 2 < i / 2
        · have := vol_frame (cubeFacet K n i).frame ⟨l / 2, by omega⟩
          simpa [cubeFacet, hlt] using this
        · have := vol_frame (cubeFacet K n i).frame ⟨l / 2 - 1, by omega⟩
          have h1 : ¬ l / 2 - 1 < i / 2 := by omega
          have h2 : l / 2 - 1 + 1 = l / 2 := by omega
          simpa [cubeFacet, h1, h2] using this
      rw [hz, mul_zero, zero_mul, if_neg]
      rintro h'
      simp only [Key.mk.injEq] at h'
      omega

/-! ## Example: two triangles -/

/-- The unit square, cut along the diagonal that does not contain the origin. -/
def demoPos (v : Nat) : Vec ℝ 2 := if v = 10 then ![0, 0] else if v = 20 then ![1, 0] else if v = 30 then ![1, 1] else ![0, 1]

def demoJac (e : Fin 2) : Mat ℝ 2 := if e = 0 then !![1, 0; 0, 1] else !![-1, 0; 0, -1]

/-- Its intersections; facets 0 and 1 of both triangles lie on the boundary. -/
def demoIsects (e : Fin 2) : List (Isect (Fin 2)) := [⟨0, none, true⟩, ⟨1, none, true⟩, ⟨2, some (if e = 0 then 1 else 0), true⟩]

theorem demo_shared {e e' : Fin 2} {i i' : Nat} (hne : e ≠ e') (hi : i < 3) (hi' : i' < 3) (hs : demoGrid.sub e 1 i = demoGrid.sub e' 1 i') :
    i = 2 ∧ i' = 2 ∧ ((e = 0 ∧ e' = 1) ∨ (e = 1 ∧ e' = 0)) := by
  have : ∀ (e e' : Fin 2) (i i' : Fin 3), e ≠ e' → demoGrid.sub e 1 i = demoGrid.sub e' 1 i' →
      i.val = 2 ∧ i'.val = 2 ∧ ((e = 0 ∧ e' = 1) ∨ (e = 1 ∧ e' = 0)) := by decide
  exact this e e' ⟨i, hi⟩ ⟨i', hi'⟩ hne hs

theorem demo_simplexGrid : SimplexGrid demoGrid 1 demoPos demoJac where
  ok := demoGrid_OK
  dim := rfl
  simplices := fun _ => rfl
  jac := by
    intro e d j
    fin_cases e <;> fin_cases d <;> fin_cases j <;> simp [demoPos, demoJac, demoGrid]
  sides := by
    intro e e' i i' hne hi hi' hs
    obtain ⟨rfl, rfl, h⟩ := demo_shared hne hi hi' hs
    rcases h with ⟨rfl, rfl⟩ | ⟨rfl, rfl⟩ <;>
      simp [vol, Matrix.det_fin_two, facetVertex, simplexOf, refOf, subVerts, triangle, demoGrid, demoPos]

theorem demo_neighbours : Neighbours demoGrid.toGridView demoIsects where
  inside := by decide
  shared := by
    intro e e' i i' hne hi hi' hs
    obtain ⟨rfl, rfl, h⟩ := demo_shared hne hi hi' hs
    rcases h with ⟨rfl, rfl⟩ | ⟨rfl, rfl⟩ <;> decide

/-- In the middle of the diagonal, the sum of the components is continuous. -/
example (vec : Nat → ℝ) : ∃ v v', value demoGrid.toGridView none demoIsects (fun _ bits => rt0 1 bits) (fun _ => rt0Keys 1)
      (fun e => ofJacobian fun _ => demoJac e) vec 0 ![1 / 2, 1 / 2] = some v ∧
    value demoGrid.toGridView none demoIsects (fun _ bits => rt0 1 bits) (fun _ => rt0Keys 1)
      (fun e => ofJacobian fun _ => demoJac e) vec 1 ![1 / 2, 1 / 2] = some v' ∧ v 0 + v 1 = v' 0 + v' 1 := by
  have hx : (simplexFacet ℝ 1 2).On ![1 / 2, 1 / 2] := by
    refine ⟨fun _ => 1 / 2, by simp, ?_⟩
    funext d
    fin_cases d <;> simp [facetVertex, simplexOf, refOf, subVerts, triangle, corner]
  obtain ⟨v, v', h1, h2, h3⟩ := C67_simplex (Or.inl rfl) demo_simplexGrid demo_neighbours none (by simp)
    (geo := fun e => ofJacobian fun _ => demoJac e) (fun e x => ofJacobian_OK _ x (by fin_cases e <;> simp [demoJac])) 1 vec (e := 0) (e' := 1)
    (by decide) (i := 2) (i' := 2) (by omega) (by omega) rfl hx hx
  refine ⟨v, v', h1, h2, ?_⟩
  have := h3 ![1, 1] (by
    intro k hk
    have : k = 0 ∨ k = 1 := by omega
    rcases this with rfl | rfl <;> simp [facetVertex, simplexOf, refOf, subVerts, triangle, demoGrid, demoPos])
  simpa [dotProduct, Fin.sum_univ_two] using this

end Verif.HDiv.Trace
