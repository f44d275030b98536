import Verif.HDiv.NormalMixed
import Mathlib.Tactic.FieldSimp

/-!
# Brezzi–Douglas–Marini functions

A coefficient vector of the Brezzi–Douglas–Marini basis of order 1 in two dimensions defines a vector field on each element. The orientation of the facets changes the sign of
one of the two functions of each edge only. The normal components of the fields of two neighbours agree if the elements have the same orientation, and only then.
-/

namespace Verif.HDiv.BDM

open Matrix Verif.Mapper Verif.Lagrange Verif.Piola Verif.HDiv.Trace
open Verif.Lagrange.Continuity (Supported vertexWeight prismType)

variable {E S K : Type} [Field K] [LinearOrder K] [IsStrictOrderedRing K]

/-! ## Model -/

/-- The value at the local point `x` of the element `e` of the discrete function with coefficients `vec`. `idx` are the indices of the elements in the index set. The node
selects the variant (brezzidouglasmarinibasis.hh:129-137, 259-264), the finite element applies the contravariant transform (globalvaluedlocalfiniteelement.hh:274-280), the discrete
function evaluates the linear combination (discreteglobalbasisfunction.hh:351-363). `none` if the index set is asked for an element that is not in the grid view or the
access to the table is out of range. -/
def value (G : GridView E S) (idx : E → Nat) (isects : E → List (Isect E)) (table : HDiv.Kind → Nat → LFE K 2) (keys : Geo → List Key)
    (geo : E → Geometry K 2) (vec : Nat → K) (e : E) (x : Vec K 2) : Option (Vec K 2) :=
  (bdmFind G.dim idx e (G.elemGeo e) (isects e)).map fun v =>
    axpyAll (((mapperLeaf G (bdmLayout 1 G.dim) fun e => keys (G.elemGeo e)).loc e).map vec) ((globalValued .contra (geo e) (table v.1 v.2)).eval x)

/-- `BDM1Simplex2DLocalBasis` of dune-localfunctions (brezzidouglasmarinibasis.hh:40-44): the functions of Raviart and Thomas, with the sign given by the variant, and
one divergence free field without sign for each edge. -/
def bdm1Simplex (bits : Nat) : LFE K 2 where
  size := 6
  eval := fun x =>
    let s := fun i => if bits.testBit i then (-1 : K) else 1
    [![s 0 * x 0, s 0 * (x 1 - 1)], ![s 1 * (x 0 - 1), s 1 * x 1], ![s 2 * x 0, s 2 * x 1],
     ![3 * x 0, 3 - 6 * x 0 - 3 * x 1], ![-3 + 3 * x 0 + 6 * x 1, -3 * x 1], ![-3 * x 0, 3 * x 1]]
  jac := fun _ => []
  interp := fun _ => []

/-- `BDM1Cube2DLocalBasis` of dune-localfunctions (brezzidouglasmarinibasis.hh:60-64). -/
def bdm1Cube (bits : Nat) : LFE K 2 where
  size := 8
  eval := fun x =>
    let s := fun i => if bits.testBit i then (-1 : K) else 1
    [![s 0 * (x 0 - 1), 0], ![6 * x 0 * x 1 - 3 * x 0 - 6 * x 1 + 3, -3 * x 1 * x 1 + 3 * x 1],
     ![s 1 * x 0, 0], ![-6 * x 0 * x 1 + 3 * x 0, 3 * x 1 * x 1 - 3 * x 1],
     ![0, s 2 * (x 1 - 1)], ![3 * x 0 * x 0 - 3 * x 0, -6 * x 0 * x 1 + 6 * x 0 + 3 * x 1 - 3],
     ![0, s 3 * x 1], ![-3 * x 0 * x 0 + 3 * x 0, 6 * x 0 * x 1 - 3 * x 1]]
  jac := fun _ => []
  interp := fun _ => []

/-- The finite elements of order 1 in two dimensions. -/
def bdmTable : HDiv.Kind → Nat → LFE K 2
  | .cube, bits => bdm1Cube bits
  | _, bits => bdm1Simplex bits

/-- Their local keys (`LocalKey(i % 3, 1, i / 3)` resp. `LocalKey(i / 2, 1, i % 2)`). -/
def bdmKeys (t : Geo) : List Key :=
  if t = ⟨2, 4⟩ then (List.range 8).map fun i => ⟨i / 2, 1, i % 2⟩ else (List.range 6).map fun i => ⟨i % 3, 1, i / 3⟩

/-! ## Specification -/




/-- The difference of the weights of the end points of edge `i`: -1 in the first, 1 in the second end point, 0 in the center. -/
def along (t : Geo) (i : Nat) (x : Vec K 2) : K := vertexWeight t (facetVert t i 1) x - vertexWeight t (facetVert t i 0) x

/-- Contract of the local finite elements of order 1 for the element type `t`: on each edge there is a function with the flux `c`, reversed if the bit of the edge is set in the
number of the variant, and a function whose flux changes from `-d` to `d` along the edge in counter-clockwise direction. Functions of other edges have no flux. -/
structure Moments (table : HDiv.Kind → Nat → LFE K 2) (keys : Geo → List Key) (c d : K) (t : Geo) : Prop where
  size : ∀ bits x, ((table (kindOf t) bits).eval x).length = (keys t).length
  nodup : (keys t).Nodup
  full : ∀ i < numFacets t, (⟨i, 1, 0⟩ : Key) ∈ keys t ∧ (⟨i, 1, 1⟩ : Key) ∈ keys t
  flux : ∀ (bits l : Nat) (k : Key), (keys t)[l]? = some k → ∀ i < numFacets t, ∀ x, (facetOf K 1 t i).On x →
    outerFlux ((table (kindOf t) bits).shape l x) (facetOf K 1 t i).frame (facetOf K 1 t i).out =
      if k = ⟨i, 1, 0⟩ then (if bits.testBit i then -c else c)
      else if k = ⟨i, 1, 1⟩ then d * (SignType.sign (vol (facetOf K 1 t i).out (facetOf K 1 t i).frame) : K) * along t i x else 0

/-! ## The finite elements -/

theorem three : numFacets ⟨2, 3⟩ = 3 := by decide
theorem four : numFacets ⟨2, 4⟩ = 4 := by decide

omit [LinearOrder K] [IsStrictOrderedRing K] in
/-- Points of the edges of the reference triangle. -/
theorem on_triangle {i : Nat} (hi : i < 3) {x : Vec K 2} (hx : (facetOf K 1 ⟨2, 3⟩ i).On x) :
    (i = 0 ∧ x 1 = 0) ∨ (i = 1 ∧ x 0 = 0) ∨ (i = 2 ∧ x 1 = 1 - x 0) := by
  obtain ⟨w, hw, rfl⟩ := hx
  rw [Fin.sum_univ_two] at hw
  have : i = 0 ∨ i = 1 ∨ i = 2 := by omega
  rcases this with rfl | rfl | rfl
  · refine Or.inl ⟨rfl, ?_⟩
    simp [Fin.sum_univ_two, facetVertex, simplexOf, refOf, subVerts, triangle, corner]
  · refine Or.inr (Or.inl ⟨rfl, ?_⟩)
    simp [Fin.sum_univ_two, facetVertex, simplexOf, refOf, subVerts, triangle, corner]
  · refine Or.inr (Or.inr ⟨rfl, ?_⟩)
    simp [Fin.sum_univ_two, facetVertex, simplexOf, refOf, subVerts, triangle, corner]
    linear_combination hw

theorem simplex_moments : Moments (K := K) bdmTable bdmKeys 1 3 ⟨2, 3⟩ where
  size := fun _ _ => rfl
  nodup := by decide
  full := by decide
  flux := by
    intro bits l k hk i hi x hx
    rw [three] at hi
    have hl : l < 6 := (List.getElem?_eq_some_iff.1 hk).1
    have hkk : k = ⟨l % 3, 1, l / 3⟩ := by
      have : ∀ l < 6, (bdmKeys ⟨2, 3⟩)[l]? = some ⟨l % 3, 1, l / 3⟩ := by decide
      rw [this l hl] at hk
      exact (Option.some.inj hk).symm
    subst hkk
    have hkind : kindOf ⟨2, 3⟩ = .simplex := by decide
    rw [hkind, outerFlux_eq]
    have hw : ∀ v, vertexWeight (K := K) ⟨2, 3⟩ v x = HDiv.Tangential.bary v x := fun v => by simp [vertexWeight, prismType]
    rcases on_triangle hi hx with ⟨rfl, h⟩ | ⟨rfl, h⟩ | ⟨rfl, h⟩ <;>
    · have : l = 0 ∨ l = 1 ∨ l = 2 ∨ l = 3 ∨ l = 4 ∨ l = 5 := by omega
      rcases this with rfl | rfl | rfl | rfl | rfl | rfl <;>
        simp [along, hw, facetVert, subVerts, refOf, triangle, HDiv.Tangential.bary, Fin.sum_univ_two, vol, Matrix.det_fin_two, facetOf, prismType, simplexFacet, facetVertex, simplexOf, corner,
          LFE.shape, bdmTable, bdm1Simplex, h] <;> (try split) <;> ring

theorem cube_moments : Moments (K := K) bdmTable bdmKeys 1 (-3) ⟨2, 4⟩ where
  size := fun _ _ => rfl
  nodup := by decide
  full := by decide
  flux := by
    intro bits l k hk i hi x hx
    rw [four] at hi
    have hl : l < 8 := (List.getElem?_eq_some_iff.1 hk).1
    have hkk : k = ⟨l / 2, 1, l % 2⟩ := by
      have : ∀ l < 8, (bdmKeys ⟨2, 4⟩)[l]? = some ⟨l / 2, 1, l % 2⟩ := by decide
      rw [this l hl] at hk
      exact (Option.some.inj hk).symm
    subst hkk
    have hkind : kindOf ⟨2, 4⟩ = .cube := by decide
    rw [hkind, outerFlux_eq]
    have : i = 0 ∨ i = 1 ∨ i = 2 ∨ i = 3 := by omega
    rcases this with rfl | rfl | rfl | rfl <;> simp [facetOf, cubeFacet] at hx <;>
    · have : l = 0 ∨ l = 1 ∨ l = 2 ∨ l = 3 ∨ l = 4 ∨ l = 5 ∨ l = 6 ∨ l = 7 := by omega
      rcases this with rfl | rfl | rfl | rfl | rfl | rfl | rfl | rfl <;>
        simp [along, vertexWeight, Continuity.cubeBw, Fin.prod_univ_succ, Nat.testBit, facetVert, subVerts, refOf, quadrilateral, vol, Matrix.det_fin_two, facetOf,
          cubeFacet, unit, LFE.shape, bdmTable, bdm1Cube, hx] <;> (try split) <;> ring

/-! ## Fluxes of discrete functions -/

/-- The flux of the discrete function through an edge of one element. -/
theorem edge_flux (G : GridView E S) (table : HDiv.Kind → Nat → LFE K 2) (keys : Geo → List Key) (c d : K) (e : E)
    (hF : Moments table keys c d (G.elemGeo e)) (bits : Nat) (i : Nat) (hi : i < numFacets (G.elemGeo e)) (g : Geometry K 2) (J : Mat K 2) (x : Vec K 2)
    (hg : g.OK J x) (hx : (facetOf K 1 (G.elemGeo e) i).On x) (vec : Nat → K) :
    outerFlux (n := 1) (axpyAll (((mapperLeaf G (bdmLayout 1 G.dim) fun e => keys (G.elemGeo e)).loc e).map vec)
        ((globalValued .contra g (table (kindOf (G.elemGeo e)) bits)).eval x))
      (fun k => J *ᵥ (facetOf K 1 (G.elemGeo e) i).frame k) (J *ᵥ (facetOf K 1 (G.elemGeo e) i).out) =
    vec (mapperIndex G (bdmLayout 1 G.dim) (G.sub e 1 i)) * (if bits.testBit i then -c else c) +
      vec (mapperIndex G (bdmLayout 1 G.dim) (G.sub e 1 i) + 1) *
        (d * (SignType.sign (vol (facetOf K 1 (G.elemGeo e) i).out (facetOf K 1 (G.elemGeo e) i).frame) : K) * along (G.elemGeo e) i x) := by
  set t := G.elemGeo e with ht
  set f := facetOf K 1 t i
  set F := table (kindOf t) bits with hFdef
  set lay := bdmLayout 1 G.dim
  have hlen : (F.eval x).length = (keys t).length := hF.size bits x
  have hshape : ∀ v : Vec K 2, outerFlux (n := 1) ((|J.det|)⁻¹ • (J *ᵥ v)) (fun k => J *ᵥ f.frame k) (J *ᵥ f.out) = outerFlux (n := 1) v f.frame f.out := by
    intro v
    obtain ⟨v', h1, h2⟩ := C52_flux hg v f.out f.frame
    rw [contraApply_eq hg] at h1
    simp only [List.map_cons, List.map_nil, List.cons.injEq, and_true] at h1
    rw [h1, h2]
  have hval : axpyAll (((mapperLeaf G lay fun e => keys (G.elemGeo e)).loc e).map vec) ((globalValued .contra g F).eval x) =
      ((List.finRange (keys t).length).map fun l : Fin (keys t).length =>
        vec (mapperIndex G lay (G.sub e (keys t)[l].codim (keys t)[l].sub) + (keys t)[l].index) • ((|J.det|)⁻¹ • (J *ᵥ F.shape l x))).sum := by
    rw [axpyAll, foldl_axpy, zero_add]
    congr 1
    apply List.ext_getElem
    · simp [mapperLeaf, globalValued, apply, contraApply, hlen, ← ht]
    · intro l h1 h2
      have hl : l < (keys t).length := by simpa using h2
      have hl' : l < (F.eval x).length := by omega
      simp only [List.getElem_map, List.getElem_zip, List.getElem_finRange, globalValued, apply, contraApply_eq hg, mapperLeaf, LFE.shape]
      simp [hl', ← ht]
  obtain ⟨⟨l0, hl0, hk0⟩, ⟨l1, hl1, hk1⟩⟩ := And.intro (List.mem_iff_getElem.1 (hF.full i hi).1) (List.mem_iff_getElem.1 (hF.full i hi).2)
  set M := d * (SignType.sign (vol f.out f.frame) : K) * along t i x
  set C := if bits.testBit i then -c else c
  rw [hval, outerFlux_eq, vol_list, List.map_map]
  have hsum : (List.map ((fun w => vol w fun k => J *ᵥ f.frame k) ∘ fun l : Fin (keys t).length =>
        vec (mapperIndex G lay (G.sub e (keys t)[l].codim (keys t)[l].sub) + (keys t)[l].index) • ((|J.det|)⁻¹ • (J *ᵥ F.shape l x)))
          (List.finRange (keys t).length)).sum * (SignType.sign (vol (J *ᵥ f.out) fun k => J *ᵥ f.frame k) : K) =
      ((List.finRange (keys t).length).map fun l : Fin (keys t).length =>
        vec (mapperIndex G lay (G.sub e (keys t)[l].codim (keys t)[l].sub) + (keys t)[l].index) * if (keys t)[l] = ⟨i, 1, 0⟩ then C else 0).sum +
      ((List.finRange (keys t).length).map fun l : Fin (keys t).length =>
        vec (mapperIndex G lay (G.sub e (keys t)[l].codim (keys t)[l].sub) + (keys t)[l].index) * if (keys t)[l] = ⟨i, 1, 1⟩ then M else 0).sum := by
    rw [← List.sum_map_mul_right, ← List.sum_map_add]
    congr 1
    refine List.map_congr_left fun l _ => ?_
    simp only [Function.comp_apply]
    rw [vol_smul, mul_assoc, ← outerFlux_eq, hshape, hF.flux bits l (keys t)[l] (by simp) i hi x hx]
    by_cases h : (keys t)[l] = ⟨i, 1, 0⟩
    · have h' : (keys t)[l] ≠ ⟨i, 1, 1⟩ := by
        rw [h]
        simp
      rw [if_pos h, if_pos h, if_neg h', mul_zero, add_zero]
    · rw [if_neg h, if_neg h, mul_zero, zero_add]
  have hone : ∀ (m l0 : Nat) (hl0 : l0 < (keys t).length) (_ : (keys t)[l0] = ⟨i, 1, m⟩) (A : K),
      ((List.finRange (keys t).length).map fun l : Fin (keys t).length =>
        vec (mapperIndex G lay (G.sub e (keys t)[l].codim (keys t)[l].sub) + (keys t)[l].index) * if (keys t)[l] = ⟨i, 1, m⟩ then A else 0).sum =
      vec (mapperIndex G lay (G.sub e 1 i) + m) * A := by
    intro m l0 hl0 hk0 A
    rw [sum_single (List.finRange (keys t).length) (List.nodup_finRange _) ⟨l0, hl0⟩ (List.mem_finRange _)]
    · simp [hk0]
    · intro l _ hne
      have : (keys t)[l] ≠ ⟨i, 1, m⟩ := by
        intro h
        apply hne
        ext
        exact (hF.nodup.getElem_inj_iff).1 (show (keys t)[l.val] = (keys t)[l0] by rw [hk0]; exact h)
      rw [if_neg this, mul_zero]
  rw [hsum, hone 0 l0 hl0 hk0, hone 1 l1 hl1 hk1, add_zero]

/-! ## Normal components -/

omit [LinearOrder K] [IsStrictOrderedRing K] in
/-- In two dimensions all normals of an edge are multiples of one. -/
theorem normal_iff {T : Fin 1 → Vec K 2} {w : Vec K 2} (hw : vol w T ≠ 0) (u : Vec K 2) :
    (∀ N : Vec K 2, (∀ k, N ⬝ᵥ T k = 0) → N ⬝ᵥ u = 0) ↔ vol u T = 0 := by
  constructor
  · intro h
    have := h ![T 0 1, -T 0 0] fun k => by
      rw [Subsingleton.elim k 0]
      simp [dotProduct, Fin.sum_univ_two]
      ring
    simp [dotProduct, Fin.sum_univ_two] at this
    simp [vol, Matrix.det_fin_two]
    linear_combination this
  · exact fun h N hN => normal_zero hw h N hN

omit [LinearOrder K] [IsStrictOrderedRing K] in
theorem vol_mulVec (J : Mat K 2) (u : Vec K 2) (t : Fin 1 → Vec K 2) : vol (n := 1) (J *ᵥ u) (fun k => J *ᵥ t k) = J.det * vol u t := by
  simp [vol, Matrix.det_fin_two, Matrix.mulVec, dotProduct, Fin.sum_univ_two]
  ring

omit [LinearOrder K] [IsStrictOrderedRing K] in
theorem vol_scale (a : K) (u : Vec K 2) (t : Fin 1 → Vec K 2) : vol (n := 1) u (fun k => a • t k) = a * vol u t := by
  simp [vol, Matrix.det_fin_two]
  ring

omit [LinearOrder K] [IsStrictOrderedRing K] in
/-- The two elements of an edge see its end points in the same or in the reverse order. -/
theorem edge_order {G : LGrid E S Nat} (ok : G.OK) (types : ∀ e, Supported 2 (G.elemGeo e)) (pos : Nat → Vec K 2) {e e' : E} {i i' : Nat}
    (hi : i < numFacets (G.elemGeo e)) (hi' : i' < numFacets (G.elemGeo e')) (hs : G.sub e 1 i = G.sub e' 1 i') {x x' : Vec K 2}
    (hx : (facetOf K 1 (G.elemGeo e) i).On x) (hx' : (facetOf K 1 (G.elemGeo e') i').On x')
    (hxx : ∀ v < (G.elemGeo e).nv, ∀ v' < (G.elemGeo e').nv, G.ids e v = G.ids e' v' → vertexWeight (G.elemGeo e) v x = vertexWeight (G.elemGeo e') v' x') :
    ∃ a : K, (a = 1 ∨ a = -1) ∧ (gridJac (n := 1) G pos e' x' *ᵥ (facetOf K 1 (G.elemGeo e') i').frame 0 =
      a • (gridJac (n := 1) G pos e x *ᵥ (facetOf K 1 (G.elemGeo e) i).frame 0)) ∧ along (G.elemGeo e') i' x' = a * along (G.elemGeo e) i x := by
  obtain ⟨u, hu, hu', -⟩ := facet_type ok hi hi' hs
  obtain ⟨h1, h2⟩ := facet_ids ok hu hu' hs
  have hnv : u = ⟨1, 2⟩ := by
    have : ∀ t ∈ elemTypes, t.dim = 2 → ∀ u ∈ stdSubs t 1, u = ⟨1, 2⟩ := by decide
    exact this _ (ok.type e) (types e).2.1 u (List.mem_of_getElem? hu)
  subst hnv
  have hlt := (facetVert_inj (ok.type e) hu).1
  have hlt' := (facetVert_inj (ok.type e') hu').1
  obtain ⟨a, ha, ea⟩ := h1 0 (by decide)
  obtain ⟨b, hb, eb⟩ := h1 1 (by decide)
  have wa := hxx _ (hlt a ha) _ (hlt' 0 (by decide)) ea.symm
  have wb := hxx _ (hlt b hb) _ (hlt' 1 (by decide)) eb.symm
  have ha : a < 2 := ha
  have hb : b < 2 := hb
  have hab : a ≠ b := by
    rintro rfl
    exact absurd (h2 0 (by decide) 1 (by decide) (ea.trans eb.symm)) (by decide)
  have hf := edge_frame (types e) (fun v => pos (G.ids e v)) hi hx
  have hf' := edge_frame (types e') (fun v => pos (G.ids e' v)) hi' hx'
  rw [gridJac, gridJac, hf, hf', ea, eb, along, along, ← wa, ← wb]
  have : a = 0 ∧ b = 1 ∨ a = 1 ∧ b = 0 := by omega
  rcases this with ⟨rfl, rfl⟩ | ⟨rfl, rfl⟩
  · exact ⟨1, Or.inl rfl, by rw [one_smul], by rw [one_mul]⟩
  · exact ⟨-1, Or.inr rfl, by rw [neg_one_smul, neg_sub], by ring⟩

omit [IsStrictOrderedRing K] in
/-- Signs are 1 or -1. -/
theorem sign_cases {a : K} (h : a ≠ 0) : (0 < a ∧ (SignType.sign a : K) = 1) ∨ (a < 0 ∧ (SignType.sign a : K) = -1) := by
  rcases lt_or_gt_of_ne h with h | h
  · exact Or.inr ⟨h, by rw [sign_neg h]; simp⟩
  · exact Or.inl ⟨h, by rw [sign_pos h]; simp⟩

/-- The difference of the normal components on both sides. -/
theorem jump_eq {J J' : Mat K 2} {f f' : RefFacet K 1} {a : K} (ha : a = 1 ∨ a = -1) (hfr : J' *ᵥ f'.frame 0 = a • (J *ᵥ f.frame 0))
    (sides : vol (J *ᵥ f.out) (fun k => J *ᵥ f.frame k) * vol (J' *ᵥ f'.out) (fun k => J *ᵥ f.frame k) < 0) {v v' : Vec K 2} {A A' B B' al : K}
    (h1 : outerFlux (n := 1) v (fun k => J *ᵥ f.frame k) (J *ᵥ f.out) = A + B * ((SignType.sign (vol f.out f.frame) : K) * al))
    (h2 : outerFlux (n := 1) v' (fun k => J' *ᵥ f'.frame k) (J' *ᵥ f'.out) = -A' + B' * ((SignType.sign (vol f'.out f'.frame) : K) * (a * al))) :
    vol v (fun k => J *ᵥ f.frame k) - vol v' (fun k => J *ᵥ f.frame k) =
      (SignType.sign J.det : K) * (SignType.sign (vol f.out f.frame) : K) * (A - A') + ((SignType.sign J.det : K) * B - (SignType.sign J'.det : K) * B') * al := by
  have hT : (fun k => J' *ᵥ f'.frame k) = fun k => a • (J *ᵥ f.frame k) := by
    funext k
    rw [Subsingleton.elim k 0, hfr]
  have haa : a * a = 1 := by rcases ha with rfl | rfl <;> ring
  have ho : vol (J *ᵥ f.out) (fun k => J *ᵥ f.frame k) = J.det * vol f.out f.frame := vol_mulVec J f.out f.frame
  have ho' : vol (J' *ᵥ f'.out) (fun k => J *ᵥ f.frame k) = a * (J'.det * vol f'.out f'.frame) := by
    rw [← vol_mulVec J' f'.out f'.frame, hT, vol_scale, ← mul_assoc, haa, one_mul]
  rw [outerFlux_eq, ho] at h1
  rw [outerFlux_eq, vol_mulVec, hT, vol_scale] at h2
  rw [ho, ho'] at sides
  have n1 : J.det ≠ 0 := by
    rintro h
    rw [h] at sides
    simp at sides
  have n2 : vol f.out f.frame ≠ 0 := by
    rintro h
    rw [h] at sides
    simp at sides
  have n3 : J'.det ≠ 0 := by
    rintro h
    rw [h] at sides
    simp at sides
  have n4 : vol f'.out f'.frame ≠ 0 := by
    rintro h
    rw [h] at sides
    simp at sides
  rw [sign_mul] at h1 h2
  push_cast at h1 h2
  have hprod : (SignType.sign J.det : K) * (SignType.sign (vol f.out f.frame) : K) * (a * ((SignType.sign J'.det : K) * (SignType.sign (vol f'.out f'.frame) : K))) = -1 := by
    have := sign_neg sides
    rw [sign_mul, sign_mul, sign_mul, sign_mul] at this
    have hc := congrArg (fun s : SignType => (s : K)) this
    push_cast at hc
    have hsa : (SignType.sign a : K) = a := by rcases ha with rfl | rfl <;> simp
    rw [hsa] at hc
    exact hc
  have sq : ∀ y : K, y ≠ 0 → (SignType.sign y : K) * (SignType.sign y : K) = 1 := fun y hy => by
    rcases sign_cases hy with ⟨-, h⟩ | ⟨-, h⟩ <;> rw [h] <;> ring
  have q1 := sq _ n1
  have q2 := sq _ n2
  have q3 := sq _ n3
  have q4 := sq _ n4
  generalize (SignType.sign J.det : K) = p at *
  generalize (SignType.sign J'.det : K) = q at *
  generalize (SignType.sign (vol f.out f.frame) : K) = s at *
  generalize (SignType.sign (vol f'.out f'.frame) : K) = s' at *
  generalize vol v (fun k => J *ᵥ f.frame k) = V at *
  generalize vol v' (fun k => J *ᵥ f.frame k) = V' at *
  have e1 : V = p * s * A + p * B * al := by
    have : V = V * (p * s) * (p * s) := by linear_combination (-V * s * s) * q1 - V * q2
    rw [this, h1]
    linear_combination (p * B * al) * q2
  have e2 : V' = a * V' * (q * s') * (a * q * s') := by linear_combination (-V' * a * a * s' * s') * q3 - V' * a * a * q4 - V' * haa
  have e3 : a * q * s' = -(p * s) := by
    have : a * q * s' = (p * s) * (p * s) * (a * q * s') := by linear_combination (-(a * q * s') * s * s) * q1 - a * q * s' * q2
    rw [this]
    linear_combination (p * s) * hprod
  rw [h2] at e2
  rw [e1, e2]
  linear_combination A' * e3 - (q * B' * al) * haa - (q * B' * al * a * a) * q4

/-- **C96, exact form.** On every conforming grid of triangles or of quadrilaterals, for every coefficient vector, and in every point of a common edge of two elements `e`, `e'`: the values of
a Brezzi–Douglas–Marini function of order 1 on the two sides have the same component in the directions orthogonal to the edge if and only if the elements have the same orientation there (the
determinants of the Jacobians have the same sign), or the coefficient of the second function of the edge is zero, or the point is the center of the edge. -/
theorem C96_jump {G : LGrid E S Nat} (ok : G.OK) (hdim : G.dim = 2) {t : Geo} (ht : t = ⟨2, 3⟩ ∨ t = ⟨2, 4⟩) (types : ∀ e, G.elemGeo e = t) (pos : Nat → Vec K 2)
    {idx : E → Nat} (hidx : Function.Injective idx) {isects : E → List (Isect E)} (hI : Neighbours G.toGridView isects)
    (hc : ∀ e, ∀ s ∈ isects e, s.outside ≠ none → s.contained = true) {table : HDiv.Kind → Nat → LFE K 2} {keys : Geo → List Key} {c d : K}
    (hF : Moments table keys c d t) (hd : d ≠ 0) (geo : E → Geometry K 2) (vec : Nat → K)
    {e e' : E} (hne : e ≠ e') {i i' : Nat} (hi : i < numFacets t) (hi' : i' < numFacets t) (hs : G.sub e 1 i = G.sub e' 1 i')
    {x x' : Vec K 2} (hx : (facetOf K 1 t i).On x) (hx' : (facetOf K 1 t i').On x')
    (hxx : ∀ v < t.nv, ∀ v' < t.nv, G.ids e v = G.ids e' v' → vertexWeight t v x = vertexWeight t v' x')
    (hJ : (geo e).OK (gridJac (n := 1) G pos e x) x) (hJ' : (geo e').OK (gridJac (n := 1) G pos e' x') x')
    (sides : vol (gridJac (n := 1) G pos e x *ᵥ (facetOf K 1 t i).out) (fun k => gridJac (n := 1) G pos e x *ᵥ (facetOf K 1 t i).frame k) *
      vol (gridJac (n := 1) G pos e' x' *ᵥ (facetOf K 1 t i').out) (fun k => gridJac (n := 1) G pos e x *ᵥ (facetOf K 1 t i).frame k) < 0) :
    ∃ v v', value G.toGridView idx isects table keys geo vec e x = some v ∧ value G.toGridView idx isects table keys geo vec e' x' = some v' ∧
      ((∀ N : Vec K 2, (∀ k, N ⬝ᵥ (gridJac (n := 1) G pos e x *ᵥ (facetOf K 1 t i).frame k) = 0) → N ⬝ᵥ v = N ⬝ᵥ v') ↔
        0 < (gridJac (n := 1) G pos e x).det * (gridJac (n := 1) G pos e' x').det ∨
        vec (mapperIndex G.toGridView (bdmLayout 1 2) (G.sub e 1 i) + 1) = 0 ∨ vertexWeight t (facetVert t i 0) x = vertexWeight t (facetVert t i 1) x) := by
  have hfind : ∀ e, ∃ bits, bdmFind G.dim idx e (G.elemGeo e) (isects e) = some (kindOf t, bits) ∧
      ∀ i, bits.testBit i = true ↔ Flipped idx e (isects e) i := fun e => by
    have := C47_bdm G.dim idx e (G.elemGeo e) (by rw [types]; tauto) (ok.base.elemMem e).2 (isects e) (hI.inside e) (hc e)
    rwa [types] at this ⊢
  obtain ⟨b, hb1, hb2⟩ := hfind e
  obtain ⟨b', hb1', hb2'⟩ := hfind e'
  have hnum : ∀ e, numFacets (G.elemGeo e) = numFacets t := fun e => by rw [types]
  obtain ⟨n1, n2⟩ := hI.shared e e' i i' hne (by rw [hnum]; exact hi) (by rw [hnum]; exact hi') hs
  obtain ⟨m1, m2⟩ := hI.shared e' e i' i hne.symm (by rw [hnum]; exact hi') (by rw [hnum]; exact hi) hs.symm
  have hflag := (C47_facet (V := Int) idx hidx e e' hne (isects e) (isects e') i i' n1 m1 n2 m2 b b' hb2 hb2' 0).2
  have hsup : ∀ e, Supported 2 (G.elemGeo e) := fun e => by
    rw [types]
    rcases ht with rfl | rfl <;> decide
  obtain ⟨a, ha, hfr, hal⟩ := edge_order ok hsup pos (e := e) (e' := e') (i := i) (i' := i') (by rw [hnum]; exact hi) (by rw [hnum]; exact hi') hs (x := x) (x' := x')
    (by rw [types]; exact hx) (by rw [types]; exact hx') (by rw [types, types]; exact hxx)
  rw [types, types] at hfr hal
  have f1 := edge_flux G.toGridView table keys c d e (by rw [types]; exact hF) b i (by rw [hnum]; exact hi) (geo e) _ x hJ (by rw [types]; exact hx) vec
  have f2 := edge_flux G.toGridView table keys c d e' (by rw [types]; exact hF) b' i' (by rw [hnum]; exact hi') (geo e') _ x' hJ' (by rw [types]; exact hx') vec
  refine ⟨_, _, by rw [value, hb1]; rfl, by rw [value, hb1']; rfl, ?_⟩
  rw [types] at f1 f2
  simp only
  rw [hdim] at f1 f2
  simp only [hdim]
  set v := axpyAll (((mapperLeaf G.toGridView (bdmLayout 1 2) fun e => keys (G.elemGeo e)).loc e).map vec) ((globalValued .contra (geo e) (table (kindOf t) b)).eval x) with hv
  set v' := axpyAll (((mapperLeaf G.toGridView (bdmLayout 1 2) fun e => keys (G.elemGeo e)).loc e').map vec) ((globalValued .contra (geo e') (table (kindOf t) b')).eval x') with hv'
  set J := gridJac (n := 1) G pos e x
  set J' := gridJac (n := 1) G pos e' x'
  set A := vec (mapperIndex G.toGridView (bdmLayout 1 2) (G.sub e 1 i)) * (if b.testBit i then -c else c) with hA
  set B := vec (mapperIndex G.toGridView (bdmLayout 1 2) (G.sub e 1 i) + 1) with hB
  have hA' : vec (mapperIndex G.toGridView (bdmLayout 1 2) (G.sub e' 1 i')) * (if b'.testBit i' then -c else c) = -A := by
    rw [hA, ← hs, hflag]
    cases b'.testBit i' <;> simp
  have hj := jump_eq (v := v) (v' := v') (A := A) (A' := A) (B := B * d) (B' := B * d) (al := along t i x) ha hfr sides (by rw [f1]; ring) (by
    rw [f2, hA', ← hs, ← hB, hal]
    ring)
  have hT0 : vol (J *ᵥ (facetOf K 1 t i).out) (fun k => J *ᵥ (facetOf K 1 t i).frame k) ≠ 0 := fun h => by
    rw [h, zero_mul] at sides
    exact lt_irrefl _ sides
  have hdet : J.det ≠ 0 := fun h => hT0 (by rw [vol_mulVec, h, zero_mul])
  have hdet' : J'.det ≠ 0 := fun h => by
    have : vol (J' *ᵥ (facetOf K 1 t i').out) (fun k => J *ᵥ (facetOf K 1 t i).frame k) = 0 := by
      have h2 := vol_mulVec J' (facetOf K 1 t i').out (facetOf K 1 t i').frame
      have hT : (fun k => J' *ᵥ (facetOf K 1 t i').frame k) = fun k => a • (J *ᵥ (facetOf K 1 t i).frame k) := by
        funext k
        rw [Subsingleton.elim k 0, hfr]
      rw [h, zero_mul, hT, vol_scale] at h2
      rcases ha with rfl | rfl <;> simpa using h2
    rw [this, mul_zero] at sides
    exact lt_irrefl _ sides
  have hN := normal_iff hT0 (v + (-1 : K) • v')
  have hvol : vol (v + (-1 : K) • v') (fun k => J *ᵥ (facetOf K 1 t i).frame k) =
      ((SignType.sign J.det : K) - (SignType.sign J'.det : K)) * (B * d * along t i x) := by
    rw [vol_add, vol_smul]
    linear_combination hj
  rw [hvol] at hN
  have hleft : (∀ N : Vec K 2, (∀ k, N ⬝ᵥ (J *ᵥ (facetOf K 1 t i).frame k) = 0) → N ⬝ᵥ v = N ⬝ᵥ v') ↔
      ∀ N : Vec K 2, (∀ k, N ⬝ᵥ (J *ᵥ (facetOf K 1 t i).frame k) = 0) → N ⬝ᵥ (v + (-1 : K) • v') = 0 := by
    refine forall_congr' fun N => imp_congr_right fun _ => ?_
    rw [dotProduct_add, dotProduct_smul, smul_eq_mul]
    constructor
    · intro h
      linear_combination h
    · intro h
      linear_combination h
  rw [hleft, hN, mul_eq_zero, mul_eq_zero, mul_eq_zero, or_iff_left hd]
  refine or_congr ?_ (or_congr Iff.rfl ?_)
  · rcases sign_cases hdet with ⟨p, h⟩ | ⟨p, h⟩ <;> rcases sign_cases hdet' with ⟨p', h'⟩ | ⟨p', h'⟩ <;> rw [h, h']
    · simp [mul_pos p p']
    · exact iff_of_false (by norm_num) (not_lt.2 (mul_nonpos_of_nonneg_of_nonpos p.le p'.le))
    · exact iff_of_false (by norm_num) (not_lt.2 (mul_nonpos_of_nonpos_of_nonneg p.le p'.le))
    · simp [mul_pos_of_neg_of_neg p p']
  · rw [along, sub_eq_zero, eq_comm]

/-- **C96, partial.** On every conforming grid of triangles or of quadrilaterals (affine or bilinear) and for every coefficient vector, the values of a Brezzi–Douglas–Marini function of order 1 on
the two sides of an edge have the same component in every direction orthogonal to the edge, if the two elements have the same orientation there. Missing: elements of
different orientation (`C96_false`). -/
theorem C96_partial {G : LGrid E S Nat} (ok : G.OK) (hdim : G.dim = 2) {t : Geo} (ht : t = ⟨2, 3⟩ ∨ t = ⟨2, 4⟩) (types : ∀ e, G.elemGeo e = t) (pos : Nat → Vec K 2)
    {idx : E → Nat} (hidx : Function.Injective idx) {isects : E → List (Isect E)} (hI : Neighbours G.toGridView isects)
    (hc : ∀ e, ∀ s ∈ isects e, s.outside ≠ none → s.contained = true) (geo : E → Geometry K 2) (vec : Nat → K)
    {e e' : E} (hne : e ≠ e') {i i' : Nat} (hi : i < numFacets t) (hi' : i' < numFacets t) (hs : G.sub e 1 i = G.sub e' 1 i')
    {x x' : Vec K 2} (hx : (facetOf K 1 t i).On x) (hx' : (facetOf K 1 t i').On x')
    (hxx : ∀ v < t.nv, ∀ v' < t.nv, G.ids e v = G.ids e' v' → vertexWeight t v x = vertexWeight t v' x')
    (hJ : (geo e).OK (gridJac (n := 1) G pos e x) x) (hJ' : (geo e').OK (gridJac (n := 1) G pos e' x') x')
    (sides : vol (gridJac (n := 1) G pos e x *ᵥ (facetOf K 1 t i).out) (fun k => gridJac (n := 1) G pos e x *ᵥ (facetOf K 1 t i).frame k) *
      vol (gridJac (n := 1) G pos e' x' *ᵥ (facetOf K 1 t i').out) (fun k => gridJac (n := 1) G pos e x *ᵥ (facetOf K 1 t i).frame k) < 0)
    (same : 0 < (gridJac (n := 1) G pos e x).det * (gridJac (n := 1) G pos e' x').det) :
    ∃ v v', value G.toGridView idx isects bdmTable bdmKeys geo vec e x = some v ∧ value G.toGridView idx isects bdmTable bdmKeys geo vec e' x' = some v' ∧
      ∀ N : Vec K 2, (∀ k, N ⬝ᵥ (gridJac (n := 1) G pos e x *ᵥ (facetOf K 1 t i).frame k) = 0) → N ⬝ᵥ v = N ⬝ᵥ v' := by
  obtain ⟨d, hd, hF⟩ : ∃ d : K, d ≠ 0 ∧ Moments bdmTable bdmKeys 1 d t := by
    rcases ht with rfl | rfl
    · exact ⟨3, by norm_num, simplex_moments⟩
    · exact ⟨-3, by norm_num, cube_moments⟩
  obtain ⟨v, v', h1, h2, h3⟩ := C96_jump ok hdim ht types pos hidx hI hc hF hd geo vec hne hi hi' hs hx hx' hxx hJ hJ' sides
  exact ⟨v, v', h1, h2, h3.2 (Or.inl same)⟩

omit [LinearOrder K] [IsStrictOrderedRing K] in
/-- The Jacobian of a triangle. -/
theorem triangle_jac (p : Nat → Vec K 2) (x : Vec K 2) (d j : Fin 2) : jacobian (n := 1) ⟨2, 3⟩ p x d j = p (j + 1) d - p 0 d := by
  fin_cases j <;>
    simp [jacobian, position, Fin.sum_univ_succ, vertexWeight, unit, HDiv.Tangential.bary, prismType] <;> ring

/-! ## Examples -/

def demoPosQ (v : Nat) : Vec ℚ 2 := if v = 10 then ![0, 0] else if v = 20 then ![1, 0] else if v = 30 then ![1, 1] else ![0, 1]

/-- Two triangles with the same orientation: in every point of the diagonal the sum of the components is continuous. -/
example (vec : Nat → ℚ) (s : ℚ) : ∃ v v',
    value demoGrid.toGridView (fun e => e.val) demoIsects bdmTable bdmKeys (fun e => ofJacobian fun x => gridJac (n := 1) demoGrid demoPosQ e x) vec 0 ![1 - s, s] = some v ∧
    value demoGrid.toGridView (fun e => e.val) demoIsects bdmTable bdmKeys (fun e => ofJacobian fun x => gridJac (n := 1) demoGrid demoPosQ e x) vec 1 ![s, 1 - s] = some v' ∧
    v 0 + v 1 = v' 0 + v' 1 := by
  have hJ0 : ∀ x, gridJac (n := 1) demoGrid demoPosQ 0 x = !![1, 0; 0, 1] := by
    intro x
    ext d j
    rw [gridJac, show demoGrid.elemGeo 0 = ⟨2, 3⟩ from rfl, triangle_jac]
    fin_cases d <;> fin_cases j <;> simp [demoGrid, demoPosQ]
  have hJ1 : ∀ x, gridJac (n := 1) demoGrid demoPosQ 1 x = !![-1, 0; 0, -1] := by
    intro x
    ext d j
    rw [gridJac, show demoGrid.elemGeo 1 = ⟨2, 3⟩ from rfl, triangle_jac]
    fin_cases d <;> fin_cases j <;> simp [demoGrid, demoPosQ]
  have hon : ∀ s : ℚ, (facetOf ℚ 1 ⟨2, 3⟩ 2).On ![1 - s, s] := by
    intro s
    refine ⟨![1 - s, s], by simp, ?_⟩
    funext d
    fin_cases d <;> simp [Fin.sum_univ_two, facetVertex, simplexOf, refOf, subVerts, triangle, corner]
  have hon' : (facetOf ℚ 1 ⟨2, 3⟩ 2).On ![s, 1 - s] := by simpa using hon (1 - s)
  have hfr : ∀ k, (facetOf ℚ 1 ⟨2, 3⟩ 2).frame k = ![-1, 1] := by
    intro k
    funext d
    fin_cases d <;> simp [facetOf, prismType, simplexFacet, facetVertex, simplexOf, refOf, subVerts, triangle, corner]
  have hout : (facetOf ℚ 1 ⟨2, 3⟩ 2).out = ![1, 0] := by
    funext d
    fin_cases d <;> simp [facetOf, prismType, simplexFacet, facetVertex, simplexOf, refOf, subVerts, triangle, corner]
  obtain ⟨v, v', h1, h2, h3⟩ := C96_partial demoGrid_OK rfl (Or.inl rfl) (fun _ => rfl) demoPosQ (idx := fun e => e.val) Fin.val_injective demo_neighbours (by decide)
    (fun e => ofJacobian fun x => gridJac (n := 1) demoGrid demoPosQ e x) vec (e := 0) (e' := 1) (by decide) (i := 2) (i' := 2) (by decide) (by decide) rfl
    (x := ![1 - s, s]) (x' := ![s, 1 - s]) (hon s) hon' (by
      have : ∀ v < 3, ∀ v' < 3, demoGrid.ids 0 v = demoGrid.ids 1 v' → v = 1 ∧ v' = 2 ∨ v = 2 ∧ v' = 1 := by decide
      intro v hv v' hv' h
      rcases this v hv v' hv' h with ⟨rfl, rfl⟩ | ⟨rfl, rfl⟩ <;> simp [vertexWeight, prismType, HDiv.Tangential.bary])
    (ofJacobian_OK _ _ (by rw [hJ0]; simp)) (ofJacobian_OK _ _ (by rw [hJ1]; simp)) (by
      simp only [hJ0, hJ1, hfr, hout]
      simp [vol, Matrix.det_fin_two]) (by rw [hJ0, hJ1]; simp [Matrix.det_fin_two])
  refine ⟨v, v', h1, h2, ?_⟩
  have := h3 ![1, 1] (by
    intro k
    rw [hfr, hJ0]
    simp [Matrix.mulVec, dotProduct, Fin.sum_univ_two])
  simpa [dotProduct, Fin.sum_univ_two] using this

/-- The grid `demoGrid` with the second triangle `(30, 20, 40)`, so that its orientation is different. -/
def mirrorGrid : LGrid (Fin 2) (Fin 11) Nat :=
  { demoGrid with
    sub := fun e c i =>
      if e = 0 then
        (if c = 0 then 0 else if c = 1 then (if i = 0 then 2 else if i = 1 then 3 else 4)
         else (if i = 0 then 7 else if i = 1 then 8 else 10))
      else
        (if c = 0 then 1 else if c = 1 then (if i = 0 then 5 else if i = 1 then 6 else 4)
         else (if i = 0 then 9 else if i = 1 then 8 else 10))
    ids := fun e v => if e = 0 then (if v = 0 then 10 else if v = 1 then 20 else 40) else (if v = 0 then 30 else if v = 1 then 20 else 40) }

theorem mirrorGrid_OK : mirrorGrid.OK where
  base := {
    typesNodup := by decide
    geoMem := by decide
    idxLt := by decide
    idxInj := by decide
    idxSurj := by decide
    subGeo := by
      intro e c i t h
      have hb := demo_sub_bound (List.getElem?_eq_some_iff.mp h).1
      have : ∀ e : Fin 2, ∀ c < 3, ∀ i < 3, ∀ t ∈ (stdSubs ⟨2, 3⟩ c)[i]?, mirrorGrid.geo (mirrorGrid.sub e c i) = t := by decide
      exact this e c hb.1 i hb.2 t h
    subInj := by
      intro e c i c' i' h h'
      have hb := demo_sub_bound h
      have hb' := demo_sub_bound h'
      have : ∀ e : Fin 2, ∀ c i c' i' : Fin 3, i.1 < (stdSubs ⟨2, 3⟩ c).length → i'.1 < (stdSubs ⟨2, 3⟩ c').length →
        mirrorGrid.sub e c i = mirrorGrid.sub e c' i' → c.1 = c'.1 ∧ i.1 = i'.1 := by decide
      exact this e ⟨c, hb.1⟩ ⟨i, hb.2⟩ ⟨c', hb'.1⟩ ⟨i', hb'.2⟩ h h'
    subSurj := by
      have : ∀ s : Fin 11, ∃ e : Fin 2, ∃ c : Fin 3, ∃ i : Fin 3, i.1 < (stdSubs ⟨2, 3⟩ c).length ∧ mirrorGrid.sub e c i = s := by
        decide
      intro s
      obtain ⟨e, c, i, hi, hs⟩ := this s
      exact ⟨e, c, i, Nat.lt_succ_iff.mp c.2, hi, hs⟩
    elemMem := by decide }
  std := fun _ _ => rfl
  type := by decide
  elemInj := by decide
  idsInj := by
    have : ∀ e : Fin 2, ∀ v < 3, ∀ v' < 3, mirrorGrid.ids e v = mirrorGrid.ids e v' → v = v' := by decide
    exact fun e v v' hv hv' => this e v hv v' hv'
  vertsSame := by
    intro e k e' k' h h' hs
    have hb := demo_sub_bound h
    have hb' := demo_sub_bound h'
    have : ∀ e e' : Fin 2, ∀ c i c' i' : Fin 3, i.1 < (stdSubs ⟨2, 3⟩ c).length → i'.1 < (stdSubs ⟨2, 3⟩ c').length →
        mirrorGrid.sub e c i = mirrorGrid.sub e' c' i' → (mirrorGrid.verts e ⟨i, c, 0⟩).Perm (mirrorGrid.verts e' ⟨i', c', 0⟩) := by
      decide +kernel
    intro x
    exact (this e e' ⟨k.codim, hb.1⟩ ⟨k.sub, hb.2⟩ ⟨k'.codim, hb'.1⟩ ⟨k'.sub, hb'.2⟩ h h' hs).mem_iff
  diagSame := by
    intro e k e' k' h h' hs hg
    have : ∀ s, mirrorGrid.geo s ≠ ⟨2, 4⟩ := by decide
    exact absurd hg (this _)

theorem mirror_neighbours : Neighbours mirrorGrid.toGridView demoIsects where
  inside := by decide
  shared := by
    have : ∀ e e' : Fin 2, ∀ i ∈ List.range 3, ∀ i' ∈ List.range 3, e ≠ e' → mirrorGrid.sub e 1 i = mirrorGrid.sub e' 1 i' →
        (∃ s ∈ demoIsects e, s.inside = i ∧ s.contained = true ∧ s.outside = some e') ∧ ∀ s ∈ demoIsects e, s.inside = i → s.outside = some e' := by decide +kernel
    exact fun e e' i i' hne hi hi' hs => this e e' i (List.mem_range.2 hi) i' (List.mem_range.2 hi') hne hs

/-- **C96 is false** for neighbours of different orientation: two triangles of the unit square, the second one mirrored, have a common vertex at `(1, 0)`. The function with the coefficient 1 for the second
function of the diagonal (and 0 for all others) has different normal components there. The edges, positions, intersections and finite elements satisfy all hypotheses of `C96_partial` but the
last. -/
theorem C96_false : ∃ v v',
    value mirrorGrid.toGridView (fun e => e.val) demoIsects bdmTable bdmKeys (fun e => ofJacobian fun x => gridJac (n := 1) mirrorGrid demoPosQ e x)
      (fun m => if m = 5 then 1 else 0) 0 ![1, 0] = some v ∧
    value mirrorGrid.toGridView (fun e => e.val) demoIsects bdmTable bdmKeys (fun e => ofJacobian fun x => gridJac (n := 1) mirrorGrid demoPosQ e x)
      (fun m => if m = 5 then 1 else 0) 1 ![1, 0] = some v' ∧
    ∃ N : Vec ℚ 2, N ⬝ᵥ (demoPosQ 40 - demoPosQ 20) = 0 ∧ N ⬝ᵥ v ≠ N ⬝ᵥ v' := by
  have hon : (facetOf ℚ 1 ⟨2, 3⟩ 2).On ![1, 0] := by
    refine ⟨![1, 0], by simp, ?_⟩
    funext d
    fin_cases d <;> simp [Fin.sum_univ_two, facetVertex, simplexOf, refOf, subVerts, triangle, corner]
  obtain ⟨v, v', h1, h2, h3⟩ := C96_jump mirrorGrid_OK rfl (Or.inl rfl) (fun _ => rfl) demoPosQ (idx := fun e => e.val) Fin.val_injective mirror_neighbours (by decide) simplex_moments
    (by norm_num) (fun e => ofJacobian fun x => gridJac (n := 1) mirrorGrid demoPosQ e x) (fun m => if m = 5 then 1 else 0) (e := 0) (e' := 1) (by decide) (i := 2) (i' := 2) (by decide)
    (by decide) rfl (x := ![1, 0]) (x' := ![1, 0]) hon hon (by decide +kernel) (ofJacobian_OK _ _ (by decide +kernel)) (ofJacobian_OK _ _ (by decide +kernel)) (by decide +kernel)
  refine ⟨v, v', h1, h2, ?_⟩
  have hno : ¬ (0 < (gridJac (n := 1) mirrorGrid demoPosQ 0 ![1, 0]).det * (gridJac (n := 1) mirrorGrid demoPosQ 1 ![1, 0]).det ∨
      (fun m => if m = 5 then (1 : ℚ) else 0) (mapperIndex mirrorGrid.toGridView (bdmLayout 1 2) (mirrorGrid.sub 0 1 2) + 1) = 0 ∨
      vertexWeight (K := ℚ) ⟨2, 3⟩ (facetVert ⟨2, 3⟩ 2 0) ![1, 0] = vertexWeight ⟨2, 3⟩ (facetVert ⟨2, 3⟩ 2 1) ![1, 0]) := by decide +kernel
  rw [← h3] at hno
  push Not at hno
  obtain ⟨N, hN, h⟩ := hno
  refine ⟨N, ?_, h⟩
  have := hN 0
  rwa [show gridJac (n := 1) mirrorGrid demoPosQ 0 ![1, 0] *ᵥ (facetOf ℚ 1 ⟨2, 3⟩ 2).frame 0 = demoPosQ 40 - demoPosQ 20 by decide +kernel] at this

end Verif.HDiv.BDM
