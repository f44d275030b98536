import Verif.Lagrange.Discontinuous
import Verif.Lagrange.Product

/-!
# The space of piecewise constant functions

The bases `LagrangeBasis` and `LagrangeDGBasis` of order 0 span the functions that are constant on each element. Their indices are the same: one for each element.
-/

namespace Verif.Lagrange.Constant

open Mapper Verif.IndexTree
open Verif.Lagrange.Continuity (mixedGrid gridKeys mixedGrid_OK gridKeys_keys keyVerts)

variable {E S α X K : Type} [LinearOrder α]

/-! ## Model -/

/-- A basis of order 0: the Lagrange basis (lagrangebasis.hh:750-751, 830-873) or the discontinuous Lagrange basis (lagrangedgbasis.hh:56-79, 120-130), whose finite elements (lagrangedgbasis.hh:37-38) and
hence local keys are those of the Lagrange basis. -/
inductive ConstLeaf (G : LGrid E S α) (keys : E → List Key) : Leaf E → Prop
  | lagrange : ConstLeaf G keys (lagrangeLeaf G 0 keys)
  | dg : ConstLeaf G keys (dgLeaf G.toGridView 0 fun e => (keys e).length)

/-- discreteglobalbasisfunction.hh:345-363 for a basis of order 0. All finite elements of order 0 of dune-localfunctions have the value 1 as only shape function. -/
def constValue [Field K] (L : Leaf E) (vec : Nat → K) (e : E) : K := (((L.loc e).map vec).zip [1]).foldl (fun y cv => y + cv.1 * cv.2) 0

/-- interpolate.hh:151-173, 254-259 for a basis of order 0. The finite elements of dune-localfunctions evaluate the function in one point `center e` of the element. -/
noncomputable def constInterpolate (L : Leaf E) (center : E → X) (f : E → X → ℝ) (vec : Nat → ℝ) (es : List E) : Option (Nat → ℝ) :=
  Verif.FE.Interpolation.interpolateAll L.loc (fun _ e => some [f e (center e)]) vec es

/-! ## Indices -/

omit [LinearOrder α] in
theorem std {G : LGrid E S α} (h : G.OK) : StdGrid G.toGridView := ⟨h.base, h.std, h.type, h.elemInj⟩

omit [LinearOrder α] in
theorem constant_key {G : LGrid E S α} (h : G.OK) {e : E} {k : Key} : ValidKey G 0 e k ↔ k = ⟨0, 0, 0⟩ := by
  have hd := (h.base.elemMem e).2
  constructor
  · rintro ⟨h1, t, h2, h3⟩
    have hc : k.codim = 0 := by
      by_contra hc
      have hm := List.mem_of_getElem? h2
      simp only [stdSubs, List.mem_map] at hm
      obtain ⟨v, -, rfl⟩ := hm
      have r1 := (refOf_table _ (h.type e)).1
      simp only [lagrangeLayout, if_true] at h3
      rw [if_neg (by omega)] at h3
      omega
    rw [hc] at h2
    have hlen : (stdSubs (G.elemGeo e) 0).length = 1 := by simp [stdSubs, subVerts]
    have hs := (List.getElem?_eq_some_iff.1 h2).1
    have hi : k.index < 1 := by
      simp only [lagrangeLayout, if_true] at h3
      split at h3 <;> omega
    obtain ⟨s, c, i⟩ := k
    simp only at hc hs hi
    simp only [Key.mk.injEq]
    omega
  · rintro rfl
    exact ⟨Nat.zero_le _, G.elemGeo e, stdSubs_elem _ (h.type e), by simp [lagrangeLayout, hd]⟩

omit [LinearOrder α] in
theorem keys_eq {G : LGrid E S α} (h : G.OK) {keys : E → List Key} (hk : LagrangeKeys G 0 keys) (e : E) : keys e = [⟨0, 0, 0⟩] := by
  have hm : ∀ k, k ∈ keys e ↔ k ∈ ([⟨0, 0, 0⟩] : List Key) := fun k => by rw [hk.mem, constant_key h, List.mem_singleton]
  exact List.perm_singleton.1 ((List.perm_ext_iff_of_nodup (hk.nodup e) (List.nodup_singleton _)).2 hm)

theorem lagrange_loc {G : LGrid E S α} (h : G.OK) {keys : E → List Key} (hk : LagrangeKeys G 0 keys) (e : E) :
    (lagrangeLeaf G 0 keys).loc e = [mapperIndex G.toGridView (lagrangeLayout 0 G.dim) (G.sub e 0 0)] := by
  have hv : ValidKey G 0 e ⟨0, 0, 0⟩ := (constant_key h).2 rfl
  obtain ⟨n, -, h1, -⟩ := C20_C22_conformity h 0 (fun _ => by omega) e _ e _ hv hv
  have h2 : n = mapperIndex G.toGridView (lagrangeLayout 0 G.dim) (G.sub e 0 0) := by
    simp only [lagrangeIndex, if_neg (show ¬ (0 : Nat) = 1 by omega), Option.bind_eq_some_iff] at h1
    obtain ⟨d, -, p, hp, hn⟩ := h1
    have : p = 0 := by
      simp only [permuteFaceDOF] at hp
      simp at hp
      exact hp.symm
    simp only [Option.some.injEq] at hn
    omega
  simp [lagrangeLeaf, keys_eq h hk, h1, h2]

omit [LinearOrder α] in
/-- The layouts agree on the types that occur in the grid. -/
theorem layout_same {G : LGrid E S α} (h : G.OK) {t : Geo} (ht : t ∈ G.types) : G.gsize t = 0 ∨ dgLayout 0 G.dim t = lagrangeLayout 0 G.dim t := by
  by_cases h0 : G.gsize t = 0
  · exact .inl h0
  refine .inr ?_
  by_cases hd : t.dim = G.dim
  · obtain ⟨s, hs, -⟩ := h.base.idxSurj t ht 0 (by omega)
    obtain ⟨e, c, i, hc, hi, rfl⟩ := h.base.subSurj s
    rw [h.std] at hi
    have hg := h.base.subGeo e c i _ (by rw [h.std]; exact List.getElem?_eq_getElem hi)
    have hc0 : c = 0 := by
      by_contra h0
      have hm := List.getElem_mem hi
      rw [← hg, hs] at hm
      simp only [stdSubs, List.mem_map] at hm
      obtain ⟨v, -, rfl⟩ := hm
      have r1 := (refOf_table _ (h.type e)).1
      have r2 := (h.base.elemMem e).2
      simp only at hd
      omega
    subst hc0
    have hi0 : i = 0 := by
      have : (stdSubs (G.elemGeo e) 0).length = 1 := by simp [stdSubs, subVerts]
      omega
    subst hi0
    rw [← hs, elem_geo (std h) e, ← (h.base.elemMem e).2, dgLayout_elem 0 _ (h.type e)]
    simp [localDim, lagrangeLayout]
  · simp [dgLayout, lagrangeLayout, hd]

theorem offset_same {gsize : Geo → Nat} {lay lay' : Layout} {ts : List Geo} (h : ∀ t ∈ ts, gsize t = 0 ∨ lay t = lay' t) (t : Geo) :
    offset gsize lay ts t = offset gsize lay' ts t := by
  induction ts with
  | nil => rfl
  | cons u us ih =>
    simp only [offset]
    rw [ih fun t ht => h t (List.mem_cons_of_mem _ ht)]
    rcases h u List.mem_cons_self with h0 | h0 <;> simp [h0]

omit [LinearOrder α] in
theorem size_same {G : LGrid E S α} (h : G.OK) : mapperSize G.toGridView (dgLayout 0 G.dim) = mapperSize G.toGridView (lagrangeLayout 0 G.dim) := by
  rw [mapperSize, mapperSize]
  congr 1
  refine List.map_congr_left fun t ht => ?_
  rcases layout_same h ht with h0 | h0 <;> simp [h0]

omit [LinearOrder α] in
theorem index_same {G : LGrid E S α} (h : G.OK) (s : S) : mapperIndex G.toGridView (dgLayout 0 G.dim) s = mapperIndex G.toGridView (lagrangeLayout 0 G.dim) s := by
  rw [mapperIndex, mapperIndex, offset_same fun t ht => layout_same h ht]
  congr 1
  rcases layout_same h (h.base.geoMem s) with h0 | h0
  · have := h.base.idxLt s
    omega
  · rw [h0]

theorem const_loc {G : LGrid E S α} (h : G.OK) {keys : E → List Key} (hk : LagrangeKeys G 0 keys) {L : Leaf E} (hL : ConstLeaf G keys L) (e : E) :
    L.loc e = [mapperIndex G.toGridView (lagrangeLayout 0 G.dim) (G.sub e 0 0)] := by
  cases hL with
  | lagrange => exact lagrange_loc h hk e
  | dg => simp [dgLeaf, keys_eq h hk, index_same h]

theorem const_dim {G : LGrid E S α} (h : G.OK) {keys : E → List Key} {L : Leaf E} (hL : ConstLeaf G keys L) :
    L.dim = mapperSize G.toGridView (lagrangeLayout 0 G.dim) := by
  cases hL with
  | lagrange => rfl
  | dg => exact size_same h

/-! ## Properties -/

/-- **C107: indices.** Each element has exactly one index, different elements have different ones, and `dimension()` is the number of elements. -/
theorem C107_index {G : LGrid E S α} (h : G.OK) {keys : E → List Key} (hk : LagrangeKeys G 0 keys) {L : Leaf E} (hL : ConstLeaf G keys L) :
    ∃ ix : E → Nat, (∀ e, L.loc e = [ix e]) ∧ Function.Injective ix ∧ ∀ i, i < L.dim ↔ ∃ e, ix e = i := by
  have hlay : ∀ e, 0 < lagrangeLayout 0 G.dim (G.geo (G.sub e 0 0)) := fun e => by
    rw [elem_geo (std h) e]
    simp [lagrangeLayout, (h.base.elemMem e).2]
  refine ⟨fun e => mapperIndex G.toGridView (lagrangeLayout 0 G.dim) (G.sub e 0 0), const_loc h hk hL, fun e e' he => ?_, fun i => ?_⟩
  · exact h.elemInj _ _ ((mapper_inj h.base (lagrangeLayout 0 G.dim) _ _ 0 0 (hlay e) (hlay e')).1 (by simpa using he)).1
  · rw [const_dim h hL]
    constructor
    · intro hi
      obtain ⟨e, k, hv, hn⟩ := lagrange_covered h 0 (fun _ => by omega) i hi
      have hl := lagrange_loc h hk e
      rw [(constant_key h).1 hv] at hn
      simp only [lagrangeLeaf, keys_eq h hk, List.map_cons, List.map_nil, hn, Option.getD_some, List.cons.injEq, and_true] at hl
      exact ⟨e, hl.symm⟩
    · rintro ⟨e, rfl⟩
      exact mapper_lt h.base (lagrangeLayout 0 G.dim) (G.sub e 0 0) 0 (hlay e)

/-- **C107: two bases.** The continuous and the discontinuous Lagrange basis of order 0 have the same dimension and the same indices on each element: coefficient vectors can be exchanged. -/
theorem C107_same {G : LGrid E S α} (h : G.OK) {keys : E → List Key} (hk : LagrangeKeys G 0 keys) {L L' : Leaf E} (hL : ConstLeaf G keys L) (hL' : ConstLeaf G keys L') :
    L.dim = L'.dim ∧ ∀ e, L.loc e = L'.loc e := ⟨by rw [const_dim h hL, const_dim h hL'], fun e => by rw [const_loc h hk hL, const_loc h hk hL']⟩

/-- Both bases satisfy the assumptions of the theorems on index trees. -/
theorem const_WF {G : LGrid E S α} (h : G.OK) {keys : E → List Key} (hk : LagrangeKeys G 0 keys) {L : Leaf E} (hL : ConstLeaf G keys L) : (PB.leaf L).WF := by
  obtain ⟨ix, h1, -, h3⟩ := C107_index h hk hL
  rw [PB.WF]
  refine ⟨fun e i hi => ?_, fun e => ?_⟩
  · rw [h1, List.mem_singleton] at hi
    exact (h3 i).2 ⟨e, hi.symm⟩
  · cases hL with
    | lagrange => simp [lagrangeLeaf, keys_eq h hk]
    | dg =>
      refine (C25_dg (std h) 0 _ fun e => ?_).2.2 e
      simp [keys_eq h hk, localDim]

/-- **C107: space.** A function is a function of the basis if and only if it is constant on each element; no continuity is required. -/
theorem C107_space [Field K] [Inhabited X] {G : LGrid E S α} (h : G.OK) {keys : E → List Key} (hk : LagrangeKeys G 0 keys) {L : Leaf E} (hL : ConstLeaf G keys L) (f : E → X → K) :
    (∃ vec : Nat → K, ∀ e x, f e x = constValue L vec e) ↔ ∀ e x y, f e x = f e y := by
  obtain ⟨ix, h1, h2, -⟩ := C107_index h hk hL
  constructor
  · rintro ⟨vec, hv⟩ e x y
    rw [hv, hv]
  · intro hc
    refine ⟨fun i => open Classical in if hi : ∃ e, ix e = i then f hi.choose default else 0, fun e x => ?_⟩
    have he : ∃ e', ix e' = ix e := ⟨e, rfl⟩
    simp only [constValue, h1, List.map_cons, List.map_nil, List.zip_cons_cons, List.zip_nil_right, List.foldl_cons, List.foldl_nil, mul_one, zero_add, dif_pos he]
    rw [h2 he.choose_spec]
    exact hc _ _ _

/-- **C107: coefficients.** The coefficients are the values on the elements. In particular they are unique. -/
theorem C107_unique [Field K] {G : LGrid E S α} (h : G.OK) {keys : E → List Key} (hk : LagrangeKeys G 0 keys) {L : Leaf E} (hL : ConstLeaf G keys L) :
    (∀ (vec : Nat → K) (e : E), ∀ i ∈ L.loc e, constValue L vec e = vec i) ∧
      ∀ vec vec' : Nat → K, (∀ e, constValue L vec e = constValue L vec' e) → ∀ i < L.dim, vec i = vec' i := by
  obtain ⟨ix, h1, -, h3⟩ := C107_index h hk hL
  have hv : ∀ (vec : Nat → K) (e : E), constValue L vec e = vec (ix e) := fun vec e => by simp [constValue, h1]
  refine ⟨fun vec e i hi => ?_, fun vec vec' heq i hi => ?_⟩
  · rw [h1, List.mem_singleton] at hi
    rw [hv, hi]
  · obtain ⟨e, rfl⟩ := (h3 i).1 hi
    rw [← hv vec, ← hv vec', heq]

/-- **C107: interpolation.** After interpolation on the elements `es`, in any order, the value on each of them is the one of the function in the interpolation point, and nothing changed on other elements.
In particular, interpolation reproduces functions that are constant on each element. -/
theorem C107_interpolate {G : LGrid E S α} (h : G.OK) {keys : E → List Key} (hk : LagrangeKeys G 0 keys) {L : Leaf E} (hL : ConstLeaf G keys L) (center : E → X) (f : E → X → ℝ)
    (vec : Nat → ℝ) (es : List E) :
    ∃ r, constInterpolate L center f vec es = some r ∧ (∀ e ∈ es, constValue L r e = f e (center e)) ∧ ∀ e, e ∉ es → constValue L r e = constValue L vec e := by
  obtain ⟨ix, h1, h2, -⟩ := C107_index h hk hL
  have hv : ∀ (vec : Nat → ℝ) (e : E), constValue L vec e = vec (ix e) := fun vec e => by simp [constValue, h1]
  have hget : ∀ (e : E) (l i : Nat), (L.loc e)[l]? = some i ↔ l = 0 ∧ ix e = i := by
    intro e l i
    rw [h1]
    cases l <;> simp
  obtain ⟨r, r1, r2, r3⟩ := Verif.FE.Interpolation.interpolateAll_spec (loc := L.loc) (c := fun e => [f e (center e)]) (fun _ _ => rfl) (by intro e; simp [h1]) (by
      intro e e' l l' i x x' hl hl' hx hx'
      obtain ⟨rfl, g1⟩ := (hget _ _ _).1 hl
      obtain ⟨rfl, g2⟩ := (hget _ _ _).1 hl'
      obtain rfl := h2 (g1.trans g2.symm)
      rw [hx] at hx'
      exact Option.some.inj hx') vec es
  refine ⟨r, r1, fun e he => ?_, fun e he => ?_⟩
  · rw [hv]
    exact r2 e he 0 _ _ ((hget _ _ _).2 ⟨rfl, rfl⟩) rfl
  · rw [hv, hv]
    refine r3 _ fun e' he' hm => ?_
    rw [h1, List.mem_singleton] at hm
    exact he (h2 hm ▸ he')

/-! ## Examples -/

theorem demo_keys : LagrangeKeys mixedGrid 0 fun e => gridKeys mixedGrid 0 (mixedGrid.elemGeo e) := gridKeys_keys mixedGrid_OK 0

/-- A function that jumps between the quadrilateral and the triangle is a function of the Lagrange basis of order 0. -/
example : ∃ vec : Nat → ℚ, ∀ (e : Fin 2) (_ : Piola.Vec ℚ 2), (if e = 0 then 7 else 3) =
    constValue (lagrangeLeaf mixedGrid 0 fun e => gridKeys mixedGrid 0 (mixedGrid.elemGeo e)) vec e :=
  (C107_space mixedGrid_OK demo_keys .lagrange fun e _ => if e = 0 then 7 else 3).2 fun _ _ _ => rfl

/-- The coordinate is not. -/
example : ¬ ∃ vec : Nat → ℚ, ∀ (e : Fin 2) (x : Piola.Vec ℚ 2), x 0 = constValue (lagrangeLeaf mixedGrid 0 fun e => gridKeys mixedGrid 0 (mixedGrid.elemGeo e)) vec e := by
  intro hv
  have := (C107_space mixedGrid_OK demo_keys .lagrange fun _ (x : Piola.Vec ℚ 2) => x 0).1 hv 0 0 1
  simp at this

/-- The order of the elements is the one of the mapper: first the elements of the first type. -/
example : (List.finRange 2).map (lagrangeLeaf mixedGrid 0 fun e => gridKeys mixedGrid 0 (mixedGrid.elemGeo e)).loc =
    (List.finRange 2).map (dgLeaf mixedGrid.toGridView 0 fun e => (gridKeys mixedGrid 0 (mixedGrid.elemGeo e)).length).loc ∧
    (lagrangeLeaf mixedGrid 0 fun e => gridKeys mixedGrid 0 (mixedGrid.elemGeo e)).dim = 2 := by decide +kernel

end Verif.Lagrange.Constant
