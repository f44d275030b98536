import Verif.Lagrange.Leaf

/-!
# Discontinuous, refined and hierarchical Lagrange bases

Model of lagrangedgbasis.hh, refinedlagrangebasis.hh, hierarchicallagrangebasis.hh,
hierarchicallagrangewithelementbubblebasis.hh and rannacherturekbasis.hh: layouts and index computation.
-/

namespace Verif.Lagrange

open Mapper

variable {E S : Type}

/-- Grids with the standard reference elements; different elements are different entities. -/
structure StdGrid (G : GridView E S) : Prop where
  base : G.OK
  std : ∀ e c, G.refSubs (G.elemGeo e) c = stdSubs (G.elemGeo e) c
  type : ∀ e, G.elemGeo e ∈ elemTypes
  elemInj : ∀ e e', G.sub e 0 0 = G.sub e' 0 0 → e = e'

/-! ## LagrangeDG -/

/-- `dofLayout`, lagrangedgbasis.hh:56-79. -/
def dgLayout (order dim : Nat) : Layout := fun t =>
  if t.dim = dim then
    if t = ⟨1, 2⟩ then order + 1
    else if t = ⟨2, 3⟩ then (order + 1) * (order + 2) / 2
    else if t = ⟨2, 4⟩ then (order + 1) * (order + 1)
    else if t = ⟨3, 4⟩ then (order + 1) * (order + 2) * (order + 3) / 6
    else if t = ⟨3, 6⟩ then (order + 1) * (order + 1) * (order + 2) / 2
    else if t = ⟨3, 8⟩ then (order + 1) * (order + 1) * (order + 1)
    else if t = ⟨3, 5⟩ then (order + 1) * (order + 2) * (2 * order + 3) / 6
    else 0
  else 0

/-- `LagrangeDGPreBasis`: `indices`, lagrangedgbasis.hh:120-130; the other members come from the mapper mixin.
`nodeSize e` is `node.size()`, the size of the local finite element. -/
def dgLeaf (G : GridView E S) (order : Nat) (nodeSize : E → Nat) : IndexTree.Leaf E where
  dim := mapperSize G (dgLayout order G.dim)
  maxN := maxNodeSize G (dgLayout order G.dim)
  loc := fun e => (List.range (nodeSize e)).map fun i => mapperIndex G (dgLayout order G.dim) (G.sub e 0 0) + i

theorem dgLayout_elem (order : Nat) : ∀ t ∈ elemTypes, dgLayout order t.dim t = localDim order t := by
  simp only [elemTypes, List.forall_mem_cons]
  refine ⟨?_, ?_, ?_, ?_, ?_, ?_, ?_, by simp⟩ <;> simp only [dgLayout, localDim] <;> by_cases h : order = 0 <;>
    simp [h, Nat.pow_succ]

theorem dgLayout_low (order : Nat) : ∀ t ∈ elemTypes, ∀ c, c ≠ 0 → c ≤ t.dim → ∀ u ∈ stdSubs t c, dgLayout order t.dim u = 0 := by
  intro t ht c h0 hc u hu
  have hd : u.dim ≠ t.dim := by
    simp only [stdSubs, List.mem_map] at hu
    obtain ⟨v, -, rfl⟩ := hu
    have := (refOf_table t ht).1
    have := (refOf_table t ht).2.2.1
    simp only
    omega
  simp [dgLayout, hd]

theorem stdSubs_elem : ∀ t ∈ elemTypes, (stdSubs t 0)[0]? = some t := by decide

theorem elem_geo {G : GridView E S} (h : StdGrid G) (e : E) : G.geo (G.sub e 0 0) = G.elemGeo e :=
  h.base.subGeo e 0 0 _ (by rw [h.std]; exact stdSubs_elem _ (h.type e))

theorem dg_lay {G : GridView E S} (h : StdGrid G) (order : Nat) (e : E) :
    dgLayout order G.dim (G.geo (G.sub e 0 0)) = localDim order (G.elemGeo e) := by
  rw [elem_geo h, ← (h.base.elemMem e).2, dgLayout_elem order _ (h.type e)]

/-- C25. Every element gets `localDim` consecutive indices; an index below `dimension()` belongs to exactly one
element (and one local function of it); indices stay below `dimension()`. The only assumption on
the local finite element is that it spans the local space of order `order`. -/
theorem C25_dg {G : GridView E S} (h : StdGrid G) (order : Nat) (nodeSize : E → Nat)
    (hn : ∀ e, nodeSize e = localDim order (G.elemGeo e)) :
    (∀ e, ∃ o, (dgLeaf G order nodeSize).loc e = List.range' o (localDim order (G.elemGeo e)) ∧
      o + localDim order (G.elemGeo e) ≤ (dgLeaf G order nodeSize).dim) ∧
    (∀ n < (dgLeaf G order nodeSize).dim, ∃ e, n ∈ (dgLeaf G order nodeSize).loc e ∧
      ∀ e', n ∈ (dgLeaf G order nodeSize).loc e' → e' = e) ∧
    (∀ e, ((dgLeaf G order nodeSize).loc e).length ≤ (dgLeaf G order nodeSize).maxN) := by
  have hpos : ∀ e, 0 < localDim order (G.elemGeo e) := by
    intro e
    have : ∀ t ∈ elemTypes, 0 < localDim order t := by
      intro t ht
      rw [localDim]
      have a1 : 2 ≤ (order + 1) * (order + 2) := by nlinarith
      have a2 : 6 ≤ (order + 1) * (order + 2) * (order + 3) := by nlinarith
      have a3 : 6 ≤ (order + 1) * (order + 2) * (2 * order + 3) := by nlinarith
      have a4 : 2 ≤ (order + 1) ^ 2 * (order + 2) := by nlinarith
      repeat' split
      · omega
      · omega
      · omega
      · positivity
      · omega
      · omega
      · omega
      · positivity
    exact this _ (h.type e)
  refine ⟨?_, ?_, ?_⟩
  · intro e
    refine ⟨mapperIndex G (dgLayout order G.dim) (G.sub e 0 0), ?_, ?_⟩
    · simp only [dgLeaf, hn, List.range'_eq_map_range]
    · have := mapper_lt h.base (dgLayout order G.dim) (G.sub e 0 0) (localDim order (G.elemGeo e) - 1)
        (by rw [dg_lay h]; have := hpos e; omega)
      have := hpos e
      simp only [dgLeaf]
      omega
  · intro n hlt
    obtain ⟨s, j, hj, rfl⟩ := mapper_surj h.base _ n hlt
    obtain ⟨e, c, i, hc, hi, rfl⟩ := h.base.subSurj s
    rw [h.std] at hi
    have hg := h.base.subGeo e c i _ (by rw [h.std]; exact List.getElem?_eq_getElem hi)
    have hc0 : c = 0 := by
      by_contra h0
      have hz := dgLayout_low order _ (h.type e) c h0 (by rw [(h.base.elemMem e).2]; exact hc) _ (List.getElem_mem hi)
      rw [(h.base.elemMem e).2, ← hg] at hz
      omega
    subst hc0
    have hi0 : i = 0 := by
      have : (stdSubs (G.elemGeo e) 0).length = 1 := by simp [stdSubs, subVerts]
      omega
    subst hi0
    refine ⟨e, ?_, ?_⟩
    · simp only [dgLeaf, List.mem_map, List.mem_range]
      exact ⟨j, by rw [hn, ← dg_lay h]; exact hj, rfl⟩
    · intro e' he'
      simp only [dgLeaf, List.mem_map, List.mem_range] at he'
      obtain ⟨j', hj', heq⟩ := he'
      rw [hn, ← dg_lay h] at hj'
      exact h.elemInj _ _ ((mapper_inj h.base _ _ _ _ _ hj' hj).mp heq).1
  · intro e
    have hk : KeysOK G (dgLayout order G.dim) (fun e => (List.range (nodeSize e)).map fun j => ⟨0, 0, j⟩) := by
      refine ⟨fun e => List.Nodup.map_on (fun x _ y _ hxy => by simpa using hxy) List.nodup_range, ?_⟩
      intro e k hk
      simp only [List.mem_map, List.mem_range] at hk
      obtain ⟨j, hj, rfl⟩ := hk
      refine ⟨Nat.zero_le _, G.elemGeo e, by rw [h.std]; exact stdSubs_elem _ (h.type e), ?_⟩
      rw [hn, ← dg_lay h, elem_geo h] at hj
      exact hj
    have := keys_length_le h.base hk e
    simpa [dgLeaf] using this

theorem demoGrid_std : StdGrid demoGrid.toGridView := ⟨demoGrid_OK.base, demoGrid_OK.std, demoGrid_OK.type, demoGrid_OK.elemInj⟩

example : (dgLeaf demoGrid.toGridView 2 (fun _ => 6)).dim = 12 ∧
    (dgLeaf demoGrid.toGridView 2 (fun _ => 6)).loc 1 = [6, 7, 8, 9, 10, 11] := by decide

/-! ## Layouts of the refined and hierarchical bases

These bases use the mapper mixin without changes (`mapperLeaf`); what has to be right is that the layout
distributes as many DOFs as the local space has. -/

/-- refinedlagrangebasis.hh:55-70, `k = 0, 1`. -/
def refinedLayout (k dim : Nat) : Layout := fun t =>
  if k = 0 then (if t.dim = dim then 1 <<< dim else 0) else Nat.choose k t.dim

/-- hierarchicallagrangebasis.hh:52-60 and 70-72. -/
def hierarchicalLayout (k _dim : Nat) : Layout := fun t =>
  if k = 1 then (if t.dim = 0 then 1 else 0) else if t.dim = 0 ∨ t.dim = 1 then 1 else 0

/-- hierarchicallagrangewithelementbubblebasis.hh:49-51 and 67-69. -/
def bubbleLayout (k dim : Nat) : Layout := fun t =>
  if k = 1 then (if t.dim = 0 ∨ t.dim = dim then 1 else 0) else if t.dim ≤ 1 ∨ t.dim = dim then 1 else 0

/-- DOFs on a `d`-simplex: it has `(d+1 choose j+1)` sub-entities of dimension `j`. -/
def simplexSum (lay : Layout) (d : Nat) : Nat := ∑ j ∈ Finset.range (d + 1), (d + 1).choose (j + 1) * lay ⟨j, j + 1⟩

theorem sum_two (d : Nat) (f : Nat → Nat) (h : ∀ j, 2 ≤ j → j ≤ d → f j = 0) (hd : 1 ≤ d) :
    ∑ j ∈ Finset.range (d + 1), f j = f 0 + f 1 := by
  obtain ⟨d, rfl⟩ : ∃ n, d = n + 1 := ⟨d - 1, by omega⟩
  clear hd
  induction d with
  | zero => simp [Finset.sum_range_succ]
  | succ d ih => 
    rw [Finset.sum_range_succ, ih fun j h1 h2 => h j h1 (by omega), h (d + 1 + 1) (by omega) (by omega), Nat.add_zero]

/-- C57. In all dimensions `d ≥ 1`: the refined P0 layout has `2^d` DOFs per simplex (one per sub-simplex), the refined P1 and the
hierarchical P2 layout as many as there are quadratic polynomials, the hierarchical P1 layout as many as linear
polynomials, and the bubble layouts (for `d ≥ 2`) one more than these. -/
theorem C57_layouts (d : Nat) (hd : 1 ≤ d) :
    simplexSum (refinedLayout 0 d) d = 2 ^ d ∧ simplexSum (refinedLayout 1 d) d = (d + 2).choose d ∧
    simplexSum (hierarchicalLayout 1 d) d = (d + 1).choose d ∧ simplexSum (hierarchicalLayout 2 d) d = (d + 2).choose d ∧
    simplexSum (bubbleLayout 1 d) d = (d + 1).choose d + 1 ∧
    (2 ≤ d → simplexSum (bubbleLayout 2 d) d = (d + 2).choose d + 1) := by
  have hq : (d + 2).choose d = (d + 1) + (d + 1).choose 2 := by
    rw [Nat.choose_symm_of_eq_add (show d + 2 = d + 2 from rfl), Nat.choose_succ_succ' (d + 1) 1, Nat.choose_one_right]
  have hl : (d + 1).choose d = d + 1 := by
    rw [Nat.choose_symm_of_eq_add (show d + 1 = d + 1 from rfl), Nat.choose_one_right]
  have h2 : ∀ lay : Layout, (∀ j, 2 ≤ j → lay ⟨j, j + 1⟩ = 0) →
      simplexSum lay d = (d + 1) * lay ⟨0, 1⟩ + (d + 1).choose 2 * lay ⟨1, 2⟩ := by
    intro lay hlay
    rw [simplexSum, sum_two d _ (fun j hj _ => by rw [hlay j hj, Nat.mul_zero]) hd]
    simp
  have htop : ∀ lay : Layout, simplexSum lay d =
      (∑ j ∈ Finset.range d, (d + 1).choose (j + 1) * lay ⟨j, j + 1⟩) + lay ⟨d, d + 1⟩ := by
    intro lay; rw [simplexSum, Finset.sum_range_succ]; simp
  refine ⟨?_, ?_, ?_, ?_, ?_, ?_⟩
  · rw [htop, Finset.sum_eq_zero]
    · simp [refinedLayout, Nat.shiftLeft_eq]
    · intro j hj
      rw [Finset.mem_range] at hj
      simp [refinedLayout, show j ≠ d by omega]
  · rw [h2 _ (fun j hj => by simp [refinedLayout, Nat.choose_eq_zero_of_lt (show 1 < j by omega)]), hq]
    simp [refinedLayout]
  · rw [h2 _ (fun j hj => by simp [hierarchicalLayout, show j ≠ 0 by omega]), hl]
    simp [hierarchicalLayout]
  · rw [h2 _ (fun j hj => by simp [hierarchicalLayout, show j ≠ 0 by omega, show j ≠ 1 by omega]), hq]
    simp [hierarchicalLayout]
  · rw [htop, hl]
    obtain ⟨d, rfl⟩ : ∃ n, d = n + 1 := ⟨d - 1, by omega⟩
    rw [Finset.sum_range_succ', Finset.sum_eq_zero]
    · simp [bubbleLayout]
    · intro j hj
      rw [Finset.mem_range] at hj
      simp [bubbleLayout, show j ≠ d by omega]
  · intro hd2
    rw [htop, hq]
    obtain ⟨d, rfl⟩ : ∃ n, d = n + 1 := ⟨d - 1, by omega⟩
    rw [sum_two d _ ?_ (by omega)]
    · simp [bubbleLayout]
    · intro j hj hj'
      simp [bubbleLayout, show ¬ j ≤ 1 by omega, show j ≠ d + 1 by omega]

/-- The bound `2 ≤ d` is needed: in 1d edge and element coincide and the bubble gets no DOF of its own. -/
theorem C57_bubble_1d : simplexSum (bubbleLayout 2 1) 1 = (1 + 2).choose 1 := by decide

example : simplexSum (bubbleLayout 2 3) 3 = 11 := by decide

/-! ## Rannacher–Turek and Crouzeix–Raviart -/

/-- Constructor check, rannacherturekbasis.hh:75-79: only simplex and cube elements. -/
def rtAccept (G : GridView E S) : Bool :=
  (G.types.filter fun t => t.dim = G.dim).all fun t => t.nv = t.dim + 1 || t.nv = 2 ^ t.dim

/-- `RannacherTurekPreBasis`: `dimension` 106-109, `maxNodeSize` 112-115, `indices` 117-129. `facets e`: the facet numbers
(`localKey(i).subEntity()`) of the local functions. -/
def rtLeaf (G : GridView E S) (facets : E → List Nat) : IndexTree.Leaf E where
  dim := ((G.types.filter fun t => t.dim + 1 = G.dim).map G.gsize).sum
  maxN := 2 * G.dim
  loc := fun e => (facets e).map fun i => G.idx (G.sub e 1 i)

/-- The layout of one DOF per facet. -/
def facetLayout (dim : Nat) : Layout := fun t => if t.dim + 1 = dim then 1 else 0

/-- C58 where it holds: if all facets of the grid have the same type, the index is the one of a mapper with one DOF
per facet. -/
theorem C58_partial {G : GridView E S} (h : StdGrid G) (hd : 1 ≤ G.dim) (facets : E → List Nat)
    (hf : ∀ e, ∀ i ∈ facets e, i < (stdSubs (G.elemGeo e) 1).length)
    (hone : ∀ t ∈ G.types, ∀ t' ∈ G.types, t.dim + 1 = G.dim → t'.dim + 1 = G.dim → t = t') :
    (rtLeaf G facets).dim = (mapperLeaf G (facetLayout G.dim) fun e => (facets e).map fun i => ⟨i, 1, 0⟩).dim ∧
    ∀ e, (rtLeaf G facets).loc e =
      (mapperLeaf G (facetLayout G.dim) fun e => (facets e).map fun i => ⟨i, 1, 0⟩).loc e := by
  have hsum : ∀ ts : List Geo, ((ts.filter fun t => t.dim + 1 = G.dim).map G.gsize).sum =
      (ts.map fun t => G.gsize t * facetLayout G.dim t).sum := by
    intro ts
    induction ts with
    | nil => rfl
    | cons t ts ih =>
      by_cases ht : t.dim + 1 = G.dim
      · simp [ht, ih, facetLayout]
      · simp [ht, ih, facetLayout]
  refine ⟨hsum _, ?_⟩
  intro e
  simp only [rtLeaf, mapperLeaf, List.map_map]
  apply List.map_congr_left
  intro i hi
  have hlt := hf e i hi
  have hg := h.base.subGeo e 1 i _ (by rw [h.std]; exact List.getElem?_eq_getElem hlt)
  have hdim : (G.geo (G.sub e 1 i)).dim + 1 = G.dim := by
    rw [hg]
    simp only [stdSubs, List.getElem_map]
    rw [(refOf_table _ (h.type e)).1, (h.base.elemMem e).2]
    omega
  simp only [Function.comp, mapperIndex, facetLayout, if_pos hdim, Nat.mul_one, Nat.add_zero]
  rw [offset_zero, Nat.zero_add]
  intro u hu hne
  by_cases hud : u.dim + 1 = G.dim
  · exact absurd (hone u hu _ (h.base.geoMem _) hud hdim) hne
  · simp [facetLayout, hud]

/-- C58, `maxNodeSize()`: an accepted element has at most `2·dim` facets. -/
theorem C58_maxNodeSize {G : GridView E S} (h : StdGrid G) (ha : rtAccept G = true) (e : E) :
    (stdSubs (G.elemGeo e) 1).length ≤ 2 * G.dim := by
  have hm := h.base.elemMem e
  simp only [rtAccept, List.all_eq_true, List.mem_filter, decide_eq_true_eq, Bool.or_eq_true] at ha
  have := ha _ ⟨hm.1, hm.2⟩
  rw [← hm.2]
  have ht := h.type e
  revert this ht
  generalize G.elemGeo e = t
  intro this ht
  simp only [elemTypes, List.mem_cons, List.not_mem_nil, or_false] at ht
  rcases ht with rfl | rfl | rfl | rfl | rfl | rfl | rfl <;> revert this <;> decide

/-- A grid consisting of a tetrahedron (element 0) and a hexahedron (element 1) that do not share a facet.
Entities: tetrahedron 0, its facets 1–4, edges 5–10, vertices 11–14; hexahedron 15, its facets 16–21, edges 22–33,
vertices 34–41. -/
def tetHex : GridView (Fin 2) (Fin 42) where
  dim := 3
  types := [⟨0, 1⟩, ⟨1, 2⟩, ⟨2, 3⟩, ⟨2, 4⟩, ⟨3, 4⟩, ⟨3, 8⟩]
  gsize := fun t => if t = ⟨0, 1⟩ then 12 else if t = ⟨1, 2⟩ then 18 else if t = ⟨2, 3⟩ then 4
    else if t = ⟨2, 4⟩ then 6 else if t = ⟨3, 4⟩ then 1 else if t = ⟨3, 8⟩ then 1 else 0
  geo := fun s => if s.1 < 1 then ⟨3, 4⟩ else if s.1 < 5 then ⟨2, 3⟩ else if s.1 < 11 then ⟨1, 2⟩ else if s.1 < 15 then ⟨0, 1⟩
    else if s.1 < 16 then ⟨3, 8⟩ else if s.1 < 22 then ⟨2, 4⟩ else if s.1 < 34 then ⟨1, 2⟩ else ⟨0, 1⟩
  idx := fun s => if s.1 < 1 then 0 else if s.1 < 5 then s.1 - 1 else if s.1 < 11 then s.1 - 5 else if s.1 < 15 then s.1 - 11
    else if s.1 < 16 then 0 else if s.1 < 22 then s.1 - 16 else if s.1 < 34 then s.1 - 22 + 6 else s.1 - 34 + 4
  refSubs := stdSubs
  elemGeo := fun e => if e = 0 then ⟨3, 4⟩ else ⟨3, 8⟩
  sub := fun e c i => Fin.ofNat 42 (i +
    if e = 0 then (if c = 0 then 0 else if c = 1 then 1 else if c = 2 then 5 else 11)
    else (if c = 0 then 15 else if c = 1 then 16 else if c = 2 then 22 else 34))

theorem tetHex_bound (e : Fin 2) {c i : Nat} (h : i < (stdSubs (tetHex.elemGeo e) c).length) : c < 4 ∧ i < 12 := by
  by_cases hc : c < 4
  · refine ⟨hc, lt_of_lt_of_le h ?_⟩
    have : ∀ e : Fin 2, ∀ c < 4, (stdSubs (tetHex.elemGeo e) c).length ≤ 12 := by decide
    exact this e c hc
  · have : ∀ e : Fin 2, subVerts (refOf (tetHex.elemGeo e)) c = [] := by
      have h3 : ∀ e : Fin 2, (refOf (tetHex.elemGeo e)).dim = 3 := by decide
      intro e
      rw [subVerts, h3, if_neg (by omega), if_neg (by omega), if_neg (by omega), if_neg (by omega)]
    simp [stdSubs, this e] at h

theorem tetHex_std : StdGrid tetHex where
  base := {
    typesNodup := by decide
    geoMem := by decide +kernel
    idxLt := by decide +kernel
    idxInj := by decide +kernel
    idxSurj := by decide +kernel
    subGeo := by
      intro e c i t h
      have hb := tetHex_bound e (List.getElem?_eq_some_iff.mp h).1
      have : ∀ e : Fin 2, ∀ c < 4, ∀ i < 12, ∀ t ∈ (stdSubs (tetHex.elemGeo e) c)[i]?, tetHex.geo (tetHex.sub e c i) = t := by
        decide +kernel
      exact this e c hb.1 i hb.2 t h
    subInj := by
      intro e c i c' i' h h'
      have hb := tetHex_bound e h
      have hb' := tetHex_bound e h'
      have : ∀ e : Fin 2, ∀ c c' : Fin 4, ∀ i i' : Fin 12, i.1 < (stdSubs (tetHex.elemGeo e) c).length →
          i'.1 < (stdSubs (tetHex.elemGeo e) c').length →
          tetHex.sub e c i = tetHex.sub e c' i' → c.1 = c'.1 ∧ i.1 = i'.1 := by decide +kernel
      exact this e ⟨c, hb.1⟩ ⟨c', hb'.1⟩ ⟨i, hb.2⟩ ⟨i', hb'.2⟩ h h'
    subSurj := by
      have : ∀ s : Fin 42, ∃ e : Fin 2, ∃ c : Fin 4, ∃ i : Fin 12, i.1 < (stdSubs (tetHex.elemGeo e) c).length ∧ tetHex.sub e c i = s := by
        decide +kernel
      intro s
      obtain ⟨e, c, i, hi, hs⟩ := this s
      exact ⟨e, c, i, Nat.lt_succ_iff.mp c.2, hi, hs⟩
    elemMem := by decide }
  std := fun _ _ => rfl
  type := by decide
  elemInj := by decide

/-- C58 is false for 3d grids with both tetrahedra and hexahedra, which the constructor accepts: a facet of the
tetrahedron and a facet of the hexahedron get the same index, and index 6 (of 10) is never used. The index set numbers
triangles and quadrilaterals separately. -/
theorem C58_false : rtAccept tetHex = true ∧
    (let L := rtLeaf tetHex fun e => List.range (stdSubs (tetHex.elemGeo e) 1).length
     tetHex.sub 0 1 0 ≠ tetHex.sub 1 1 0 ∧ (L.loc 0)[0]? = (L.loc 1)[0]? ∧ (L.loc 0)[0]? = some 0 ∧
     L.dim = 10 ∧ ∀ e, 6 ∉ L.loc e) := by
  decide +kernel

example : (rtLeaf demoGrid.toGridView fun _ => [0, 1, 2]).loc 1 = [3, 4, 2] ∧
    (rtLeaf demoGrid.toGridView fun _ => [0, 1, 2]).dim = 5 := by decide

end Verif.Lagrange
