import Verif.Lagrange.Basis

/-!
# The Lagrange basis as a leaf of the index tree theory

Constructor checks, sizes and indices of `LagrangePreBasis` together. The local finite element
(dune-localfunctions) enters through its local keys only: each number of the layout is used exactly once.
-/

namespace Verif.Lagrange

open Mapper

variable {E S α : Type} [LinearOrder α]

/-- Checks of the constructor, lagrangebasis.hh:788-797 (`true`: no exception). -/
def lagrangeAccept (G : GridView E S) (order : Nat) : Bool :=
  !(decide (order > 2) && decide (G.gsize ⟨3, 5⟩ > 0)) && !(decide (order > 2) && decide (G.gsize ⟨3, 6⟩ > 0)) &&
  !(decide (G.dim = 3) && decide (order > 17))

/-- `LagrangePreBasis`: `dimension()` (830-833), `maxNodeSize()` (836-841), `indices` (843-873), lagrangebasis.hh. An index whose
computation is undefined is represented by a number out of range. -/
def lagrangeLeaf (G : LGrid E S α) (order : Nat) (keys : E → List Key) : IndexTree.Leaf E where
  dim := mapperSize G.toGridView (lagrangeLayout order G.dim)
  maxN := (order + 1) ^ G.dim
  loc := fun e => (keys e).map fun k =>
    (lagrangeIndex G order e k).getD (mapperSize G.toGridView (lagrangeLayout order G.dim))

/-- Local keys of the Lagrange finite elements: each valid key exactly once. -/
structure LagrangeKeys (G : LGrid E S α) (order : Nat) (keys : E → List Key) : Prop where
  nodup : ∀ e, (keys e).Nodup
  mem : ∀ e k, k ∈ keys e ↔ ValidKey G order e k

omit [LinearOrder α] in
theorem accept_bounds {G : LGrid E S α} (h : G.OK) {order : Nat} (ha : lagrangeAccept G.toGridView order = true) :
    (G.dim = 3 → order ≤ 17) ∧ ∀ e, (G.elemGeo e = ⟨3, 5⟩ ∨ G.elemGeo e = ⟨3, 6⟩) → order ≤ 2 := by
  simp only [lagrangeAccept, Bool.and_eq_true, Bool.not_eq_true', Bool.and_eq_false_iff, decide_eq_false_iff_not] at ha
  refine ⟨fun h3 => by rcases ha.2 with h | h <;> omega, ?_⟩
  intro e he
  have h0 := h.base.subGeo e 0 0 (G.elemGeo e) (by
    rw [h.std]
    have : ∀ t ∈ elemTypes, (stdSubs t 0)[0]? = some t := by decide
    exact this _ (h.type e))
  have hlt := h.base.idxLt (G.sub e 0 0)
  rw [h0] at hlt
  rcases he with he | he <;> rw [he] at hlt
  · rcases ha.1.1 with h | h <;> omega
  · rcases ha.1.2 with h | h <;> omega

/-- C24, local sizes: an accepted Lagrange basis has on each element as many local DOFs as the local space has
dimensions, and never more than `maxNodeSize()`. -/
theorem C24_leaf {G : LGrid E S α} (h : G.OK) {order : Nat} (ha : lagrangeAccept G.toGridView order = true)
    {keys : E → List Key} (hk : LagrangeKeys G order keys) (e : E) :
    ((lagrangeLeaf G order keys).loc e).length = localDim order (G.elemGeo e) ∧
    ((lagrangeLeaf G order keys).loc e).length ≤ (lagrangeLeaf G order keys).maxN := by
  obtain ⟨-, hpy⟩ := accept_bounds h ha
  have hd := (h.base.elemMem e).2
  have hlen : (keys e).length = layoutSum (lagrangeLayout order G.dim) (G.elemGeo e) := by
    have hp : (keys e).Perm (allKeys G.toGridView (lagrangeLayout order G.dim) (G.elemGeo e)) := by
      refine (List.perm_ext_iff_of_nodup (hk.nodup e) (allKeys_nodup _ _ _)).mpr ?_
      intro k
      rw [hk.mem, mem_allKeys, ValidKey, h.std]
    rw [hp.length_eq, allKeys_length, layoutSum, hd]
    simp only [h.std]
  have hl : ((lagrangeLeaf G order keys).loc e).length = localDim order (G.elemGeo e) := by
    rw [lagrangeLeaf]
    simp only [List.length_map]
    rw [hlen, ← C24_counts order _ (h.type e) (fun h35 => hpy e (Or.inl h35)), hd]
  refine ⟨hl, ?_⟩
  rw [hl]
  have := C24_maxNodeSize order _ (h.type e) (fun h35 => hpy e (Or.inl h35))
  rw [hd] at this
  exact this

/-- The Lagrange basis satisfies the assumptions of the index tree theorems (C01–C12). -/
theorem lagrangeLeaf_WF {G : LGrid E S α} (h : G.OK) {order : Nat} (ha : lagrangeAccept G.toGridView order = true)
    {keys : E → List Key} (hk : LagrangeKeys G order keys) : (IndexTree.PB.leaf (lagrangeLeaf G order keys)).WF := by
  obtain ⟨h17, -⟩ := accept_bounds h ha
  rw [IndexTree.PB.WF]
  constructor
  · intro e i hi
    simp only [lagrangeLeaf, List.mem_map] at hi ⊢
    obtain ⟨k, hke, rfl⟩ := hi
    have hv := (hk.mem e k).mp hke
    obtain ⟨n, n', h1, -, hlt, -⟩ := C20_C22_conformity h order h17 e k e k hv hv
    rw [h1]; exact hlt
  · intro e
    exact (C24_leaf h ha hk e).2

/-- Each index is used. -/
theorem lagrangeLeaf_Covered {G : LGrid E S α} (h : G.OK) {order : Nat} (ha : lagrangeAccept G.toGridView order = true)
    {keys : E → List Key} (hk : LagrangeKeys G order keys) :
    (IndexTree.PB.leaf (lagrangeLeaf G order keys)).Covered (fun _ => True) := by
  obtain ⟨h17, -⟩ := accept_bounds h ha
  rw [IndexTree.PB.Covered]
  intro n hn
  obtain ⟨e, k, hv, hi⟩ := lagrange_covered h order h17 n hn
  refine ⟨e, trivial, ?_⟩
  simp only [lagrangeLeaf, List.mem_map]
  exact ⟨k, (hk.mem e k).mpr hv, by rw [hi]; rfl⟩

/-- Indices on one element are pairwise different. -/
theorem lagrangeLeaf_nodup {G : LGrid E S α} (h : G.OK) {order : Nat} (ha : lagrangeAccept G.toGridView order = true)
    {keys : E → List Key} (hk : LagrangeKeys G order keys) (e : E) : ((lagrangeLeaf G order keys).loc e).Nodup := by
  obtain ⟨h17, -⟩ := accept_bounds h ha
  simp only [lagrangeLeaf]
  refine List.Nodup.map_on ?_ (hk.nodup e)
  intro k hk1 k' hk2 heq
  have v1 := (hk.mem e k).mp hk1
  have v2 := (hk.mem e k').mp hk2
  obtain ⟨n, n', h1, h2, -, hiff⟩ := C20_C22_conformity h order h17 e k e k' v1 v2
  rw [h1, h2] at heq
  exact sameNode_self h order e k k' v1 v2 (hiff.mp heq)

/-! ## A concrete grid: two triangles `(10,20,40)` and `(30,40,20)` sharing an edge seen in opposite directions -/

/-- Entities: 0,1 elements; 2..6 edges; 7..10 vertices. -/
def demoGrid : LGrid (Fin 2) (Fin 11) Nat where
  dim := 2
  types := [⟨0, 1⟩, ⟨1, 2⟩, ⟨2, 3⟩]
  gsize := fun t => if t = ⟨0, 1⟩ then 4 else if t = ⟨1, 2⟩ then 5 else if t = ⟨2, 3⟩ then 2 else 0
  geo := fun s => if s.1 < 2 then ⟨2, 3⟩ else if s.1 < 7 then ⟨1, 2⟩ else ⟨0, 1⟩
  idx := fun s => if s.1 < 2 then s.1 else if s.1 < 7 then s.1 - 2 else s.1 - 7
  refSubs := stdSubs
  elemGeo := fun _ => ⟨2, 3⟩
  sub := fun e c i =>
    if e = 0 then
      (if c = 0 then 0 else if c = 1 then (if i = 0 then 2 else if i = 1 then 3 else 4)
       else (if i = 0 then 7 else if i = 1 then 8 else 10))
    else
      (if c = 0 then 1 else if c = 1 then (if i = 0 then 5 else if i = 1 then 6 else 4)
       else (if i = 0 then 9 else if i = 1 then 10 else 8))
  ids := fun e v => if e = 0 then (if v = 0 then 10 else if v = 1 then 20 else 40)
    else (if v = 0 then 30 else if v = 1 then 40 else 20)

theorem stdSubs_tri_large (c : Nat) (hc : 3 ≤ c) : stdSubs ⟨2, 3⟩ c = [] := by
  have : subVerts triangle c = [] := by
    rw [subVerts, if_neg (by omega), if_neg (by simp [triangle]; omega), if_neg (by simp [triangle]; omega),
      if_neg (by simp [triangle])]
  simp [stdSubs, refOf, this]

theorem demo_sub_bound {c i : Nat} (h : i < (stdSubs ⟨2, 3⟩ c).length) : c < 3 ∧ i < 3 := by
  by_cases hc : 3 ≤ c
  · rw [stdSubs_tri_large c hc] at h; simp at h
  · have : c = 0 ∨ c = 1 ∨ c = 2 := by omega
    refine ⟨by omega, ?_⟩
    rcases this with rfl | rfl | rfl
    · have : (stdSubs ⟨2, 3⟩ 0).length = 1 := by decide
      omega
    · exact h
    · exact h

theorem demoGrid_OK : demoGrid.OK where
  base := {
    typesNodup := by decide
    geoMem := by decide
    idxLt := by decide
    idxInj := by decide
    idxSurj := by decide
    subGeo := by
      intro e c i t h
      have hb := demo_sub_bound (List.getElem?_eq_some_iff.mp h).1
      have : ∀ e : Fin 2, ∀ c < 3, ∀ i < 3, ∀ t ∈ (stdSubs ⟨2, 3⟩ c)[i]?, demoGrid.geo (demoGrid.sub e c i) = t := by decide
      exact this e c hb.1 i hb.2 t h
    subInj := by
      intro e c i c' i' h h'
      have hb := demo_sub_bound h
      have hb' := demo_sub_bound h'
      have : ∀ e : Fin 2, ∀ c i c' i' : Fin 3, i.1 < (stdSubs ⟨2, 3⟩ c).length → i'.1 < (stdSubs ⟨2, 3⟩ c').length →
        demoGrid.sub e c i = demoGrid.sub e c' i' → c.1 = c'.1 ∧ i.1 = i'.1 := by decide
      exact this e ⟨c, hb.1⟩ ⟨i, hb.2⟩ ⟨c', hb'.1⟩ ⟨i', hb'.2⟩ h h'
    subSurj := by
      have : ∀ s : Fin 11, ∃ e : Fin 2, ∃ c : Fin 3, ∃ i : Fin 3, i.1 < (stdSubs ⟨2, 3⟩ c).length ∧ demoGrid.sub e c i = s := by
        decide
      intro s
      obtain ⟨e, c, i, hi, hs⟩ := this s
      exact ⟨e, c, i, Nat.lt_succ_iff.mp c.2, hi, hs⟩
    elemMem := by decide }
  std := fun _ _ => rfl
  type := by decide
  elemInj := by decide
  idsInj := by
    have : ∀ e : Fin 2, ∀ v < 3, ∀ v' < 3, demoGrid.ids e v = demoGrid.ids e v' → v = v' := by decide
    exact fun e v v' hv hv' => this e v hv v' hv'
  vertsSame := by
    intro e k e' k' h h' hs
    have hb := demo_sub_bound h
    have hb' := demo_sub_bound h'
    have : ∀ e e' : Fin 2, ∀ c i c' i' : Fin 3, i.1 < (stdSubs ⟨2, 3⟩ c).length → i'.1 < (stdSubs ⟨2, 3⟩ c').length →
        demoGrid.sub e c i = demoGrid.sub e' c' i' → (demoGrid.verts e ⟨i, c, 0⟩).Perm (demoGrid.verts e' ⟨i', c', 0⟩) := by
      decide +kernel
    intro x
    exact (this e e' ⟨k.codim, hb.1⟩ ⟨k.sub, hb.2⟩ ⟨k'.codim, hb'.1⟩ ⟨k'.sub, hb'.2⟩ h h' hs).mem_iff
  diagSame := by
    intro e k e' k' h h' hs hg
    have : ∀ s, demoGrid.geo s ≠ ⟨2, 4⟩ := by decide
    exact absurd hg (this _)

/-- Order 3: the shared edge (DOFs 0, 1 of edge 2 of both triangles) is numbered in opposite directions. -/
example : lagrangeIndex demoGrid 3 0 ⟨2, 1, 0⟩ = some 8 ∧ lagrangeIndex demoGrid 3 0 ⟨2, 1, 1⟩ = some 9 ∧
    lagrangeIndex demoGrid 3 1 ⟨2, 1, 0⟩ = some 9 ∧ lagrangeIndex demoGrid 3 1 ⟨2, 1, 1⟩ = some 8 := by decide

example : SameNode demoGrid 3 0 ⟨2, 1, 0⟩ 1 ⟨2, 1, 1⟩ ∧ ¬ SameNode demoGrid 3 0 ⟨2, 1, 0⟩ 1 ⟨2, 1, 0⟩ := by
  obtain ⟨n, n', h1, h2, -, h3⟩ := C20_C22_conformity demoGrid_OK 3 (by decide) 0 ⟨2, 1, 0⟩ 1 ⟨2, 1, 1⟩
    ⟨by decide, ⟨1, 2⟩, by decide⟩ ⟨by decide, ⟨1, 2⟩, by decide⟩
  obtain ⟨m, m', g1, g2, -, g3⟩ := C20_C22_conformity demoGrid_OK 3 (by decide) 0 ⟨2, 1, 0⟩ 1 ⟨2, 1, 0⟩
    ⟨by decide, ⟨1, 2⟩, by decide⟩ ⟨by decide, ⟨1, 2⟩, by decide⟩
  rw [show lagrangeIndex demoGrid 3 0 ⟨2, 1, 0⟩ = some 8 by decide, Option.some.injEq] at h1 g1
  rw [show lagrangeIndex demoGrid 3 1 ⟨2, 1, 1⟩ = some 8 by decide, Option.some.injEq] at h2
  rw [show lagrangeIndex demoGrid 3 1 ⟨2, 1, 0⟩ = some 9 by decide, Option.some.injEq] at g2
  exact ⟨h3.mp (by omega), fun h => absurd (g3.mpr h) (by omega)⟩

example : (IndexTree.PB.leaf (mapperLeaf demoGrid.toGridView (lagrangeLayout 2 2)
    fun _ => allKeys demoGrid.toGridView (lagrangeLayout 2 2) ⟨2, 3⟩)).WF :=
  mapperLeaf_WF demoGrid_OK.base ⟨fun _ => allKeys_nodup _ _ _, fun _ _ hk => mem_allKeys.mp hk⟩

example : lagrangeAccept demoGrid.toGridView 7 = true ∧
    mapperSize demoGrid.toGridView (lagrangeLayout 3 2) = 4 + 5 * 2 + 2 := by decide

end Verif.Lagrange
