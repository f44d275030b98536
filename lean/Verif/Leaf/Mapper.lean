import Verif.IndexTree.Props
import Mathlib.Tactic.Ring

/-!
# Leaf bases with indices from a mapper

Model of `LeafPreBasisMapperMixin` (leafprebasismappermixin.hh) on top of a grid view, an index set and
`MultipleCodimMultipleGeomTypeMapper`. Grid and mapper belong to dune-grid; their contract is stated here
(`GridView.OK`), the mapper is modelled by its documented numbering: the geometry types are
enumerated one after the other, with a block of `layout(type)` numbers per entity.
-/

namespace Verif.Mapper

/-- A geometry type is given by its dimension and its number of vertices (this distinguishes all types in
dimension ≤ 3). -/
structure Geo where
  dim : Nat
  nv : Nat
  deriving DecidableEq, Repr

/-- A grid view with elements `E` and entities (of all codimensions) `S`. -/
structure GridView (E S : Type) where
  /-- dimension of the grid -/
  dim : Nat
  /-- `indexSet.types(codim)` for all codims -/
  types : List Geo
  /-- `indexSet.size(type)` -/
  gsize : Geo → Nat
  /-- geometry type of an entity -/
  geo : S → Geo
  /-- `indexSet.index(entity)` -/
  idx : S → Nat
  /-- the types of the sub-entities of codim `c` of an element type, in local order (reference element) -/
  refSubs : Geo → Nat → List Geo
  /-- geometry type of an element -/
  elemGeo : E → Geo
  /-- sub-entity `i` of codim `c` -/
  sub : E → Nat → Nat → S

variable {E S : Type}

/-- Contract of the grid: the index set numbers the entities of each type consecutively; sub-entities have
the type given by the reference element, and different local sub-entities are different entities. -/
structure GridView.OK (G : GridView E S) : Prop where
  typesNodup : G.types.Nodup
  geoMem : ∀ s, G.geo s ∈ G.types
  idxLt : ∀ s, G.idx s < G.gsize (G.geo s)
  idxInj : ∀ s s', G.geo s = G.geo s' → G.idx s = G.idx s' → s = s'
  idxSurj : ∀ t ∈ G.types, ∀ n < G.gsize t, ∃ s, G.geo s = t ∧ G.idx s = n
  subGeo : ∀ e c i t, (G.refSubs (G.elemGeo e) c)[i]? = some t → G.geo (G.sub e c i) = t
  subInj : ∀ e c i c' i', i < (G.refSubs (G.elemGeo e) c).length → i' < (G.refSubs (G.elemGeo e) c').length →
    G.sub e c i = G.sub e c' i' → c = c' ∧ i = i'
  subSurj : ∀ s, ∃ e c i, c ≤ G.dim ∧ i < (G.refSubs (G.elemGeo e) c).length ∧ G.sub e c i = s
  elemMem : ∀ e, G.elemGeo e ∈ G.types ∧ (G.elemGeo e).dim = G.dim

/-! ## The mapper -/

/-- A layout: number of indices per entity of a type (`MCMGLayout` for fixed grid dimension). -/
abbrev Layout := Geo → Nat

/-- First number of the first entity of type `t`: numbers of all types before. -/
def offset (gsize : Geo → Nat) (lay : Layout) : List Geo → Geo → Nat
  | [], _ => 0
  | u :: us, t => if u = t then 0 else gsize u * lay u + offset gsize lay us t

/-- `mapper.size()`. -/
def mapperSize (G : GridView E S) (lay : Layout) : Nat := (G.types.map fun t => G.gsize t * lay t).sum

/-- `mapper.index(entity)`: first number of the block of an entity. -/
def mapperIndex (G : GridView E S) (lay : Layout) (s : S) : Nat :=
  offset G.gsize lay G.types (G.geo s) + G.idx s * lay (G.geo s)

theorem offset_block (gsize : Geo → Nat) (lay : Layout) (ts : List Geo) (hn : ts.Nodup) (t : Geo) (ht : t ∈ ts) :
    offset gsize lay ts t + gsize t * lay t ≤ (ts.map fun t => gsize t * lay t).sum ∧
    ∀ t' ∈ ts, t' ≠ t → offset gsize lay ts t + gsize t * lay t ≤ offset gsize lay ts t' ∨
      offset gsize lay ts t' + gsize t' * lay t' ≤ offset gsize lay ts t := by
  induction ts with
  | nil => simp at ht
  | cons u us ih =>
    rw [List.nodup_cons] at hn
    simp only [List.map_cons, List.sum_cons, offset]
    by_cases hut : u = t
    · subst hut
      refine ⟨by simp, ?_⟩
      intro t' ht' hne
      left
      rw [if_pos rfl, if_neg (Ne.symm hne)]; omega
    · have ht' : t ∈ us := by
        rcases List.mem_cons.mp ht with h | h
        · exact absurd h.symm hut
        · exact h
      obtain ⟨h1, h2⟩ := ih hn.2 ht'
      refine ⟨by rw [if_neg hut]; omega, ?_⟩
      intro t' ht'' hne
      rw [if_neg hut]
      rcases List.mem_cons.mp ht'' with rfl | h
      · right; rw [if_pos rfl]; omega
      · have hut' : u ≠ t' := by rintro rfl; exact hn.1 h
        rw [if_neg hut']
        rcases h2 t' h hne with h | h
        · left; omega
        · right; omega

theorem offset_cover (gsize : Geo → Nat) (lay : Layout) (ts : List Geo) (hn : ts.Nodup) (n : Nat)
    (h : n < (ts.map fun t => gsize t * lay t).sum) :
    ∃ t ∈ ts, offset gsize lay ts t ≤ n ∧ n < offset gsize lay ts t + gsize t * lay t := by
  induction ts generalizing n with
  | nil => simp at h
  | cons u us ih =>
    rw [List.nodup_cons] at hn
    simp only [List.map_cons, List.sum_cons] at h
    by_cases hu : n < gsize u * lay u
    · exact ⟨u, by simp, by simp [offset], by simp [offset, hu]⟩
    · obtain ⟨t, ht, h1, h2⟩ := ih hn.2 (n - gsize u * lay u) (by omega)
      have hut : u ≠ t := by rintro rfl; exact hn.1 ht
      refine ⟨t, by simp [ht], ?_, ?_⟩ <;> rw [offset, if_neg hut] <;> omega

/-- Blocks of the mapper: below the total size, disjoint, and covering everything. -/
theorem mapper_lt {G : GridView E S} (h : G.OK) (lay : Layout) (s : S) (j : Nat) (hj : j < lay (G.geo s)) :
    mapperIndex G lay s + j < mapperSize G lay := by
  have h1 := (offset_block G.gsize lay G.types h.typesNodup (G.geo s) (h.geoMem s)).1
  have h2 : (G.idx s + 1) * lay (G.geo s) ≤ G.gsize (G.geo s) * lay (G.geo s) :=
    Nat.mul_le_mul_right _ (h.idxLt s)
  have h3 : (G.idx s + 1) * lay (G.geo s) = G.idx s * lay (G.geo s) + lay (G.geo s) := by ring
  simp only [mapperIndex, mapperSize]
  omega

theorem mapper_inj {G : GridView E S} (h : G.OK) (lay : Layout) (s s' : S) (j j' : Nat)
    (hj : j < lay (G.geo s)) (hj' : j' < lay (G.geo s')) :
    mapperIndex G lay s + j = mapperIndex G lay s' + j' ↔ s = s' ∧ j = j' := by
  constructor
  · intro heq
    have b1 : (G.idx s + 1) * lay (G.geo s) ≤ G.gsize (G.geo s) * lay (G.geo s) :=
      Nat.mul_le_mul_right _ (h.idxLt s)
    have b2 : (G.idx s' + 1) * lay (G.geo s') ≤ G.gsize (G.geo s') * lay (G.geo s') :=
      Nat.mul_le_mul_right _ (h.idxLt s')
    have b1' : (G.idx s + 1) * lay (G.geo s) = G.idx s * lay (G.geo s) + lay (G.geo s) := by ring
    have b2' : (G.idx s' + 1) * lay (G.geo s') = G.idx s' * lay (G.geo s') + lay (G.geo s') := by ring
    simp only [mapperIndex] at heq
    by_cases hg : G.geo s = G.geo s'
    · rw [hg] at heq hj
      have hmul : G.idx s * lay (G.geo s') + j = G.idx s' * lay (G.geo s') + j' := by omega
      have hidx : G.idx s = G.idx s' := by
        rcases Nat.lt_trichotomy (G.idx s) (G.idx s') with hlt | he | hlt
        · have := Nat.mul_le_mul_right (lay (G.geo s')) (show G.idx s + 1 ≤ G.idx s' from hlt)
          have e : (G.idx s + 1) * lay (G.geo s') = G.idx s * lay (G.geo s') + lay (G.geo s') := by ring
          omega
        · exact he
        · have := Nat.mul_le_mul_right (lay (G.geo s')) (show G.idx s' + 1 ≤ G.idx s from hlt)
          have e : (G.idx s' + 1) * lay (G.geo s') = G.idx s' * lay (G.geo s') + lay (G.geo s') := by ring
          omega
      refine ⟨h.idxInj s s' hg hidx, ?_⟩
      rw [hidx] at hmul; omega
    · have := (offset_block G.gsize lay G.types h.typesNodup (G.geo s) (h.geoMem s)).2 (G.geo s') (h.geoMem s') (Ne.symm hg)
      omega
  · rintro ⟨rfl, rfl⟩; rfl

theorem mapper_surj {G : GridView E S} (h : G.OK) (lay : Layout) (n : Nat) (hn : n < mapperSize G lay) :
    ∃ s j, j < lay (G.geo s) ∧ n = mapperIndex G lay s + j := by
  obtain ⟨t, ht, h1, h2⟩ := offset_cover G.gsize lay G.types h.typesNodup n hn
  have hl : 0 < lay t := by
    rcases Nat.eq_zero_or_pos (lay t) with h0 | h0
    · rw [h0] at h2; omega
    · exact h0
  obtain ⟨s, hs, hi⟩ := h.idxSurj t ht ((n - offset G.gsize lay G.types t) / lay t) (by
    rw [Nat.div_lt_iff_lt_mul hl]; omega)
  refine ⟨s, (n - offset G.gsize lay G.types t) % lay t, by rw [hs]; exact Nat.mod_lt _ hl, ?_⟩
  simp only [mapperIndex, hs, hi]
  have := Nat.div_add_mod (n - offset G.gsize lay G.types t) (lay t)
  rw [Nat.mul_comm] at this
  omega

/-! ## Leaf bases -/

/-- `LocalKey`: sub-entity, codim, index within the sub-entity. -/
structure Key where
  sub : Nat
  codim : Nat
  index : Nat
  deriving DecidableEq, Repr

/-- `initializeIndices`, leafprebasismappermixin.hh:80-92. -/
def maxNodeSize (G : GridView E S) (lay : Layout) : Nat :=
  ((G.types.filter fun t => t.dim = G.dim).map fun t =>
    ((List.range (G.dim + 1)).map fun c => ((G.refSubs t c).map lay).sum).sum).sum

/-- `subIndexRange` and `indices`, leafprebasismappermixin.hh:30-39, 120-129; `keys e` are the local keys of
the local finite element of `e`. -/
def mapperLeaf (G : GridView E S) (lay : Layout) (keys : E → List Key) : IndexTree.Leaf E where
  dim := mapperSize G lay
  maxN := maxNodeSize G lay
  loc := fun e => (keys e).map fun k => mapperIndex G lay (G.sub e k.codim k.sub) + k.index

/-- The local keys of a finite element match the layout: each local key lies in the block of its sub-entity,
no key occurs twice. -/
structure KeysOK (G : GridView E S) (lay : Layout) (keys : E → List Key) : Prop where
  nodup : ∀ e, (keys e).Nodup
  ok : ∀ e, ∀ k ∈ keys e, k.codim ≤ G.dim ∧ ∃ t, (G.refSubs (G.elemGeo e) k.codim)[k.sub]? = some t ∧ k.index < lay t

/-- Every number of the layout is used on every element. -/
def KeysFull (G : GridView E S) (lay : Layout) (keys : E → List Key) : Prop :=
  ∀ e c i t j, c ≤ G.dim → (G.refSubs (G.elemGeo e) c)[i]? = some t → j < lay t → ⟨i, c, j⟩ ∈ keys e

/-- All keys allowed by the layout on an element type. -/
def allKeys (G : GridView E S) (lay : Layout) (t : Geo) : List Key :=
  (List.range (G.dim + 1)).flatMap fun c => (List.range (G.refSubs t c).length).flatMap fun i =>
    (List.range (lay ((G.refSubs t c).getD i ⟨0, 0⟩))).map fun j => ⟨i, c, j⟩

theorem mem_allKeys {G : GridView E S} {lay : Layout} {t : Geo} {k : Key} :
    k ∈ allKeys G lay t ↔ k.codim ≤ G.dim ∧ ∃ u, (G.refSubs t k.codim)[k.sub]? = some u ∧ k.index < lay u := by
  simp only [allKeys, List.mem_flatMap, List.mem_range, List.mem_map]
  constructor
  · rintro ⟨c, hc, i, hi, j, hj, rfl⟩
    refine ⟨by simp only; omega, (G.refSubs t c)[i], by simp [hi], ?_⟩
    simpa [List.getD_eq_getElem?_getD, hi] using hj
  · rintro ⟨hc, u, hu, hj⟩
    obtain ⟨hi, rfl⟩ := List.getElem?_eq_some_iff.mp hu
    refine ⟨k.codim, by omega, k.sub, hi, k.index, ?_, rfl⟩
    simpa [List.getD_eq_getElem?_getD, hi] using hj

theorem allKeys_nodup (G : GridView E S) (lay : Layout) (t : Geo) : (allKeys G lay t).Nodup := by
  rw [allKeys, List.nodup_flatMap]
  refine ⟨?_, ?_⟩
  · intro c _
    rw [List.nodup_flatMap]
    refine ⟨fun i _ => List.Nodup.map_on (fun x _ y _ h => by simpa using h) List.nodup_range, ?_⟩
    refine List.Nodup.pairwise_of_forall_ne List.nodup_range ?_
    intro i _ i' _ hne
    simp only [Function.onFun, List.disjoint_left, List.mem_map]
    rintro _ ⟨j, -, rfl⟩ ⟨j', -, h⟩
    simp at h
    exact hne h.1.symm
  · refine List.Nodup.pairwise_of_forall_ne List.nodup_range ?_
    intro c _ c' _ hne
    simp only [Function.onFun, List.disjoint_left, List.mem_flatMap, List.mem_map]
    rintro _ ⟨i, -, j, -, rfl⟩ ⟨i', -, j', -, h⟩
    simp at h
    exact hne h.2.1.symm

theorem sum_map_range_getD (lay : Layout) (l : List Geo) :
    ((List.range l.length).map fun i => lay (l.getD i ⟨0, 0⟩)).sum = (l.map lay).sum := by
  congr 1
  apply List.ext_getElem
  · simp
  · intro i h1 h2
    have hi : i < l.length := by simpa using h1
    simp [List.getElem_map, List.getElem_range, List.getD_eq_getElem?_getD, hi]

theorem allKeys_length (G : GridView E S) (lay : Layout) (t : Geo) :
    (allKeys G lay t).length = ((List.range (G.dim + 1)).map fun c => ((G.refSubs t c).map lay).sum).sum := by
  simp only [allKeys, List.length_flatMap, List.length_map, List.length_range, sum_map_range_getD]

theorem le_sum_of_mem {l : List Nat} {x : Nat} (h : x ∈ l) : x ≤ l.sum := by
  induction l with
  | nil => simp at h
  | cons a l ih =>
    rcases List.mem_cons.mp h with rfl | h
    · simp
    · have := ih h; simp; omega

/-- Local sizes are bounded by the traversal of the layout. -/
theorem keys_length_le {G : GridView E S} (h : G.OK) {lay : Layout} {keys : E → List Key} (hk : KeysOK G lay keys) (e : E) :
    (keys e).length ≤ maxNodeSize G lay := by
  have h1 : (keys e).length ≤ (allKeys G lay (G.elemGeo e)).length :=
    ((hk.nodup e).subperm fun k hke => mem_allKeys.mpr (hk.ok e k hke)).length_le
  refine le_trans h1 ?_
  rw [allKeys_length]
  apply le_sum_of_mem
  rw [List.mem_map]
  exact ⟨G.elemGeo e, by simp [h.elemMem e], rfl⟩

/-- The leaf basis is well-formed in the sense of the index tree theorems (C01–C12), for any local finite
elements matching the layout. -/
theorem mapperLeaf_WF {G : GridView E S} (h : G.OK) {lay : Layout} {keys : E → List Key} (hk : KeysOK G lay keys) :
    (IndexTree.PB.leaf (mapperLeaf G lay keys)).WF := by
  rw [IndexTree.PB.WF]
  constructor
  · intro e i hi
    simp only [mapperLeaf, List.mem_map] at hi ⊢
    obtain ⟨k, hk', rfl⟩ := hi
    obtain ⟨-, t, ht, hj⟩ := hk.ok e k hk'
    exact mapper_lt h lay _ _ (by rw [h.subGeo e _ _ t ht]; exact hj)
  · intro e
    simpa [mapperLeaf] using keys_length_le h hk e

/-- Every index of the leaf basis is used if the finite elements use all numbers of the layout. -/
theorem mapperLeaf_Covered {G : GridView E S} (h : G.OK) {lay : Layout} {keys : E → List Key} (hf : KeysFull G lay keys) :
    (IndexTree.PB.leaf (mapperLeaf G lay keys)).Covered (fun _ => True) := by
  rw [IndexTree.PB.Covered]
  intro n hn
  obtain ⟨s, j, hj, rfl⟩ := mapper_surj h lay n hn
  obtain ⟨e, c, i, hc, hi, rfl⟩ := h.subSurj s
  have ht := h.subGeo e c i _ (List.getElem?_eq_getElem hi)
  refine ⟨e, trivial, ?_⟩
  simp only [mapperLeaf, List.mem_map]
  refine ⟨⟨i, c, j⟩, hf e c i _ j hc (List.getElem?_eq_getElem hi) (by rw [← ht]; exact hj), rfl⟩

/-- Two local basis functions get the same index iff they are attached to the same grid entity with the same number. -/
theorem mapperLeaf_same {G : GridView E S} (h : G.OK) {lay : Layout} {keys : E → List Key} (hk : KeysOK G lay keys)
    (e e' : E) (l l' : Nat) (k k' : Key) (hl : (keys e)[l]? = some k) (hl' : (keys e')[l']? = some k') :
    ((mapperLeaf G lay keys).loc e)[l]? = ((mapperLeaf G lay keys).loc e')[l']? ↔
      G.sub e k.codim k.sub = G.sub e' k'.codim k'.sub ∧ k.index = k'.index := by
  simp only [mapperLeaf, List.getElem?_map, hl, hl', Option.map_some, Option.some.injEq]
  obtain ⟨-, t, ht, hj⟩ := hk.ok e k (List.mem_of_getElem? hl)
  obtain ⟨-, t', ht', hj'⟩ := hk.ok e' k' (List.mem_of_getElem? hl')
  exact mapper_inj h lay _ _ _ _ (by rw [h.subGeo e _ _ t ht]; exact hj) (by rw [h.subGeo e' _ _ t' ht']; exact hj')

/-- Indices of an element are pairwise different. -/
theorem mapperLeaf_nodup {G : GridView E S} (h : G.OK) {lay : Layout} {keys : E → List Key} (hk : KeysOK G lay keys) (e : E) :
    ((mapperLeaf G lay keys).loc e).Nodup := by
  simp only [mapperLeaf]
  refine List.Nodup.map_on ?_ (hk.nodup e)
  intro k hk1 k' hk2 heq
  obtain ⟨-, t, ht, hj⟩ := hk.ok e k hk1
  obtain ⟨-, t', ht', hj'⟩ := hk.ok e k' hk2
  obtain ⟨h1, h2⟩ := (mapper_inj h lay _ _ _ _ (by rw [h.subGeo e _ _ t ht]; exact hj)
    (by rw [h.subGeo e _ _ t' ht']; exact hj')).mp heq
  obtain ⟨h3, h4⟩ := h.subInj e _ _ _ _ (List.getElem?_eq_some_iff.mp ht).1 (List.getElem?_eq_some_iff.mp ht').1 h1
  cases k; cases k'; simp_all

end Verif.Mapper
