import Verif.Lagrange.DG

/-!
# The index set of a subdomain

Model of `SubDomainIndexSet` in `dune/functions/common/subdomain.hh` (165-350). The host grid view is the
`Mapper.GridView` of the leaf bases; `allEntityMapper_` is the mapper model with one index per entity.
-/

namespace Verif.SubDomain

open Verif.Mapper

variable {E S : Type}

/-! ## Model -/

/-- `allCodimLayout`, subdomain.hh:215-218: one index per entity of every codimension. -/
def allCodimLayout : Layout := fun _ => 1

/-- The data members, subdomain.hh:339-349. The magic value `unusesIndex` of `indices_` is `none`; modelled
indices are unbounded, i.e. there are fewer than 2^64-1 entities. -/
structure ISet where
  sizePerGT : Geo → Nat
  sizePerCodim : Nat → Nat
  typesPerCodim : Nat → List Geo
  indices : List (Option Nat)

/-- Constructor and `clear`, subdomain.hh:226-231, 327-337. -/
def ISet.empty (G : GridView E S) : ISet where
  sizePerGT := fun _ => 0
  sizePerCodim := fun _ => 0
  typesPerCodim := fun _ => []
  indices := List.replicate (mapperSize G allCodimLayout) none

/-- Body of the loops of `insertElement`, subdomain.hh:308-320, for a sub-entity whose mapper index is `m`.
`none`: out of range access of `indices_`. -/
def ISet.insertSub (s : ISet) (m codim : Nat) (type : Geo) : Option ISet :=
  match s.indices[m]? with
  | none => none
  | some (some _) => some s
  | some none =>
    some
      { indices := s.indices.set m (some (s.sizePerGT type))
        typesPerCodim := fun c =>
          if c = codim ∧ s.sizePerGT type = 0 then s.typesPerCodim c ++ [type] else s.typesPerCodim c
        sizePerGT := fun t => if t = type then s.sizePerGT t + 1 else s.sizePerGT t
        sizePerCodim := fun c => if c = codim then s.sizePerCodim c + 1 else s.sizePerCodim c }

/-- The pairs (codim, subEntity) visited by the nested loops, subdomain.hh:304-307, with `re.type(...)`. -/
def subEntities (G : GridView E S) (e : E) : List (Nat × Nat × Geo) :=
  (List.range (G.dim + 1)).flatMap fun c =>
    (G.refSubs (G.elemGeo e) c).zipIdx.map fun p => (c, p.2, p.1)

/-- `insertElement`, subdomain.hh:301-322. -/
def ISet.insertElement (G : GridView E S) (s : ISet) (e : E) : Option ISet :=
  (subEntities G e).foldlM
    (fun s p => s.insertSub (mapperIndex G allCodimLayout (G.sub e p.1 p.2.1)) p.1 p.2.2) s

/-- An index set after a history of insertions. -/
def ISet.run (G : GridView E S) (h : List E) : Option ISet :=
  h.foldlM (fun s e => s.insertElement G e) (ISet.empty G)

/-- `size(GeometryType)`, subdomain.hh:237-243. -/
def ISet.sizeOf (G : GridView E S) (s : ISet) (t : Geo) : Nat :=
  if t.dim ≤ G.dim then s.sizePerGT t else 0

/-- `size(codim)`, subdomain.hh:245-248. `none`: access behind the array. -/
def ISet.sizeCodim (G : GridView E S) (s : ISet) (c : Nat) : Option Nat :=
  if c < G.dim + 1 then some (s.sizePerCodim c) else none

/-- `types(codim)`, subdomain.hh:286-289. -/
def ISet.types (G : GridView E S) (s : ISet) (c : Nat) : Option (List Geo) :=
  if c < G.dim + 1 then some (s.typesPerCodim c) else none

/-- Outcome of a method that may throw. -/
inductive Result (α : Type) where
  | value (a : α)
  | invalidState
  | undefined
  deriving DecidableEq, Repr

/-- `index(entity)`, subdomain.hh:250-257. -/
def ISet.index (G : GridView E S) (s : ISet) (x : S) : Result Nat :=
  match s.indices[mapperIndex G allCodimLayout x]? with
  | none => .undefined
  | some none => .invalidState
  | some (some n) => .value n

/-- `subIndex(entity, subEntity, codim)`, subdomain.hh:265-272. `mapper.subIndex` is the index of the sub-entity. -/
def ISet.subIndex (G : GridView E S) (s : ISet) (e : E) (i c : Nat) : Result Nat :=
  match s.indices[mapperIndex G allCodimLayout (G.sub e c i)]? with
  | none => .undefined
  | some none => .invalidState
  | some (some n) => .value n

/-- `contains(entity)`, subdomain.hh:280-284. -/
def ISet.contains (G : GridView E S) (s : ISet) (x : S) : Result Bool :=
  match s.indices[mapperIndex G allCodimLayout x]? with
  | none => .undefined
  | some o => .value o.isSome

/-! ## Specification -/

/-- Part of the grid contract not needed for the leaf bases: the dimension of a sub-entity of codimension `c` is
`dim - c`. -/
def DimOK (G : GridView E S) : Prop :=
  ∀ e c, c ≤ G.dim → ∀ t ∈ G.refSubs (G.elemGeo e) c, t.dim + c = G.dim

/-- `x` is a sub-entity of the element `e` (including `e` itself). -/
def IsSub (G : GridView E S) (e : E) (x : S) : Prop :=
  ∃ c i, c ≤ G.dim ∧ i < (G.refSubs (G.elemGeo e) c).length ∧ G.sub e c i = x

/-- The entities covered by a history of insertions. -/
def Inserted (G : GridView E S) (h : List E) (x : S) : Prop := ∃ e ∈ h, IsSub G e x

/-! ## Proof -/

theorem mem_subEntities {G : GridView E S} {e : E} {p : Nat × Nat × Geo} :
    p ∈ subEntities G e ↔ p.1 ≤ G.dim ∧ (G.refSubs (G.elemGeo e) p.1)[p.2.1]? = some p.2.2 := by
  obtain ⟨c, i, t⟩ := p
  simp only [subEntities, List.mem_flatMap, List.mem_range, List.mem_map, Prod.mk.injEq, Prod.exists]
  constructor
  · rintro ⟨c', hc, t', i', hm, rfl, rfl, rfl⟩
    rw [List.mem_zipIdx_iff_getElem?] at hm
    exact ⟨by omega, hm⟩
  · rintro ⟨hc, hm⟩
    exact ⟨c, by omega, t, i, by rw [List.mem_zipIdx_iff_getElem?]; exact hm, rfl, rfl, rfl⟩

/-- The state represents the entities in `L`. -/
structure Inv (G : GridView E S) (s : ISet) (L : List S) : Prop where
  nodup : L.Nodup
  length : s.indices.length = mapperSize G allCodimLayout
  unused : ∀ x, x ∉ L → s.indices[mapperIndex G allCodimLayout x]? = some none
  used : ∀ x ∈ L, ∃ n, s.indices[mapperIndex G allCodimLayout x]? = some (some n) ∧ n < s.sizePerGT (G.geo x)
  inj : ∀ x ∈ L, ∀ y ∈ L, G.geo x = G.geo y →
    s.indices[mapperIndex G allCodimLayout x]? = s.indices[mapperIndex G allCodimLayout y]? → x = y
  surj : ∀ t n, n < s.sizePerGT t → ∃ x ∈ L, G.geo x = t ∧ s.indices[mapperIndex G allCodimLayout x]? = some (some n)
  gt : ∀ t, s.sizePerGT t = (L.filter fun x => G.geo x = t).length
  codim : ∀ c, c ≤ G.dim → s.sizePerCodim c = (L.filter fun x => (G.geo x).dim + c = G.dim).length
  types : ∀ c, c ≤ G.dim → (s.typesPerCodim c).Nodup ∧
    ∀ t, t ∈ s.typesPerCodim c ↔ t.dim + c = G.dim ∧ ∃ x ∈ L, G.geo x = t

theorem mIndex_lt {G : GridView E S} (hG : G.OK) (x : S) :
    mapperIndex G allCodimLayout x < mapperSize G allCodimLayout := by
  have := mapper_lt hG allCodimLayout x 0 (by simp [allCodimLayout])
  simpa using this

theorem mIndex_inj {G : GridView E S} (hG : G.OK) (x y : S)
    (h : mapperIndex G allCodimLayout x = mapperIndex G allCodimLayout y) : x = y :=
  ((mapper_inj hG allCodimLayout x y 0 0 (by simp [allCodimLayout]) (by simp [allCodimLayout])).mp h).1

theorem inv_empty {G : GridView E S} (hG : G.OK) : Inv G (ISet.empty G) [] where
  nodup := List.nodup_nil
  length := by simp [ISet.empty]
  unused := fun x _ => by
    simp only [ISet.empty, List.getElem?_replicate]
    rw [if_pos (mIndex_lt hG x)]
  used := fun x hx => by simp at hx
  inj := fun x hx => by simp at hx
  surj := fun t n hn => by simp [ISet.empty] at hn
  gt := fun t => by simp [ISet.empty]
  codim := fun c _ => by simp [ISet.empty]
  types := fun c _ => by simp [ISet.empty]

theorem insertSub_inv {G : GridView E S} (hG : G.OK) {s : ISet} {L : List S} (hI : Inv G s L)
    (x : S) (c : Nat) (t : Geo) (hx : G.geo x = t) (hc : c ≤ G.dim) (hd : t.dim + c = G.dim) :
    ∃ s' L', s.insertSub (mapperIndex G allCodimLayout x) c t = some s' ∧ Inv G s' L' ∧
      (∀ y, y ∈ L' ↔ y ∈ L ∨ y = x) ∧
      (∀ (k n : Nat), s.indices[k]? = some (some n) → s'.indices[k]? = some (some n)) ∧ (x ∈ L → s' = s) := by
  by_cases hxL : x ∈ L
  · obtain ⟨n, hn, -⟩ := hI.used x hxL
    refine ⟨s, L, by simp [ISet.insertSub, hn], hI, ?_, fun _ _ h => h, fun _ => rfl⟩
    intro y
    constructor
    · exact Or.inl
    · rintro (h | rfl) <;> assumption
  · have hu := hI.unused x hxL
    have hlt : mapperIndex G allCodimLayout x < s.indices.length := by rw [hI.length]; exact mIndex_lt hG x
    have hne : ∀ y, y ≠ x → mapperIndex G allCodimLayout x ≠ mapperIndex G allCodimLayout y :=
      fun y hy h => hy (mIndex_inj hG x y h).symm
    have hLx : ∀ y ∈ L, y ≠ x := fun y hy h => hxL (h ▸ hy)
    refine ⟨_, L ++ [x], by simp only [ISet.insertSub, hu]; rfl, ?_, by simp, ?_, fun h => absurd h hxL⟩
    · refine ⟨?_, ?_, ?_, ?_, ?_, ?_, ?_, ?_, ?_⟩
      · rw [List.nodup_append]
        refine ⟨hI.nodup, by simp, ?_⟩
        intro a ha b hb
        simp at hb; subst hb
        exact hLx a ha
      · simpa using hI.length
      · intro y hy
        simp at hy
        rw [List.getElem?_set_ne (hne y hy.2)]
        exact hI.unused y hy.1
      · intro y hy
        simp at hy
        rcases hy with hy | rfl
        · obtain ⟨n, hn, hlt'⟩ := hI.used y hy
          refine ⟨n, by rw [List.getElem?_set_ne (hne y (hLx y hy))]; exact hn, ?_⟩
          simp only; split <;> omega
        · refine ⟨s.sizePerGT t, by rw [List.getElem?_set_self hlt], ?_⟩
          simp [hx]
      · intro y hy z hz hg heq
        simp at hy hz
        rcases hy with hy | rfl <;> rcases hz with hz | rfl
        · rw [List.getElem?_set_ne (hne y (hLx y hy)), List.getElem?_set_ne (hne z (hLx z hz))] at heq
          exact hI.inj y hy z hz hg heq
        · rw [List.getElem?_set_ne (hne y (hLx y hy)), List.getElem?_set_self hlt] at heq
          obtain ⟨n, hn, hlt'⟩ := hI.used y hy
          rw [hn] at heq
          simp at heq
          rw [hg, hx] at hlt'; omega
        · rw [List.getElem?_set_ne (hne z (hLx z hz)), List.getElem?_set_self hlt] at heq
          obtain ⟨n, hn, hlt'⟩ := hI.used z hz
          rw [hn] at heq
          simp at heq
          rw [← hg, hx] at hlt'; omega
        · rfl
      · intro u n hn
        simp only at hn
        by_cases hu' : u = t
        · rw [if_pos hu', hu'] at hn
          by_cases hn' : n = s.sizePerGT t
          · exact ⟨x, by simp, by rw [hx, hu'], by rw [List.getElem?_set_self hlt, hn']⟩
          · obtain ⟨y, hy, hg, hi⟩ := hI.surj t n (by omega)
            exact ⟨y, by simp [hy], by rw [hg, hu'], by rw [List.getElem?_set_ne (hne y (hLx y hy))]; exact hi⟩
        · rw [if_neg hu'] at hn
          obtain ⟨y, hy, hg, hi⟩ := hI.surj u n hn
          exact ⟨y, by simp [hy], hg, by rw [List.getElem?_set_ne (hne y (hLx y hy))]; exact hi⟩
      · intro u
        simp only [List.filter_append, List.length_append, ← hI.gt u]
        by_cases hu' : u = t
        · subst hu'; simp [hx]
        · have : G.geo x ≠ u := by rw [hx]; exact Ne.symm hu'
          simp [hu', this]
      · intro d hd'
        simp only [List.filter_append, List.length_append, ← hI.codim d hd']
        by_cases hu' : d = c
        · subst hu'; simp [hx, hd]
        · have : ¬ (G.geo x).dim + d = G.dim := by rw [hx]; omega
          simp [hu', this]
      · intro d hd'
        obtain ⟨h1, h2⟩ := hI.types d hd'
        simp only
        have hzero : s.sizePerGT t = 0 ↔ ¬ ∃ y ∈ L, G.geo y = t := by
          rw [hI.gt t, List.length_eq_zero_iff, List.filter_eq_nil_iff]
          simp
        by_cases hdc : d = c ∧ s.sizePerGT t = 0
        · rw [if_pos hdc]
          obtain ⟨rfl, h0⟩ := hdc
          have hnt : t ∉ s.typesPerCodim d := fun hm => (hzero.mp h0) ((h2 t).mp hm).2
          refine ⟨?_, ?_⟩
          · rw [List.nodup_append]
            refine ⟨h1, by simp, ?_⟩
            intro a ha b hb
            simp at hb; subst hb
            rintro rfl; exact hnt ha
          · intro u
            simp only [List.mem_append, List.mem_singleton, h2 u]
            constructor
            · rintro (⟨hu', y, hy, hg⟩ | rfl)
              · exact ⟨hu', y, Or.inl hy, hg⟩
              · exact ⟨hd, x, Or.inr rfl, hx⟩
            · rintro ⟨hu', y, hy | rfl, hg⟩
              · exact Or.inl ⟨hu', y, hy, hg⟩
              · right; rw [← hg, hx]
        · rw [if_neg hdc]
          refine ⟨h1, ?_⟩
          intro u
          rw [h2 u]
          constructor
          · rintro ⟨hu', y, hy, hg⟩
            exact ⟨hu', y, by simp [hy], hg⟩
          · rintro ⟨hu', y, hy, hg⟩
            simp at hy
            rcases hy with hy | rfl
            · exact ⟨hu', y, hy, hg⟩
            · refine ⟨hu', ?_⟩
              have hut : u = t := by rw [← hg, hx]
              have hdc' : d = c := by rw [hut] at hu'; omega
              have h0 : ¬ s.sizePerGT t = 0 := fun h0 => hdc ⟨hdc', h0⟩
              rw [hzero, not_not] at h0
              obtain ⟨y, hy, hg'⟩ := h0
              exact ⟨y, hy, by rw [hg', hut]⟩
    · intro k n hk
      have hkm : mapperIndex G allCodimLayout x ≠ k := by
        rintro rfl
        rw [hu] at hk; simp at hk
      simp only
      rw [List.getElem?_set_ne hkm]; exact hk

theorem insertList_inv {G : GridView E S} (hG : G.OK) (hD : DimOK G) (e : E) (ps : List (Nat × Nat × Geo))
    (hps : ∀ p ∈ ps, p ∈ subEntities G e) {s : ISet} {L : List S} (hI : Inv G s L) :
    ∃ s' L', ps.foldlM (fun s p => s.insertSub (mapperIndex G allCodimLayout (G.sub e p.1 p.2.1)) p.1 p.2.2) s = some s' ∧
      Inv G s' L' ∧ (∀ y, y ∈ L' ↔ y ∈ L ∨ ∃ p ∈ ps, G.sub e p.1 p.2.1 = y) ∧
      (∀ (k n : Nat), s.indices[k]? = some (some n) → s'.indices[k]? = some (some n)) ∧
      ((∀ p ∈ ps, G.sub e p.1 p.2.1 ∈ L) → s' = s) := by
  induction ps generalizing s L with
  | nil => exact ⟨s, L, rfl, hI, by simp, fun _ _ h => h, fun _ => rfl⟩
  | cons p ps ih =>
    have hp := mem_subEntities.mp (hps p (by simp))
    obtain ⟨s1, L1, h1, hI1, hm1, hst1, hid1⟩ := insertSub_inv hG hI (G.sub e p.1 p.2.1) p.1 p.2.2
      (hG.subGeo e _ _ _ hp.2) hp.1 (hD e p.1 hp.1 _ (List.mem_of_getElem? hp.2))
    obtain ⟨s2, L2, h2, hI2, hm2, hst2, hid2⟩ := ih (fun q hq => hps q (by simp [hq])) hI1
    refine ⟨s2, L2, ?_, hI2, ?_, fun k n h => hst2 k n (hst1 k n h), ?_⟩
    · rw [List.foldlM_cons, h1]; exact h2
    · intro y
      rw [hm2, hm1]
      constructor
      · rintro ((h | rfl) | ⟨q, hq, hy⟩)
        · exact Or.inl h
        · exact Or.inr ⟨p, by simp, rfl⟩
        · exact Or.inr ⟨q, by simp [hq], hy⟩
      · rintro (h | ⟨q, hq, rfl⟩)
        · exact Or.inl (Or.inl h)
        · rcases List.mem_cons.mp hq with rfl | hq
          · exact Or.inl (Or.inr rfl)
          · exact Or.inr ⟨q, hq, rfl⟩
    · intro hall
      have e1 := hid1 (hall p (by simp))
      subst e1
      apply hid2
      intro q hq
      rw [hm1]
      exact Or.inl (hall q (by simp [hq]))

theorem isSub_iff {G : GridView E S} {e : E} {x : S} :
    IsSub G e x ↔ ∃ p ∈ subEntities G e, G.sub e p.1 p.2.1 = x := by
  constructor
  · rintro ⟨c, i, hc, hi, rfl⟩
    exact ⟨(c, i, (G.refSubs (G.elemGeo e) c)[i]), mem_subEntities.mpr ⟨hc, by simp [hi]⟩, rfl⟩
  · rintro ⟨p, hp, rfl⟩
    obtain ⟨hc, hi⟩ := mem_subEntities.mp hp
    exact ⟨p.1, p.2.1, hc, (List.getElem?_eq_some_iff.mp hi).1, rfl⟩

theorem insertElement_inv {G : GridView E S} (hG : G.OK) (hD : DimOK G) (e : E) {s : ISet} {L : List S} (hI : Inv G s L) :
    ∃ s' L', s.insertElement G e = some s' ∧ Inv G s' L' ∧ (∀ y, y ∈ L' ↔ y ∈ L ∨ IsSub G e y) ∧
      (∀ (k n : Nat), s.indices[k]? = some (some n) → s'.indices[k]? = some (some n)) ∧
      ((∀ y, IsSub G e y → y ∈ L) → s' = s) := by
  obtain ⟨s', L', h1, h2, h3, h4, h5⟩ := insertList_inv hG hD e (subEntities G e) (fun _ h => h) hI
  refine ⟨s', L', h1, h2, ?_, h4, ?_⟩
  · intro y; rw [h3, isSub_iff]
  · intro h
    exact h5 fun p hp => h _ (isSub_iff.mpr ⟨p, hp, rfl⟩)

theorem runFrom_inv {G : GridView E S} (hG : G.OK) (hD : DimOK G) (h : List E) {s : ISet} {L : List S} (hI : Inv G s L) :
    ∃ s' L', h.foldlM (fun s e => s.insertElement G e) s = some s' ∧ Inv G s' L' ∧
      (∀ y, y ∈ L' ↔ y ∈ L ∨ Inserted G h y) ∧
      (∀ (k n : Nat), s.indices[k]? = some (some n) → s'.indices[k]? = some (some n)) := by
  induction h generalizing s L with
  | nil => exact ⟨s, L, rfl, hI, by simp [Inserted], fun _ _ h => h⟩
  | cons e h ih =>
    obtain ⟨s1, L1, h1, hI1, hm1, hst1, -⟩ := insertElement_inv hG hD e hI
    obtain ⟨s2, L2, h2, hI2, hm2, hst2⟩ := ih hI1
    refine ⟨s2, L2, by rw [List.foldlM_cons, h1]; exact h2, hI2, ?_, fun k n h => hst2 k n (hst1 k n h)⟩
    intro y
    rw [hm2, hm1]
    simp only [Inserted, List.mem_cons, exists_eq_or_imp]
    tauto

theorem run_inv {G : GridView E S} (hG : G.OK) (hD : DimOK G) (h : List E) :
    ∃ s L, ISet.run G h = some s ∧ Inv G s L ∧ ∀ y, y ∈ L ↔ Inserted G h y := by
  obtain ⟨s, L, h1, h2, h3, -⟩ := runFrom_inv hG hD h (inv_empty hG)
  exact ⟨s, L, h1, h2, by simpa using h3⟩

/-- **C30.** After any history of insertions (which never runs into undefined behaviour):

* `contains` is true exactly for the inserted elements and their sub-entities, `index` throws
  exactly for all other entities;
* the indices of the contained entities of one geometry type are pairwise different and
  exactly the numbers below `size(type)`;
* `size(type)` and `size(codim)` are the numbers of contained entities (`L` lists the contained
  entities without repetition), `types(codim)` lists the geometry types of contained entities, each once. -/
theorem C30_indexSet {G : GridView E S} (hG : G.OK) (hD : DimOK G) (h : List E) :
    ∃ s, ISet.run G h = some s ∧
      (∀ x, (Inserted G h x → s.contains G x = .value true ∧ ∃ n, s.index G x = .value n ∧ n < s.sizeOf G (G.geo x)) ∧
        (¬ Inserted G h x → s.contains G x = .value false ∧ s.index G x = .invalidState)) ∧
      (∀ x y n, G.geo x = G.geo y → s.index G x = .value n → s.index G y = .value n → x = y) ∧
      (∀ t n, n < s.sizeOf G t → ∃ x, G.geo x = t ∧ s.index G x = .value n) ∧
      (∃ L : List S, L.Nodup ∧ (∀ x, x ∈ L ↔ Inserted G h x) ∧
        (∀ t, s.sizeOf G t = (L.filter fun x => G.geo x = t).length) ∧
        (∀ c ≤ G.dim, s.sizeCodim G c = some (L.filter fun x => (G.geo x).dim + c = G.dim).length)) ∧
      (∀ c ≤ G.dim, ∃ ts, s.types G c = some ts ∧ ts.Nodup ∧
        ∀ t, t ∈ ts ↔ t.dim + c = G.dim ∧ ∃ x, Inserted G h x ∧ G.geo x = t) := by
  obtain ⟨s, L, h1, hI, hm⟩ := run_inv hG hD h
  have hdim : ∀ x, Inserted G h x → (G.geo x).dim ≤ G.dim := by
    rintro x ⟨e, -, c, i, hc, hi, rfl⟩
    have := hD e c hc _ (List.getElem_mem hi)
    rw [← hG.subGeo e c i _ (List.getElem?_eq_getElem hi)] at this
    omega
  have hsz : ∀ t, s.sizeOf G t = s.sizePerGT t := by
    intro t
    simp only [ISet.sizeOf]
    split
    · rfl
    · rename_i hlt
      rw [hI.gt t]; symm
      rw [List.length_eq_zero_iff, List.filter_eq_nil_iff]
      intro x hx hg
      simp at hg
      exact hlt (hg ▸ hdim x ((hm x).mp hx))
  have hidx : ∀ x n, s.index G x = .value n ↔ s.indices[mapperIndex G allCodimLayout x]? = some (some n) := by
    intro x n
    simp only [ISet.index]
    split <;> simp_all
  have hin : ∀ x n, s.index G x = .value n → x ∈ L := by
    intro x n hx
    by_contra hx'
    have := hI.unused x hx'
    rw [hidx] at hx
    rw [this] at hx; simp at hx
  refine ⟨s, h1, ?_, ?_, ?_, ⟨L, hI.nodup, hm, ?_, ?_⟩, ?_⟩
  · intro x
    constructor
    · intro hx
      obtain ⟨n, hn, hlt⟩ := hI.used x ((hm x).mpr hx)
      exact ⟨by simp [ISet.contains, hn], n, (hidx x n).mpr hn, by rw [hsz]; exact hlt⟩
    · intro hx
      have := hI.unused x (fun h' => hx ((hm x).mp h'))
      exact ⟨by simp [ISet.contains, this], by simp [ISet.index, this]⟩
  · intro x y n hg hx hy
    exact hI.inj x (hin x n hx) y (hin y n hy) hg (by rw [(hidx x n).mp hx, (hidx y n).mp hy])
  · intro t n hn
    rw [hsz] at hn
    obtain ⟨x, hx, hg, hi⟩ := hI.surj t n hn
    exact ⟨x, hg, (hidx x n).mpr hi⟩
  · intro t; rw [hsz]; exact hI.gt t
  · intro c hc
    rw [ISet.sizeCodim, if_pos (by omega), hI.codim c hc]
  · intro c hc
    refine ⟨s.typesPerCodim c, by rw [ISet.types, if_pos (by omega)], (hI.types c hc).1, ?_⟩
    intro t
    rw [(hI.types c hc).2 t]
    simp only [hm]

/-- **C30.** An index, once given, is never changed by later insertions, and `subIndex` agrees with the index
of the sub-entity in every state. -/
theorem C30_stable {G : GridView E S} (hG : G.OK) (hD : DimOK G) (h h' : List E) :
    ∃ s s', ISet.run G h = some s ∧ ISet.run G (h ++ h') = some s' ∧
      (∀ x n, s.index G x = .value n → s'.index G x = .value n) ∧
      (∀ e c i, s.subIndex G e i c = s.index G (G.sub e c i)) := by
  obtain ⟨s, L, h1, hI, -⟩ := run_inv hG hD h
  obtain ⟨s', L', h2, -, -, h3⟩ := runFrom_inv hG hD h' hI
  refine ⟨s, s', h1, ?_, ?_, fun _ _ _ => rfl⟩
  · rw [ISet.run, List.foldlM_append]
    rw [ISet.run] at h1
    rw [h1]; exact h2
  · intro x n hx
    have hx' : s.indices[mapperIndex G allCodimLayout x]? = some (some n) := by
      revert hx; simp only [ISet.index]; split <;> simp_all
    simp only [ISet.index, h3 _ n hx']

/-- **C30.** Inserting an element again does not change anything. -/
theorem C30_reinsert {G : GridView E S} (hG : G.OK) (hD : DimOK G) (h : List E) (e : E) (he : e ∈ h) :
    ∃ s, ISet.run G h = some s ∧ s.insertElement G e = some s := by
  obtain ⟨s, L, h1, hI, hm⟩ := run_inv hG hD h
  obtain ⟨s', L', h2, -, -, -, h5⟩ := insertElement_inv hG hD e hI
  have := h5 fun y hy => (hm y).mpr ⟨e, he, hy⟩
  exact ⟨s, h1, by rw [h2, this]⟩

/-! ## Standard grids and an example -/

/-- The dimension contract holds for all grids with the standard reference elements. -/
theorem dimOK_std {G : GridView E S} (hs : Lagrange.StdGrid G) : DimOK G := by
  intro e c hc t ht
  rw [hs.std] at ht
  have h2 := (hs.base.elemMem e).2
  have h3 : ∀ g ∈ Lagrange.elemTypes, ∀ c ≤ g.dim, ∀ t ∈ Lagrange.stdSubs g c, t.dim + c = g.dim := by decide +kernel
  have := h3 _ (hs.type e) c (by omega) t ht
  omega

/-- The second triangle of the mesh of two triangles: 3 vertices, 3 edges and the triangle get indices; inserting the first
triangle adds one vertex and two edges. -/
example : ((ISet.run Lagrange.demoGrid.toGridView [1]).map fun s =>
      ((List.range 3).map (s.sizeCodim Lagrange.demoGrid.toGridView),
       (List.finRange 11).map (s.index Lagrange.demoGrid.toGridView))) =
    some ([some 1, some 3, some 3],
      [.invalidState, .value 0, .invalidState, .invalidState, .value 2, .value 0, .value 1, .invalidState, .value 2,
       .value 0, .value 1]) := by decide +kernel

example : ((ISet.run Lagrange.demoGrid.toGridView [1, 0, 1]).map fun s =>
      ((List.range 3).map (s.sizeCodim Lagrange.demoGrid.toGridView))) = some [some 2, some 5, some 4] := by decide +kernel

example : DimOK Lagrange.demoGrid.toGridView := dimOK_std Lagrange.demoGrid_std

end Verif.SubDomain
