import Verif.Functions.RoundTrip

/-!
# Entries of ranges for the leaves of a tree

Model of `HierarchicNodeToRangeMap` (dune/functions/functionspacebases/hierarchicnodetorangemap.hh), the default of `makeDiscreteGlobalBasisFunction` and `interpolate`.
-/

namespace Verif.NodeToRange

open Verif.IndexTree Verif.Container Verif.Discrete Verif.RoundTrip

variable {E X K : Type}

/-! ## Model -/

/-- Chained `operator[]` in a range of the given type (`resolveStaticMultiIndex`, indexaccess.hh:336-348, 420-424, see `C35_static`); `none`: does not compile, or out of range.
Dynamic vectors are not range types. -/
def rangeAt : List Nat → CT → Option CT
  | [], t => some t
  | i :: p, .arr n t => if i < n then rangeAt p t else none
  | i :: p, .tup ts => (ts[i]?).bind (rangeAt p)
  | _ :: _, _ => none

mutual
/-- Positions of the scalar entries in the order of `flatVectorView` (flatvectorview.hh). -/
def flat : CT → List Pos
  | .scalar => [[]]
  | .vec _ => []
  | .arr n t => (List.range n).flatMap fun i => (flat t).map (i :: ·)
  | .tup ts => flats 0 ts
def flats (k : Nat) : List CT → List Pos
  | [] => []
  | t :: ts => (flat t).map (k :: ·) ++ flats (k + 1) ts
end

/-- `HierarchicNodeToRangeMap::operator()`, hierarchicnodetorangemap.hh:36-48, for a range of type `ty`: ranges without `operator[]` are returned for all nodes, other ones are accessed with
the tree path. The result is the list of flat entries. -/
def hierarchic (ty : CT) (p : List Nat) : List Pos := match ty with
  | .scalar => [[]]
  | t => match rangeAt p t with
    | some t' => (flat t').map (p ++ ·)
    | none => []

/-! ## Specification -/

mutual
/-- The range type is nested like the tree: an array of equal types or a tuple for each inner node, anything for a leaf. -/
def Matches : Node E → CT → Prop
  | .mk d c, t => match d.feSize with
    | some _ => True
    | none => (∃ t', t = .arr c.length t' ∧ MatchesAll c t') ∨ ∃ ts, t = .tup ts ∧ MatchesTup c ts
def MatchesAll : List (Node E) → CT → Prop
  | [], _ => True
  | n :: ns, t => Matches n t ∧ MatchesAll ns t
def MatchesTup : List (Node E) → List CT → Prop
  | [], [] => True
  | n :: ns, t :: ts => Matches n t ∧ MatchesTup ns ts
  | _, _ => False
end

/-! ## Proof -/

mutual
theorem flat_nodup : (t : CT) → (flat t).Nodup
  | .scalar => by simp [flat]
  | .vec _ => by simp [flat]
  | .arr n t => by
    have ih := flat_nodup t
    rw [flat, List.nodup_flatMap]
    refine ⟨fun i _ => ih.map (fun a b h => by injection h), ?_⟩
    apply List.Pairwise.imp_of_mem _ List.nodup_range
    intro i j _ _ hij q hq hq'
    obtain ⟨_, _, rfl⟩ := List.mem_map.1 hq
    obtain ⟨_, _, h⟩ := List.mem_map.1 hq'
    injection h with h _
    exact hij h.symm
  | .tup ts => by rw [flat]; exact (flats_nodup 0 ts).1
theorem flats_nodup (k : Nat) : (ts : List CT) → (flats k ts).Nodup ∧ ∀ q ∈ flats k ts, ∃ i r, k ≤ i ∧ q = i :: r
  | [] => by simp [flats]
  | t :: ts => by
    have ih := flat_nodup t
    obtain ⟨h1, h2⟩ := flats_nodup (k + 1) ts
    rw [flats]
    refine ⟨List.Nodup.append (ih.map (fun a b h => by injection h)) h1 ?_, ?_⟩
    · intro q hq hq'
      obtain ⟨_, _, rfl⟩ := List.mem_map.1 hq
      obtain ⟨i, r, hi, h⟩ := h2 _ hq'
      injection h with h _
      omega
    · intro q hq
      rcases List.mem_append.1 hq with hq | hq
      · obtain ⟨r, _, rfl⟩ := List.mem_map.1 hq
        exact ⟨k, r, Nat.le_refl _, rfl⟩
      · obtain ⟨i, r, hi, h⟩ := h2 _ hq
        exact ⟨i, r, by omega, h⟩
end

theorem mem_flats : ∀ (ts : List CT) (k : Nat) (q : Pos), q ∈ flats k ts ↔ ∃ i t r, ts[i]? = some t ∧ r ∈ flat t ∧ q = (k + i) :: r
  | [], k, q => by simp [flats]
  | t :: ts, k, q => by
    rw [flats, List.mem_append, mem_flats ts (k + 1) q, List.mem_map]
    constructor
    · rintro (⟨r, hr, rfl⟩ | ⟨i, t', r, h1, h2, rfl⟩)
      · exact ⟨0, t, r, rfl, hr, rfl⟩
      · exact ⟨i + 1, t', r, by simpa using h1, h2, by rw [show k + 1 + i = k + (i + 1) by omega]⟩
    · rintro ⟨i, t', r, h1, h2, rfl⟩
      cases i with
      | zero =>
        simp only [List.getElem?_cons_zero, Option.some.injEq] at h1
        subst h1
        exact .inl ⟨r, h2, rfl⟩
      | succ i =>
        exact .inr ⟨i, t', r, by simpa using h1, h2, by rw [show k + 1 + i = k + (i + 1) by omega]⟩

/-- Entries of an entry are entries. -/
theorem flat_rangeAt : ∀ (p : List Nat) (t t' : CT) (q : Pos), rangeAt p t = some t' → q ∈ flat t' → p ++ q ∈ flat t
  | [], t, t', q, h, hq => by simp only [rangeAt, Option.some.injEq] at h; subst h; exact hq
  | i :: p, .scalar, t', q, h, _ => by simp [rangeAt] at h
  | i :: p, .vec _, t', q, h, _ => by simp [rangeAt] at h
  | i :: p, .arr n t, t', q, h, hq => by
    rw [rangeAt] at h
    split at h
    · next hi =>
      have := flat_rangeAt p t t' q h hq
      rw [flat, List.mem_flatMap]
      exact ⟨i, List.mem_range.2 hi, List.mem_map.2 ⟨_, this, rfl⟩⟩
    · cases h
  | i :: p, .tup ts, t', q, h, hq => by
    rw [rangeAt] at h
    cases ht : ts[i]? with
    | none => simp [ht] at h
    | some t =>
      rw [ht] at h
      have := flat_rangeAt p t t' q h hq
      rw [flat, mem_flats]
      exact ⟨i, t, p ++ q, ht, this, by simp⟩

mutual
/-- Leaf paths are not prefixes of each other. -/
theorem leaves_free : (n : Node E) → (n.leaves.map (·.1)).Pairwise (fun p q => ¬ p <+: q ∧ ¬ q <+: p)
  | .mk d c => by
    rw [Node.leaves]
    split
    · simp
    · exact (leavesList_free 0 c).1
theorem leavesList_free (k : Nat) : (c : List (Node E)) → ((Node.leavesList k c).map (·.1)).Pairwise (fun p q => ¬ p <+: q ∧ ¬ q <+: p) ∧
    ∀ l ∈ Node.leavesList k c, ∃ i r, k ≤ i ∧ l.1 = i :: r
  | [] => by simp [Node.leavesList]
  | n :: ns => by
    have ih := leaves_free n
    obtain ⟨h1, h2⟩ := leavesList_free (k + 1) ns
    rw [Node.leavesList]
    refine ⟨?_, ?_⟩
    · rw [List.map_append, List.pairwise_append]
      refine ⟨?_, h1, ?_⟩
      · rw [List.map_map]
        rw [List.pairwise_map] at ih ⊢
        refine ih.imp ?_
        intro a b h
        simpa [List.cons_prefix_cons] using h
      · intro p hp q hq
        simp only [List.map_map, List.mem_map] at hp hq
        obtain ⟨l, _, rfl⟩ := hp
        obtain ⟨l', hl', rfl⟩ := hq
        obtain ⟨i, r, hi, h⟩ := h2 l' hl'
        rw [h]
        constructor
        · intro hc
          rw [Function.comp_apply, List.cons_prefix_cons] at hc
          omega
        · intro hc
          rw [Function.comp_apply, List.cons_prefix_cons] at hc
          omega
    · intro l hl
      rcases List.mem_append.1 hl with hl | hl
      · obtain ⟨l', _, rfl⟩ := List.mem_map.1 hl
        exact ⟨k, l'.1, Nat.le_refl _, rfl⟩
      · obtain ⟨i, r, hi, h⟩ := h2 l hl
        exact ⟨i, r, by omega, h⟩
end

mutual
/-- All scalar entries belong to a leaf. -/
theorem cover : (n : Node E) → (t : CT) → Matches n t → ∀ q ∈ flat t, ∃ l ∈ n.leaves, ∃ t' q', rangeAt l.1 t = some t' ∧ q' ∈ flat t' ∧ q = l.1 ++ q'
  | .mk d c, t, h, q, hq => by
    rw [Matches] at h
    rw [Node.leaves]
    cases hd : d.feSize with
    | some sz => exact ⟨([], .mk d c), by simp, t, q, rfl, hq, rfl⟩
    | none =>
      rw [hd] at h
      simp only at h ⊢
      rcases h with ⟨t', rfl, h⟩ | ⟨ts, rfl, h⟩
      · rw [flat, List.mem_flatMap] at hq
        obtain ⟨i, hi, hq⟩ := hq
        obtain ⟨r, hr, rfl⟩ := List.mem_map.1 hq
        rw [List.mem_range] at hi
        obtain ⟨l, hl, p, t'', q', h1, h2, h3, h4⟩ := coverAll 0 c t' h i (by omega) (by omega) r hr
        refine ⟨l, hl, t'', q', ?_, h3, by rw [h1, h4]; rfl⟩
        rw [h1, rangeAt, if_pos hi, h2]
      · rw [flat, mem_flats] at hq
        obtain ⟨i, t, r, hi, hr, rfl⟩ := hq
        obtain ⟨l, hl, p, t'', q', h1, h2, h3, h4⟩ := coverTup 0 c ts h i t hi r hr
        refine ⟨l, hl, t'', q', ?_, h3, by rw [h1, h4]; rfl⟩
        rw [h1, rangeAt, Nat.zero_add, hi, Option.bind_some, h2]
theorem coverAll (k : Nat) : (c : List (Node E)) → (t : CT) → MatchesAll c t → ∀ i, k ≤ i → i < k + c.length → ∀ q ∈ flat t,
    ∃ l ∈ Node.leavesList k c, ∃ p t' q', l.1 = i :: p ∧ rangeAt p t = some t' ∧ q' ∈ flat t' ∧ q = p ++ q'
  | [], t, _, i, h1, h2, q, _ => by simp at h2; omega
  | n :: ns, t, h, i, h1, h2, q, hq => by
    rw [MatchesAll] at h
    rw [Node.leavesList]
    by_cases hi : i = k
    · subst hi
      obtain ⟨l, hl, t', q', g1, g2, g3⟩ := cover n t h.1 q hq
      exact ⟨_, List.mem_append_left _ (List.mem_map.2 ⟨l, hl, rfl⟩), l.1, t', q', rfl, g1, g2, g3⟩
    · simp only [List.length_cons] at h2
      obtain ⟨l, hl, g⟩ := coverAll (k + 1) ns t h.2 i (by omega) (by omega) q hq
      exact ⟨l, List.mem_append_right _ hl, g⟩
theorem coverTup (k : Nat) : (c : List (Node E)) → (ts : List CT) → MatchesTup c ts → ∀ (i : Nat) t, ts[i]? = some t → ∀ q ∈ flat t,
    ∃ l ∈ Node.leavesList k c, ∃ p t' q', l.1 = (k + i) :: p ∧ rangeAt p t = some t' ∧ q' ∈ flat t' ∧ q = p ++ q'
  | _, [], _, i, t, hi, q, _ => by simp at hi
  | [], t0 :: ts, h, i, t, hi, q, _ => by simp [MatchesTup] at h
  | n :: ns, t0 :: ts, h, i, t, hi, q, hq => by
    rw [MatchesTup] at h
    rw [Node.leavesList]
    cases i with
    | zero =>
      simp only [List.getElem?_cons_zero, Option.some.injEq] at hi
      subst hi
      obtain ⟨l, hl, t', q', g1, g2, g3⟩ := cover n t0 h.1 q hq
      exact ⟨_, List.mem_append_left _ (List.mem_map.2 ⟨l, hl, rfl⟩), l.1, t', q', rfl, g1, g2, g3⟩
    | succ i =>
      obtain ⟨l, hl, p, t', q', g1, g⟩ := coverTup (k + 1) ns ts h.2 i t (by simpa using hi) q hq
      exact ⟨l, List.mem_append_right _ hl, p, t', q', by rw [g1]; congr 1; omega, g⟩
end

mutual
theorem leaves_blank : (n : Node E) → n.blank.leaves.map (·.1) = n.leaves.map (·.1)
  | .mk d c => by
    rw [Node.blank, Node.leaves, Node.leaves]
    cases d.feSize with
    | some sz => rfl
    | none => exact leavesList_blank 0 c
theorem leavesList_blank (k : Nat) : (c : List (Node E)) →
    (Node.leavesList k (Node.blankList c)).map (·.1) = (Node.leavesList k c).map (·.1)
  | [] => rfl
  | n :: ns => by
    rw [Node.blankList, Node.leavesList, Node.leavesList, List.map_append, List.map_append, leavesList_blank (k + 1) ns]
    congr 1
    have := congrArg (List.map (k :: ·)) (leaves_blank n)
    simpa [Function.comp_def] using this
end

theorem child_blank (p : List Nat) (n : Node E) : Node.child p n.blank = (Node.child p n).map Node.blank := by
  induction p generalizing n with
  | nil => rfl
  | cons k p ih =>
    cases n with
    | mk d c =>
      simp only [Node.blank, Node.child, Node.children, Node.blankList_eq_map, List.getElem?_map]
      cases c[k]? with
      | none => rfl
      | some m => simpa using ih m

theorem slots_paths {b : PB E} (hb : b.WF) {pre : List Nat} {n : Node E} (hn : Node.child pre b.model.makeNode = some n) (e : E) :
    (slotsOn ⟨b.model, pre⟩ e).map (·.1) = n.leaves.map (·.1) := by
  have R := b.refines hb
  have hbind := LocalView.bind_eq R _ (LocalView.fresh_blank b.model) e
  have h1 : (Node.child pre (Node.bindTree e 0 (LocalView.fresh b.model).tree)).map Node.blank = some n.blank := by
    rw [← child_blank, Node.blank_bindTree, LocalView.fresh_blank, child_blank, hn]
    rfl
  obtain ⟨t, ht, htb⟩ := Option.map_eq_some_iff.1 h1
  rw [slotsOn]
  simp only [hbind, ht]
  rw [Node.slots, List.map_map, ← leaves_blank n, ← htb, leaves_blank t]
  rfl

theorem hierarchic_eq {ty : CT} (h : ty ≠ .scalar) (p : List Nat) :
    hierarchic ty p = match rangeAt p ty with
      | some t' => (flat t').map (p ++ ·)
      | none => [] := by
  cases ty with
  | scalar => exact absurd rfl h
  | vec t => rfl
  | arr n t => rfl
  | tup ts => rfl

theorem hierarchic_nodup (ty : CT) (p : List Nat) : (hierarchic ty p).Nodup := by
  by_cases h : ty = .scalar
  · subst h; simp [hierarchic]
  · rw [hierarchic_eq h]
    split
    · exact (flat_nodup _).map (fun a b h => List.append_cancel_left h)
    · exact List.nodup_nil

theorem hierarchic_disjoint {ty : CT} (h : ty ≠ .scalar) {p q : List Nat} (hpq : ¬ p <+: q ∧ ¬ q <+: p) :
    List.Disjoint (hierarchic ty p) (hierarchic ty q) := by
  intro x hx hx'
  have hp : ∀ r, x ∈ hierarchic ty r → r <+: x := by
    intro r hr
    rw [hierarchic_eq h] at hr
    split at hr
    · obtain ⟨y, _, rfl⟩ := List.mem_map.1 hr
      exact List.prefix_append _ _
    · simp at hr
  rcases List.prefix_or_prefix_of_prefix (hp p hx) (hp q hx') with h1 | h1
  · exact hpq.1 h1
  · exact hpq.2 h1

theorem hierarchic_sub {ty : CT} (p : List Nat) : ∀ x ∈ hierarchic ty p, x ∈ flat ty := by
  intro x hx
  by_cases h : ty = .scalar
  · subst h; simpa [hierarchic, flat] using hx
  · rw [hierarchic_eq h] at hx
    split at hx
    · next t' ht =>
      obtain ⟨y, hy, rfl⟩ := List.mem_map.1 hx
      exact flat_rangeAt p ty t' y ht hy
    · simp at hx

/-- A range without `operator[]` is used for single leaves only. -/
def IndexedOrLeaf (n : Node E) (ty : CT) : Prop := ty = .scalar → n.data.feSize ≠ none

theorem leaves_pairwise {n : Node E} {ty : CT} (h : IndexedOrLeaf n ty) :
    (n.leaves.map (·.1)).Pairwise fun p q => List.Disjoint (hierarchic ty p) (hierarchic ty q) := by
  by_cases hs : ty = .scalar
  · have := h hs
    cases n with
    | mk d c =>
      rw [Node.leaves]
      split
      · simp
      · next hd => exact absurd hd this
  · exact (leaves_free n).imp fun h => hierarchic_disjoint hs h

/-! ## Theorems -/

/-- **C76.** Every scalar entry of the range belongs to exactly one leaf of the (sub)tree, for all elements, if the range is nested like the tree. -/
theorem C76 {b : PB E} (hb : b.WF) {pre : List Nat} {n : Node E} (hn : Node.child pre b.model.makeNode = some n) {ty : CT}
    (hm : Matches n ty) (hs : IndexedOrLeaf n ty) (e : E) :
    (∀ q ∈ flat ty, ∃ p, (p ∈ (slotsOn ⟨b.model, pre⟩ e).map (·.1) ∧ q ∈ hierarchic ty p) ∧
      ∀ p', p' ∈ (slotsOn ⟨b.model, pre⟩ e).map (·.1) → q ∈ hierarchic ty p' → p' = p) ∧
    ∀ p ∈ (slotsOn ⟨b.model, pre⟩ e).map (·.1), (hierarchic ty p).Nodup ∧ ∀ q ∈ hierarchic ty p, q ∈ flat ty := by
  rw [slots_paths hb hn]
  refine ⟨?_, fun p _ => ⟨hierarchic_nodup ty p, hierarchic_sub p⟩⟩
  intro q hq
  have hcov : ∃ p ∈ n.leaves.map (·.1), q ∈ hierarchic ty p := by
    obtain ⟨l, hl, t', q', h1, h2, h3⟩ := cover n ty hm q hq
    refine ⟨l.1, List.mem_map.2 ⟨l, hl, rfl⟩, ?_⟩
    by_cases h : ty = .scalar
    · subst h; simpa [hierarchic, flat] using hq
    · rw [hierarchic_eq h, h1, h3]
      exact List.mem_map.2 ⟨q', h2, rfl⟩
  obtain ⟨p, hp, hqp⟩ := hcov
  refine ⟨p, ⟨hp, hqp⟩, fun p' hp' hqp' => ?_⟩
  by_contra hne
  have : Std.Symm fun p q => List.Disjoint (hierarchic ty p) (hierarchic ty q) := ⟨fun _ _ h => h.symm⟩
  exact (leaves_pairwise hs).forall hp' hp hne hqp' hqp

/-- Different leaves get different entries. -/
theorem separate {b : PB E} (hb : b.WF) {pre : List Nat} {n : Node E} (hn : Node.child pre b.model.makeNode = some n)
    (P : Shapes E X K) (ty : Bool → CT) (hP : P.ntre = fun d => hierarchic (ty d)) (hs : ∀ d, IndexedOrLeaf n (ty d)) :
    Separate ⟨b.model, pre⟩ P := by
  intro d e
  rw [hP]
  refine ⟨?_, fun s _ => hierarchic_nodup _ _⟩
  have h := leaves_pairwise (hs d)
  rw [← slots_paths hb hn e, List.pairwise_map] at h
  exact h.filter _

variable [CommRing K]

/-- **C76, evaluation.** With the default map all entries of a bound local function are values of the leaf they belong to: entry `k` of the leaf with path `p` is the linear combination of
the shape functions of this leaf, whatever the other leaves are (compare `C41_linearCombination_partial`, which has a condition about the leaves that follow). -/
theorem C76_eval {b : PB E} (hb : b.WF) {pre : List Nat} (hp : HasPath b pre) {n : Node E} (hn : Node.child pre b.model.makeNode = some n)
    (P : Shapes E X K) (hP : P.OK ⟨b.model, pre⟩) (ty : Bool → CT) (hty : P.ntre = fun d => hierarchic (ty d)) (hs : ∀ d, IndexedOrLeaf n (ty d))
    {v0 : Vec K} (hv0 : VecOK ⟨b.model, pre⟩ P.dimC v0) (ops : List (Op E K))
    (hvec : ∀ v, .setVec v ∈ ops → VecOK ⟨b.model, pre⟩ P.dimC v)
    (hA : (∃ p, P.uses p = true) → ∀ i j, .assign i j ∉ ops) {a : Abs E K} (ha : absRun (v0, []) ops = some a) :
    ∃ s, Discrete.run ⟨b.model, pre⟩ ⟨v0, []⟩ ops = some s ∧ ∀ i d e v, aget a i = some (d, some (e, v)) → ∀ x,
      ∃ y, eval ⟨b.model, pre⟩ P s i x = some y ∧
        ∀ p off m, (p, off, m) ∈ slotsOn ⟨b.model, pre⟩ e → m ≠ 0 →
          ∀ j < P.dimC, ∀ r < P.rows p, ∀ c < P.outCols d, ∃ q, (hierarchic (ty d) p)[(j * P.rows p + r) * P.outCols d + c]? = some q ∧
            y q = entry ⟨b.model, pre⟩ P d e v x p off m j r c := by
  obtain ⟨s, h1, h2⟩ := C41_linearCombination_partial hb hp P hP hv0 ops hvec hA ha
  refine ⟨s, h1, fun i d e v hi x => ?_⟩
  obtain ⟨y, hy, h3, -⟩ := h2 i d e v hi x
  refine ⟨y, hy, fun p off m hmem hm j hj r hr c hc => ?_⟩
  have hlen := hP.range d e _ hmem
  rw [hty] at hlen
  have hlt : (j * P.rows p + r) * P.outCols d + c < (hierarchic (ty d) p).length := by
    rw [hlen]
    have h4 : j * P.rows p + r + 1 ≤ P.dimC * P.rows p := by
      calc j * P.rows p + r + 1 ≤ j * P.rows p + P.rows p := by omega
        _ = (j + 1) * P.rows p := by ring
        _ ≤ _ := Nat.mul_le_mul_right _ hj
    calc (j * P.rows p + r) * P.outCols d + c < (j * P.rows p + r) * P.outCols d + P.outCols d := by omega
      _ = (j * P.rows p + r + 1) * P.outCols d := by ring
      _ ≤ P.dimC * P.rows p * P.outCols d := Nat.mul_le_mul_right _ h4
      _ = _ := by ring
  obtain ⟨S1, S2, hS⟩ := List.append_of_mem hmem
  refine ⟨_, List.getElem?_eq_getElem hlt, h3 S1 p off m S2 hS hm _ ?_ (by rw [hty]; exact hierarchic_nodup _ _) j hj r hr c hc ?_⟩
  · intro s' hs' hne hq
    have h5 := (separate hb hn P ty hty hs d e).1
    rw [hS, List.filter_append, List.filter_cons_of_pos (by simpa using hm)] at h5
    have h6 := (List.pairwise_cons.1 (List.pairwise_append.1 h5).2.1).1 s' (List.mem_filter.2 ⟨hs', by simpa using hne⟩)
    refine h6 ?_ hq
    rw [hty]
    exact List.getElem_mem hlt
  · rw [hty]
    exact List.getElem?_eq_getElem hlt

/-- **C76, round trip.** `C63_all` for the default map: no condition on the entries of the range. -/
theorem C76_roundTrip {rs : CT → List (Ct K) → Nat → List (Ct K)} (hrs : ResizeOK rs) {b : PB E} (hb : b.WF)
    (P : Shapes E X K) (hP : P.OK ⟨b.model, []⟩) (hd : P.dimC = 1)
    (rty : Bool → CT) (hrty : P.ntre = fun d => hierarchic (rty d)) (hs : ∀ d, IndexedOrLeaf b.model.makeNode (rty d)) {N : Functionals E X K}
    {needs : List Nat → E → Bool} (hN : Dual ⟨b.model, []⟩ P N needs) (init : Option E → Option E) {v : Vec K}
    (hv : VecOK ⟨b.model, []⟩ 1 v) (ty : CT) (es : List E) (hes : ∀ e, e ∈ es) (c c1 : Ct K) (hc : HasType ty c)
    (hr : Container.resize rs b.model.size ty c = .ok c1)
    (hty : ∀ m ∈ IndexSet b.model, ∀ t, CT.at m ty = some t → t.Padded) :
    ∃ c', Interpolate.interpolate rs b.model [] ty (discreteInterp ⟨b.model, []⟩ P N needs init v) .allTrue es c = .ok c' ∧
      ∀ m ∈ IndexSet b.model, ∃ x, v m = some [x] ∧ access isScalar c' m = some (.scalar x) :=
  C63_all hrs hb P hP hd (separate hb rfl P rty hrty hs) hN init hv ty es hes c c1 hc hr hty

/-! ## Examples -/

/-- Velocity with two components and pressure, range `tuple<FieldVector<2>, double>`. -/
def exTree : PB Bool := .composite true [.power .flatInt 2 (.leaf exLeaf), .leaf exLeaf]
def exTy : CT := .tup [.arr 2 .scalar, .scalar]

example : flat exTy = [[0, 0], [0, 1], [1]] := by decide +kernel
example : (slotsOn ⟨exTree.model, []⟩ true).map (fun s => hierarchic exTy s.1) = [[[0, 0]], [[0, 1]], [[1]]] := by decide +kernel
/-- A vector valued leaf gets the whole vector. -/
example : hierarchic exTy [0] = [[0, 0], [0, 1]] := by decide +kernel

theorem exTree_WF : exTree.WF := by simp [exTree, PB.WF, PB.WFs, exLeaf]
theorem exTy_matches : Matches exTree.model.makeNode exTy := by
  simp [exTree, exTy, PB.model, PB.models, compositePB, powerPB, leafPB, Matches, MatchesAll, MatchesTup, List.replicate]
theorem exTy_indexed (n : Node Bool) : IndexedOrLeaf n exTy := by simp [IndexedOrLeaf, exTy]

example := C76 exTree_WF (pre := []) rfl exTy_matches (exTy_indexed _) true

/-- The range is `FieldVector<1,2>` for the values and `FieldMatrix<2,1>` for the derivative. -/
def exRange (d : Bool) : CT := if d then .arr 2 (.arr 1 .scalar) else .arr 2 .scalar
def exP : Shapes Bool Int Int := exShapes true fun d => hierarchic (exRange d)

theorem exP_OK : exP.OK ⟨Discrete.exBasis.model, []⟩ := by
  have h := exShapes_OK true [] (.inl rfl)
  refine ⟨h.number, h.rows, ?_⟩
  intro d e s hs
  rw [ex_slots] at hs
  simp only [List.mem_cons, List.not_mem_nil, or_false] at hs
  rcases hs with rfl | rfl <;> cases d <;> rfl
theorem exRange_indexed (n : Node Bool) (d : Bool) : IndexedOrLeaf n (exRange d) := by cases d <;> simp [IndexedOrLeaf, exRange]

example := C76_eval (b := Discrete.exBasis) (by simp [Discrete.exBasis, PB.WF, exLeaf]) (.nil _) rfl exP exP_OK exRange rfl (exRange_indexed _)
  (exVec_OK 1 _) Discrete.exOps (by intro v hv; simp [Discrete.exOps] at hv; subst hv; exact exVec_OK 100 _) (by simp [Discrete.exOps])
    (a := (exVec 100, [some (false, some (false, exVec 100)), none, some (true, some (true, exVec 100)),
      some (true, some (true, exVec 100))])) rfl
example : Discrete.exEval [] exP Discrete.exOps 0 3 [[0], [1]] = some [(1 - 3) * 2000 + 3 * 1000, (1 - 3) * 2100 + 3 * 1100] := by decide +kernel
example : Discrete.exEval [] exP Discrete.exOps 3 7 [[0, 0], [1, 0]] = some [2 * (1000 - 0), 2 * (1100 - 100)] := by decide +kernel

example : ∃ c', Interpolate.interpolate (stdResize 0) Discrete.exBasis.model [] (.vec (.arr 2 .scalar))
      (discreteInterp ⟨Discrete.exBasis.model, []⟩ exP exN (fun _ _ => false) id (exVec 1)) .allTrue
      [false, true] exCoef = .ok c' ∧
    ∀ m ∈ IndexSet Discrete.exBasis.model, ∃ x, exVec 1 m = some [x] ∧ access isScalar c' m = some (.scalar x) :=
  C76_roundTrip (stdResize_OK 0) (b := Discrete.exBasis) (by simp [Discrete.exBasis, PB.WF, exLeaf]) _ exP_OK rfl exRange rfl (exRange_indexed _)
    (N := exN) (needs := fun _ _ => false) (fun e s hs c hc => ex_dual e s hs c hc) id (exVec_OK 1 _) (.vec (.arr 2 .scalar)) [false, true] (by decide)
    exCoef (.vec [.arr [.scalar 7, .scalar 7], .arr [.scalar 0, .scalar 0], .arr [.scalar 0, .scalar 0]]) (by simp [HasType, exCoef]) rfl
    (fun m _ t ht => ex_padded m t ht)

end Verif.NodeToRange
