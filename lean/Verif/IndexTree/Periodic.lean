import Verif.IndexTree.Tree

/-!
# Periodic bases

Model of `periodicbasis.hh` and `transformedindexbasis.hh`.
-/

namespace Verif.IndexTree

variable {E : Type}

/-! ## Model -/

/-- Order of `std::pair` in `std::set`: lexicographic. -/
def pairLt (p q : Nat × Nat) : Prop := p.1 < q.1 ∨ (p.1 = q.1 ∧ p.2 < q.2)

instance (p q : Nat × Nat) : Decidable (pairLt p q) := by unfold pairLt; infer_instance

/-- `std::set<std::pair<..>>::insert`, the set is represented by its iteration order. -/
def setInsert (p : Nat × Nat) : List (Nat × Nat) → List (Nat × Nat)
  | [] => [p]
  | q :: s => if pairLt p q then p :: q :: s else if p = q then q :: s else q :: setInsert p s

/-- `PeriodicIndexSet::unifyIndexPair`, periodicbasis.hh:52-59. -/
def unifyIndexPair (s : List (Nat × Nat)) (a b : Nat) : List (Nat × Nat) :=
  let (a, b) := if a > b then (b, a) else (a, b)
  if a = b then s else setInsert (a, b) s

/-- The loop `for(; i<..; ++i) if (mappedIdx_[i]==invalid) mappedIdx_[i] = numIndices_++` for `k`
steps, periodicbasis.hh:93-95 and 98-100. `none` entries are `invalid`; the numbers are below the
size of the raw basis and hence never equal to `invalid`. Out of range: undefined. -/
def numberLoop : Nat → Nat → List (Option Nat) × Nat → Option (List (Option Nat) × Nat)
  | 0, _, s => some s
  | k+1, i, (m, n) =>
    match m[i]? with
    | none => none
    | some (some _) => numberLoop k (i+1) (m, n)
    | some none => numberLoop k (i+1) (m.set i (some n), n+1)

/-- Body of the loop over the index pairs, periodicbasis.hh:91-97; state: map, number of indices,
`i`. -/
def pairStep (st : (List (Option Nat) × Nat) × Nat) (p : Nat × Nat) :
    Option ((List (Option Nat) × Nat) × Nat) :=
  (numberLoop (p.1 + 1 - st.2) st.2 st.1).bind fun mn =>
  (mn.1[p.1]?).bind fun v =>
    if p.2 < mn.1.length then some ((mn.1.set p.2 v, mn.2), max st.2 (p.1 + 1)) else none

def pairLoop : List (Nat × Nat) → (List (Option Nat) × Nat) × Nat →
    Option ((List (Option Nat) × Nat) × Nat)
  | [], st => some st
  | p :: ps, st => (pairStep st p).bind (pairLoop ps)

/-- Constructor of `PeriodicIndexingTransformation`, periodicbasis.hh:84-102: `N` is the size of
the raw basis, `s` the set of pairs in iteration order. -/
def periodicMap (N : Nat) (s : List (Nat × Nat)) : Option (List (Option Nat) × Nat) :=
  (pairLoop s ((List.replicate N none, 0), 0)).bind fun st =>
    numberLoop (N - st.2) st.2 st.1

/-! ## Lemmas on the set of pairs -/

theorem mem_setInsert (p q : Nat × Nat) (s : List (Nat × Nat)) :
    q ∈ setInsert p s ↔ q = p ∨ q ∈ s := by
  induction s with
  | nil => simp [setInsert]
  | cons r s ih =>
    simp only [setInsert]
    split
    · simp
    · split
      · rename_i h; subst h; simp
      · simp [ih]; exact or_left_comm

theorem pairLt_trans {p q r : Nat × Nat} (h1 : pairLt p q) (h2 : pairLt q r) : pairLt p r := by
  simp only [pairLt] at *; omega

theorem setInsert_sorted (p : Nat × Nat) (s : List (Nat × Nat)) (h : s.Pairwise pairLt) :
    (setInsert p s).Pairwise pairLt := by
  induction s with
  | nil => simp [setInsert]
  | cons r s ih =>
    simp only [setInsert]
    rw [List.pairwise_cons] at h
    split
    · rename_i hlt
      rw [List.pairwise_cons]
      refine ⟨?_, List.pairwise_cons.mpr h⟩
      intro q hq
      rcases List.mem_cons.mp hq with rfl | hq
      · exact hlt
      · exact pairLt_trans hlt (h.1 q hq)
    · split
      · exact List.pairwise_cons.mpr h
      · rename_i h1 h2
        rw [List.pairwise_cons]
        refine ⟨?_, ih h.2⟩
        intro q hq
        rcases (mem_setInsert p q s).mp hq with rfl | hq
        · obtain ⟨a, b⟩ := q; obtain ⟨c, d⟩ := r
          simp only [pairLt, Prod.mk.injEq] at *; omega
        · exact h.1 q hq

/-- The pairs in the set after a sequence of calls of `unifyIndexPair`. -/
def unifyAll (calls : List (Nat × Nat)) : List (Nat × Nat) :=
  calls.foldl (fun s p => unifyIndexPair s p.1 p.2) []

theorem unifyIndexPair_mem (s : List (Nat × Nat)) (a b : Nat) (q : Nat × Nat) :
    q ∈ unifyIndexPair s a b ↔ q ∈ s ∨ (a ≠ b ∧ q = (min a b, max a b)) := by
  unfold unifyIndexPair
  by_cases h : a > b
  · simp only [h, if_true]
    rw [if_neg (by omega), mem_setInsert, Nat.min_eq_right (by omega), Nat.max_eq_left (by omega)]
    have : a ≠ b := by omega
    simp [this, or_comm]
  · simp only [h, if_false]
    by_cases hab : a = b
    · simp [hab]
    · rw [if_neg hab, mem_setInsert, Nat.min_eq_left (by omega), Nat.max_eq_right (by omega)]
      simp [hab, or_comm]

theorem unifyIndexPair_sorted (s : List (Nat × Nat)) (a b : Nat) (h : s.Pairwise pairLt) :
    (unifyIndexPair s a b).Pairwise pairLt := by
  unfold unifyIndexPair
  by_cases hab : a > b
  · simp only [hab, if_true]
    split
    · exact h
    · exact setInsert_sorted _ _ h
  · simp only [hab, if_false]
    split
    · exact h
    · exact setInsert_sorted _ _ h

theorem unifyAll_spec (calls : List (Nat × Nat)) :
    (unifyAll calls).Pairwise pairLt ∧ ∀ q, q ∈ unifyAll calls ↔
      ∃ p ∈ calls, p.1 ≠ p.2 ∧ q = (min p.1 p.2, max p.1 p.2) := by
  have key : ∀ (calls s : List (Nat × Nat)), s.Pairwise pairLt →
      (calls.foldl (fun s p => unifyIndexPair s p.1 p.2) s).Pairwise pairLt ∧
      ∀ q, q ∈ calls.foldl (fun s p => unifyIndexPair s p.1 p.2) s ↔
        q ∈ s ∨ ∃ p ∈ calls, p.1 ≠ p.2 ∧ q = (min p.1 p.2, max p.1 p.2) := by
    intro calls
    induction calls with
    | nil => intro s hs; simp [hs]
    | cons p ps ih =>
      intro s hs
      obtain ⟨h1, h2⟩ := ih _ (unifyIndexPair_sorted s p.1 p.2 hs)
      refine ⟨h1, fun q => ?_⟩
      rw [List.foldl_cons, h2 q, unifyIndexPair_mem]
      simp [or_assoc]
  obtain ⟨h1, h2⟩ := key calls [] List.Pairwise.nil
  exact ⟨h1, fun q => by rw [unifyAll, h2 q]; simp⟩

/-! ## The numbering loop -/

/-- Effect of `numberLoop k i` on the map. -/
structure Numbered (i k : Nat) (m : List (Option Nat)) (n : Nat) (m' : List (Option Nat)) (n' : Nat) :
    Prop where
  len : m'.length = m.length
  mono : n ≤ n'
  keep : ∀ (j v : Nat), m[j]? = some (some v) → m'[j]? = some (some v)
  outside : ∀ (j : Nat), ¬ (i ≤ j ∧ j < i + k) → m'[j]? = m[j]?
  assigned : ∀ (j : Nat), i ≤ j → j < i + k → ∃ v, m'[j]? = some (some v)
  new : ∀ (j v : Nat), m[j]? = some none → m'[j]? = some (some v) → n ≤ v ∧ v < n'
  inj : ∀ (j j' v : Nat), m[j]? = some none → m[j']? = some none → m'[j]? = some (some v) →
    m'[j']? = some (some v) → j = j'
  surj : ∀ (v : Nat), n ≤ v → v < n' → ∃ j, i ≤ j ∧ j < i + k ∧ m'[j]? = some (some v)

theorem numberLoop_spec (k : Nat) (i : Nat) (m : List (Option Nat)) (n : Nat) (h : i + k ≤ m.length) :
    ∃ m' n', numberLoop k i (m, n) = some (m', n') ∧ Numbered i k m n m' n' := by
  induction k generalizing i m n with
  | zero =>
    refine ⟨m, n, rfl, rfl, Nat.le_refl _, fun j v h => h, fun _ _ => rfl, by omega, ?_, ?_, by omega⟩
    · intro j v h1 h2; rw [h1] at h2; simp at h2
    · intro j j' v h1 _ h2; rw [h1] at h2; simp at h2
  | succ k ih =>
    have hi : i < m.length := by omega
    rw [numberLoop]
    cases hm : m[i]? with
    | none => rw [List.getElem?_eq_none_iff] at hm; omega
    | some o =>
      cases o with
      | some w =>
        obtain ⟨m', n', h1, H⟩ := ih (i+1) m n (by omega)
        refine ⟨m', n', h1, H.len, H.mono, H.keep, ?_, ?_, H.new, H.inj, ?_⟩
        · intro j hj; exact H.outside j (by omega)
        · intro j hj1 hj2
          by_cases hji : j = i
          · subst hji; exact ⟨w, H.keep _ _ hm⟩
          · exact H.assigned j (by omega) (by omega)
        · intro v hv1 hv2
          obtain ⟨j, h2, h3, h4⟩ := H.surj v hv1 hv2
          exact ⟨j, by omega, by omega, h4⟩
      | none =>
        obtain ⟨m', n', h1, H⟩ := ih (i+1) (m.set i (some n)) (n+1) (by simp; omega)
        have hset : (m.set i (some n))[i]? = some (some n) := List.getElem?_set_self hi
        have hne : ∀ j, j ≠ i → (m.set i (some n))[j]? = m[j]? := fun j hj =>
          List.getElem?_set_ne (Ne.symm hj)
        have hmi := H.keep i n hset
        refine ⟨m', n', h1, by rw [H.len]; simp, by have := H.mono; omega, ?_, ?_, ?_, ?_, ?_, ?_⟩
        · intro j v hj
          apply H.keep
          rw [hne j (by intro hji; subst hji; rw [hm] at hj; simp at hj)]
          exact hj
        · intro j hj
          rw [H.outside j (by omega), hne j (by omega)]
        · intro j hj1 hj2
          by_cases hji : j = i
          · subst hji; exact ⟨n, hmi⟩
          · exact H.assigned j (by omega) (by omega)
        · intro j v hj1 hj2
          by_cases hji : j = i
          · subst hji
            rw [hmi] at hj2
            simp at hj2
            have := H.mono; omega
          · have := H.new j v (by rw [hne j hji]; exact hj1) hj2
            omega
        · intro j j' v a1 a2 b1 b2
          by_cases hji : j = i
          · by_cases hji' : j' = i
            · omega
            · subst hji
              rw [hmi] at b1
              simp at b1
              have := H.new j' v (by rw [hne j' hji']; exact a2) b2
              omega
          · by_cases hji' : j' = i
            · subst hji'
              rw [hmi] at b2
              simp at b2
              have := H.new j v (by rw [hne j hji]; exact a1) b1
              omega
            · exact H.inj j j' v (by rw [hne j hji]; exact a1) (by rw [hne j' hji']; exact a2) b1 b2
        · intro v hv1 hv2
          by_cases hv : v = n
          · subst hv; exact ⟨i, by omega, by omega, hmi⟩
          · obtain ⟨j, h2, h3, h4⟩ := H.surj v (by omega) hv2
            exact ⟨j, by omega, by omega, h4⟩

/-! ## The loop over the pairs -/

/-- Smallest equivalence relation containing the pairs. -/
inductive Connected (S : List (Nat × Nat)) : Nat → Nat → Prop
  | refl (a) : Connected S a a
  | pair {a b} : (a, b) ∈ S → Connected S a b
  | symm {a b} : Connected S a b → Connected S b a
  | trans {a b c} : Connected S a b → Connected S b c → Connected S a c

theorem Connected.mono {S T : List (Nat × Nat)} (h : ∀ p ∈ S, p ∈ T) {a b : Nat} (c : Connected S a b) :
    Connected T a b := by
  induction c with
  | refl a => exact .refl a
  | pair hm => exact .pair (h _ hm)
  | symm _ ih => exact .symm ih
  | trans _ _ ih1 ih2 => exact .trans ih1 ih2

structure PInv (N : Nat) (P : List (Nat × Nat)) (m : List (Option Nat)) (n i : Nat) : Prop where
  len : m.length = N
  le : i ≤ N
  done : ∀ (j : Nat), j < i → ∃ v, m[j]? = some (some v)
  lt : ∀ (j v : Nat), m[j]? = some (some v) → v < n
  rep : ∀ (v : Nat), v < n → ∃ j, j < i ∧ m[j]? = some (some v)
  open1 : ∀ (j v : Nat), i ≤ j → m[j]? = some (some v) → ∃ a, (a, j) ∈ P
  open2 : ∀ (a j : Nat), (a, j) ∈ P → ∃ v, m[j]? = some (some v)
  firsts : ∀ (a b : Nat), (a, b) ∈ P → a < i
  conn : ∀ (j j' v : Nat), m[j]? = some (some v) → m[j']? = some (some v) → Connected P j j'
  last : ∀ (a b : Nat), (a, b) ∈ P → (∀ a', (a', b) ∈ P → a' ≤ a) → m[b]? = m[a]?

theorem PInv.number {N : Nat} {P : List (Nat × Nat)} {m : List (Option Nat)} {n i : Nat}
    (I : PInv N P m n i) (k : Nat) (h : i + k ≤ N) :
    ∃ m' n', numberLoop k i (m, n) = some (m', n') ∧ PInv N P m' n' (i + k) ∧
      ∀ j, i + k ≤ j → m'[j]? = m[j]? := by
  obtain ⟨m', n', h1, H⟩ := numberLoop_spec k i m n (by rw [I.len]; exact h)
  have cases : ∀ (j v : Nat), m'[j]? = some (some v) → m[j]? = some (some v) ∨ m[j]? = some none := by
    intro j v hj
    have hlt : j < m.length := by
      have := (List.getElem?_eq_some_iff.mp hj).1
      rw [H.len] at this; exact this
    cases hm : m[j]? with
    | none => rw [List.getElem?_eq_none_iff] at hm; omega
    | some o =>
      cases o with
      | none => exact Or.inr rfl
      | some w =>
        have := H.keep j w hm
        rw [this] at hj
        exact Or.inl hj
  refine ⟨m', n', h1, ?_, fun j hj => H.outside j (by omega)⟩
  refine ⟨by rw [H.len]; exact I.len, by omega, ?_, ?_, ?_, ?_, ?_, ?_, ?_, ?_⟩
  · intro j hj
    by_cases hji : j < i
    · obtain ⟨v, hv⟩ := I.done j hji
      exact ⟨v, H.keep j v hv⟩
    · exact H.assigned j (by omega) hj
  · intro j v hj
    rcases cases j v hj with h | h
    · have := I.lt j v h
      have := H.mono; omega
    · exact (H.new j v h hj).2
  · intro v hv
    by_cases hvn : v < n
    · obtain ⟨j, hj1, hj2⟩ := I.rep v hvn
      exact ⟨j, by omega, H.keep j v hj2⟩
    · obtain ⟨j, hj1, hj2, hj3⟩ := H.surj v (by omega) hv
      exact ⟨j, hj2, hj3⟩
  · intro j v hj hv
    rw [H.outside j (by omega)] at hv
    exact I.open1 j v (by omega) hv
  · intro a j ha
    obtain ⟨v, hv⟩ := I.open2 a j ha
    exact ⟨v, H.keep j v hv⟩
  · intro a b hab
    have := I.firsts a b hab; omega
  · intro j j' v hj hj'
    rcases cases j v hj with h | h
    · rcases cases j' v hj' with h' | h'
      · exact I.conn j j' v h h'
      · have := I.lt j v h
        have := (H.new j' v h' hj').1
        omega
    · rcases cases j' v hj' with h' | h'
      · have := I.lt j' v h'
        have := (H.new j v h hj).1
        omega
      · rw [H.inj j j' v h h' hj hj']
        exact .refl _
  · intro a b hab hmax
    obtain ⟨v, hv⟩ := I.open2 a b hab
    have := I.last a b hab hmax
    rw [hv] at this
    rw [H.keep b v hv, H.keep a v this.symm]

theorem pairStep_spec {N : Nat} {P : List (Nat × Nat)} {m : List (Option Nat)} {n i : Nat}
    (I : PInv N P m n i) (a b : Nat) (hab : a < b) (hb : b < N) (hlt : ∀ q ∈ P, pairLt q (a, b))
    (hi : i ≤ a + 1) :
    ∃ m' n', pairStep ((m, n), i) (a, b) = some ((m', n'), a + 1) ∧
      PInv N (P ++ [(a, b)]) m' n' (a + 1) := by
  obtain ⟨m1, n1, h1, J, hout⟩ := I.number (a + 1 - i) (by omega)
  have hia : i + (a + 1 - i) = a + 1 := by omega
  rw [hia] at J hout
  obtain ⟨v, hv⟩ := J.done a (by omega)
  refine ⟨m1.set b (some v), n1, ?_, ?_⟩
  · simp only [pairStep, h1, Option.bind_some, hv]
    rw [if_pos (by rw [J.len]; exact hb)]
    have : max i (a + 1) = a + 1 := by omega
    rw [this]
  · have hbm : b < m1.length := by rw [J.len]; exact hb
    have hself : (m1.set b (some v))[b]? = some (some v) := List.getElem?_set_self hbm
    have hne : ∀ j, j ≠ b → (m1.set b (some v))[j]? = m1[j]? := fun j hj =>
      List.getElem?_set_ne (Ne.symm hj)
    refine ⟨by simp [J.len], J.le, ?_, ?_, ?_, ?_, ?_, ?_, ?_, ?_⟩
    · intro j hj
      rw [hne j (by omega)]
      exact J.done j hj
    · intro j w hj
      by_cases hjb : j = b
      · subst hjb; rw [hself] at hj; simp at hj; subst hj; exact J.lt a v hv
      · rw [hne j hjb] at hj; exact J.lt j w hj
    · intro w hw
      obtain ⟨j, hj1, hj2⟩ := J.rep w hw
      exact ⟨j, hj1, by rw [hne j (by omega)]; exact hj2⟩
    · intro j w hj hw
      by_cases hjb : j = b
      · subst hjb; exact ⟨a, by simp⟩
      · rw [hne j hjb] at hw
        obtain ⟨c, hc⟩ := J.open1 j w hj hw
        exact ⟨c, by simp [hc]⟩
    · intro c j hc
      by_cases hjb : j = b
      · subst hjb; exact ⟨v, hself⟩
      · rw [hne j hjb]
        rcases List.mem_append.mp hc with hc | hc
        · exact J.open2 c j hc
        · simp at hc; omega
    · intro c d hc
      rcases List.mem_append.mp hc with hc | hc
      · exact J.firsts c d hc
      · simp at hc; omega
    · have mono : ∀ {x y}, Connected P x y → Connected (P ++ [(a, b)]) x y :=
        fun h => h.mono (fun p hp => List.mem_append_left _ hp)
      have hpair : Connected (P ++ [(a, b)]) a b := .pair (by simp)
      intro j j' w hj hj'
      by_cases hjb : j = b
      · subst hjb
        rw [hself] at hj; simp at hj; subst hj
        by_cases hjb' : j' = j
        · subst hjb'; exact .refl _
        · rw [hne j' hjb'] at hj'
          exact .trans (.symm hpair) (mono (J.conn a j' v hv hj'))
      · rw [hne j hjb] at hj
        by_cases hjb' : j' = b
        · subst hjb'
          rw [hself] at hj'; simp at hj'; subst hj'
          exact .trans (mono (J.conn j a v hj hv)) hpair
        · rw [hne j' hjb'] at hj'
          exact mono (J.conn j j' w hj hj')
    · intro c d hc hmax
      by_cases hdb : d = b
      · subst hdb
        have hca : c = a := by
          have h1 := hmax a (by simp)
          rcases List.mem_append.mp hc with hc | hc
          · have := hlt _ hc
            simp only [pairLt] at this; omega
          · simp at hc; omega
        subst hca
        rw [hself, hne c (by omega), hv]
      · have hcP : (c, d) ∈ P := by
          rcases List.mem_append.mp hc with hc | hc
          · exact hc
          · simp at hc; omega
        have hca : c < a + 1 := J.firsts c d hcP
        rw [hne d hdb, hne c (by omega)]
        exact J.last c d hcP (fun a' ha' => hmax a' (by simp [ha']))

theorem pairLoop_spec {N : Nat} (S : List (Nat × Nat)) {P : List (Nat × Nat)} {m : List (Option Nat)}
    {n i : Nat} (I : PInv N P m n i) (hS : (P ++ S).Pairwise pairLt)
    (hrange : ∀ p ∈ S, p.1 < p.2 ∧ p.2 < N) (hi : ∀ p ∈ S, i ≤ p.1 + 1) :
    ∃ m' n' i', pairLoop S ((m, n), i) = some ((m', n'), i') ∧ PInv N (P ++ S) m' n' i' := by
  induction S generalizing P m n i with
  | nil => exact ⟨m, n, i, rfl, by simpa using I⟩
  | cons p S ih =>
    obtain ⟨a, b⟩ := p
    have hr := hrange (a, b) (by simp)
    have hpw := List.pairwise_append.mp hS
    obtain ⟨m1, n1, h1, J⟩ := pairStep_spec I a b hr.1 hr.2
      (fun q hq => hpw.2.2 q hq (a, b) (by simp)) (hi (a, b) (by simp))
    have hS' : ((P ++ [(a, b)]) ++ S).Pairwise pairLt := by simpa using hS
    obtain ⟨m2, n2, i2, h2, K⟩ := ih J hS' (fun p hp => hrange p (by simp [hp])) (by
      intro p hp
      have := (List.pairwise_cons.mp hpw.2.1).1 p hp
      simp only [pairLt] at this; omega)
    refine ⟨m2, n2, i2, ?_, by simpa using K⟩
    rw [pairLoop, h1, Option.bind_some, h2]

theorem periodicMap_spec (N : Nat) (S : List (Nat × Nat)) (hS : S.Pairwise pairLt)
    (hrange : ∀ p ∈ S, p.1 < p.2 ∧ p.2 < N) :
    ∃ m n, periodicMap N S = some (m, n) ∧ PInv N S m n N := by
  have I0 : PInv N [] (List.replicate N none) 0 0 := by
    refine ⟨by simp, by omega, by omega, ?_, by omega, ?_, by simp, by simp, ?_, by simp⟩
    · intro j v h; simp [List.getElem?_replicate] at h
    · intro j v _ h; simp [List.getElem?_replicate] at h
    · intro j j' v h; simp [List.getElem?_replicate] at h
  obtain ⟨m, n, i, h1, I⟩ := pairLoop_spec S I0 (by simpa using hS) hrange (by omega)
  obtain ⟨m', n', h2, J, _⟩ := I.number (N - i) (by have := I.le; omega)
  have : i + (N - i) = N := by have := I.le; omega
  rw [this] at J
  exact ⟨m', n', by rw [periodicMap, h1, Option.bind_some]; exact h2, by simpa using J⟩

/-! ## C15 -/

/-- The pairs passed to `unifyIndexPair`, as an undirected relation. -/
def Unified (calls : List (Nat × Nat)) (a b : Nat) : Prop := (a, b) ∈ calls ∨ (b, a) ∈ calls

/-- Connected by unified pairs. -/
inductive Chain (calls : List (Nat × Nat)) : Nat → Nat → Prop
  | refl (a) : Chain calls a a
  | step {a b c} : Chain calls a b → Unified calls b c → Chain calls a c

theorem Unified.symm {calls : List (Nat × Nat)} {a b : Nat} (h : Unified calls a b) : Unified calls b a :=
  h.elim Or.inr Or.inl

theorem Chain.trans {calls : List (Nat × Nat)} {a b c : Nat} (h1 : Chain calls a b) (h2 : Chain calls b c) :
    Chain calls a c := by
  induction h2 with
  | refl => exact h1
  | step _ u ih => exact .step ih u

theorem Chain.symm {calls : List (Nat × Nat)} {a b : Nat} (h : Chain calls a b) : Chain calls b a := by
  induction h with
  | refl => exact .refl _
  | step _ u ih => exact Chain.trans (.step (.refl _) u.symm) ih

theorem mem_unifyAll_unified {calls : List (Nat × Nat)} {a b : Nat} (h : (a, b) ∈ unifyAll calls) :
    Unified calls a b := by
  rw [(unifyAll_spec calls).2] at h
  obtain ⟨⟨c, d⟩, hp, hne, heq⟩ := h
  simp only [Prod.mk.injEq] at heq
  simp only at hne
  by_cases hcd : c ≤ d
  · rw [Nat.min_eq_left hcd, Nat.max_eq_right hcd] at heq
    obtain ⟨rfl, rfl⟩ := heq
    exact Or.inl hp
  · rw [Nat.min_eq_right (by omega), Nat.max_eq_left (by omega)] at heq
    obtain ⟨rfl, rfl⟩ := heq
    exact Or.inr hp

theorem unified_mem_unifyAll {calls : List (Nat × Nat)} {a b : Nat} (h : Unified calls a b) (hab : a < b) :
    (a, b) ∈ unifyAll calls := by
  rw [(unifyAll_spec calls).2]
  rcases h with h | h
  · exact ⟨_, h, by simp; omega, by simp; omega⟩
  · exact ⟨_, h, by simp; omega, by simp; omega⟩

theorem Connected.chain {calls : List (Nat × Nat)} {a b : Nat} (h : Connected (unifyAll calls) a b) :
    Chain calls a b := by
  induction h with
  | refl a => exact .refl a
  | pair hm => exact .step (.refl _) (mem_unifyAll_unified hm)
  | symm _ ih => exact ih.symm
  | trans _ _ ih1 ih2 => exact ih1.trans ih2

theorem unifyAll_range {calls : List (Nat × Nat)} {N : Nat} (h : ∀ p ∈ calls, p.1 < N ∧ p.2 < N) :
    ∀ p ∈ unifyAll calls, p.1 < p.2 ∧ p.2 < N := by
  intro p hp
  rw [(unifyAll_spec calls).2] at hp
  obtain ⟨q, hq, hne, rfl⟩ := hp
  have := h q hq
  simp only
  omega

/-- The full claim of C15: the new indices are exactly `0..n-1` where `n` is the dimension, and two raw
indices get the same new index iff they are connected. It is false, see `C15_false`. -/
def C15_full : Prop := ∀ (N : Nat) (calls : List (Nat × Nat)), (∀ p ∈ calls, p.1 < N ∧ p.2 < N) →
  ∃ f n, periodicMap N (unifyAll calls) = some (f, n) ∧ f.length = N ∧
    (∀ i j, i < N → j < N → (f[i]? = f[j]? ↔ Chain calls i j))

/-- Chains are not identified if the pairs are not closed: with the pairs {0,2} and {1,2} the raw
indices 0 and 2 get different indices. -/
theorem C15_false : ¬ C15_full := by
  intro h
  obtain ⟨f, n, h1, _, h3⟩ := h 3 [(0, 2), (1, 2)] (by decide)
  have h2 : periodicMap 3 (unifyAll [(0, 2), (1, 2)]) = some ([some 0, some 1, some 1], 2) := by decide
  rw [h2] at h1
  simp only [Option.some.injEq, Prod.mk.injEq] at h1
  obtain ⟨rfl, rfl⟩ := h1
  have := (h3 0 2 (by decide) (by decide)).mpr (.step (.refl _) (Or.inl (by decide)))
  exact absurd this (by decide)

/-- What holds for every sequence of calls in range: the construction is defined, the new indices are
exactly `0..n-1`, equal new indices imply connectedness; and connected indices are identified if
whenever `b` is unified with two smaller indices, these are unified with each other.
Missing: identification for all other sets, which is false. -/
theorem C15_partial (N : Nat) (calls : List (Nat × Nat)) (h : ∀ p ∈ calls, p.1 < N ∧ p.2 < N) :
    ∃ f n, periodicMap N (unifyAll calls) = some (f, n) ∧ f.length = N ∧
      (∀ i, i < N → ∃ v, v < n ∧ f[i]? = some (some v)) ∧
      (∀ v, v < n → ∃ i, i < N ∧ f[i]? = some (some v)) ∧
      (∀ i j, i < N → j < N → f[i]? = f[j]? → Chain calls i j) ∧
      ((∀ a a' b, a < a' → a' < b → Unified calls a b → Unified calls a' b → Unified calls a a') →
        ∀ i j, i < N → j < N → Chain calls i j → f[i]? = f[j]?) := by
  have hr := unifyAll_range h
  obtain ⟨f, n, h1, I⟩ := periodicMap_spec N _ (unifyAll_spec calls).1 hr
  refine ⟨f, n, h1, I.len, ?_, I.rep, ?_, ?_⟩
  · intro i hi
    obtain ⟨v, hv⟩ := I.done i hi
    exact ⟨v, I.lt i v hv, hv⟩
  · intro i j hi hj heq
    obtain ⟨v, hv⟩ := I.done i hi
    exact (I.conn i j v hv (by rw [← heq]; exact hv)).chain
  · intro hclosed
    -- every unified pair is identified, by induction on the larger index
    have pairEq : ∀ (b a : Nat), (a, b) ∈ unifyAll calls → f[b]? = f[a]? := by
      intro b
      induction b using Nat.strongRecOn with
      | _ b ih =>
        intro a hab
        -- the largest partner of b
        have hex : ∃ a', (a', b) ∈ unifyAll calls ∧ ∀ c, (c, b) ∈ unifyAll calls → c ≤ a' := by
          have aux : ∀ k, k ≤ b → (∃ a', (a', b) ∈ unifyAll calls ∧ b - k ≤ a') →
              ∃ a', (a', b) ∈ unifyAll calls ∧ ∀ c, (c, b) ∈ unifyAll calls → c ≤ a' := by
            intro k
            induction k with
            | zero =>
              rintro _ ⟨a', ha', hle⟩
              have := (hr _ ha').1
              simp at this; omega
            | succ k ihk =>
              rintro hk ⟨a', ha', hle⟩
              by_cases hc : ∃ c, (c, b) ∈ unifyAll calls ∧ b - k ≤ c
              · exact ihk (by omega) hc
              · refine ⟨a', ha', fun c hcm => ?_⟩
                have : ¬ (b - k ≤ c) := fun hle => hc ⟨c, hcm, hle⟩
                omega
          exact aux b (Nat.le_refl _) ⟨a, hab, by omega⟩
        obtain ⟨a', ha', hmax⟩ := hex
        have e1 := I.last a' b ha' hmax
        by_cases haa : a = a'
        · rw [haa]; exact e1
        · have hlt : a < a' := by have := hmax a hab; omega
          have hlt2 : a' < b := (hr _ ha').1
          have hu := hclosed a a' b hlt hlt2 (mem_unifyAll_unified hab) (mem_unifyAll_unified ha')
          rw [e1, ih a' hlt2 a (unified_mem_unifyAll hu hlt)]
    intro i j hi hj hc
    have : ∀ {i j : Nat}, Chain calls i j → f[i]? = f[j]? := by
      intro i j hc
      induction hc with
      | refl => rfl
      | step _ u ih =>
        rename_i b c _
        rw [ih]
        rcases Nat.lt_trichotomy b c with hbc | hbc | hbc
        · exact (pairEq c b (unified_mem_unifyAll u hbc)).symm
        · rw [hbc]
        · exact pairEq b c (unified_mem_unifyAll u.symm hbc)
    exact this hc

/-- A non-trivial case: the four corners of a periodic square (all pairs) and two edge points. -/
example : ∀ p ∈ [(3, 0), (1, 0), (2, 0), (2, 1), (3, 1), (3, 2), (5, 4)], p.1 < 6 ∧ p.2 < 6 := by decide
example : periodicMap 6 (unifyAll [(3, 0), (1, 0), (2, 0), (2, 1), (3, 1), (3, 2), (5, 4)])
    = some ([some 0, some 0, some 0, some 0, some 1, some 1], 2) := by decide

/-- The numbering does not depend on the order or the repetition of the calls. -/
theorem C15_order (N : Nat) (calls calls' : List (Nat × Nat))
    (h : ∀ a b, a ≠ b → (Unified calls a b ↔ Unified calls' a b)) :
    periodicMap N (unifyAll calls) = periodicMap N (unifyAll calls') := by
  have hmem : ∀ q, q ∈ unifyAll calls ↔ q ∈ unifyAll calls' := by
    have aux : ∀ (c c' : List (Nat × Nat)), (∀ a b, a ≠ b → (Unified c a b ↔ Unified c' a b)) →
        ∀ q, q ∈ unifyAll c → q ∈ unifyAll c' := by
      rintro c c' h ⟨a, b⟩ hq
      have hlt : a < b := by
        have := ((unifyAll_spec c).2 _).mp hq
        obtain ⟨p, _, hne, he⟩ := this
        simp only [Prod.mk.injEq] at he
        omega
      exact unified_mem_unifyAll ((h a b (by omega)).mp (mem_unifyAll_unified hq)) hlt
    exact fun q => ⟨aux _ _ h q, aux _ _ (fun a b hab => (h a b hab).symm) q⟩
  have hsorted : ∀ (s t : List (Nat × Nat)), s.Pairwise pairLt → t.Pairwise pairLt →
      (∀ q, q ∈ s ↔ q ∈ t) → s = t := by
    intro s
    induction s with
    | nil =>
      intro t _ _ h
      cases t with
      | nil => rfl
      | cons q t => exact absurd ((h q).mpr (by simp)) (by simp)
    | cons p s ih =>
      intro t hs ht h
      cases t with
      | nil => exact absurd ((h p).mp (by simp)) (by simp)
      | cons q t =>
        rw [List.pairwise_cons] at hs ht
        have hpq : p = q := by
          rcases List.mem_cons.mp ((h p).mp (by simp)) with h1 | h1
          · exact h1
          · rcases List.mem_cons.mp ((h q).mpr (by simp)) with h2 | h2
            · exact h2.symm
            · have a1 := ht.1 p h1
              have a2 := hs.1 q h2
              simp only [pairLt] at a1 a2; omega
        subst hpq
        have irr : ¬ pairLt p p := by simp [pairLt]
        rw [ih t hs.2 ht.2 (fun r => ?_)]
        constructor
        · intro hr
          rcases List.mem_cons.mp ((h r).mp (by simp [hr])) with h1 | h1
          · subst h1; exact absurd (hs.1 _ hr) irr
          · exact h1
        · intro hr
          rcases List.mem_cons.mp ((h r).mpr (by simp [hr])) with h1 | h1
          · subst h1; exact absurd (ht.1 _ hr) irr
          · exact h1
  rw [hsorted _ _ (unifyAll_spec calls).1 (unifyAll_spec calls').1 hmem]

example (N : Nat) : periodicMap N (unifyAll [(0, 2), (1, 3)]) = periodicMap N (unifyAll [(3, 1), (2, 0), (1, 3)]) :=
  C15_order N _ _ (by intro a b _; simp [Unified]; omega)

/-! ## The periodic pre-basis -/

/-- `transformIndex`, periodicbasis.hh:104-108. -/
def periodicTransform (f : List (Option Nat)) (cap : Nat) (m : MI) : Option MI :=
  (m[0]?).bind fun x => (f[x]?).bind fun o => o.bind fun v => if 1 ≤ cap then some [v] else none

/-- `TransformedIndexPreBasis` (transformedindexbasis.hh:50-173) with the periodic transformation
(periodicbasis.hh:77-134): the raw indices are transformed in place after the raw basis wrote
them; `size(prefix)` is 0 for prefixes of length 1 and the number of indices otherwise. -/
def periodicPB (raw : PreBasis E) (f : List (Option Nat)) (n : Nat) : PreBasis E where
  minLen := 1
  maxLen := 1
  bufLen := max raw.bufLen 1
  dimension := n
  maxNodeSize := raw.maxNodeSize
  size := fun p => if p.length = 1 then some 0 else some n
  makeNode := raw.makeNode
  indices := fun cap node buf pos =>
    (raw.indices cap node buf pos).bind fun st =>
    (forLoop node.size (fun i buf => update buf (pos + i) (periodicTransform f cap)) st.1).bind
      fun buf => some (buf, pos + node.size)

/-- Specification: the functions of the periodic basis are numbered `0..n-1`; on an element each raw
function is replaced by its representative. -/
def specPeriodic (sp : Spec E) (f : List (Option Nat)) (n : Nat) : Spec E where
  dofs := (List.range n).map fun i => [i]
  loc := fun e => (sp.loc e).map fun d => [((f[(sp.mi d).headD 0]?).getD none).getD 0]
  mi := fun d => d
  root := n

theorem mi_flat {raw : PreBasis E} {sp : Spec E} (R : Refines raw sp) (hflat : raw.maxLen = 1)
    {d : List Nat} (hd : d ∈ sp.dofs) : ∃ x, sp.mi d = [x] ∧ x < sp.root := by
  have h1 := R.lenMin d hd
  have h2 := R.lenMax d hd
  have h3 := R.minPos
  have hl : (sp.mi d).length = 1 := by omega
  obtain ⟨x, hx⟩ := List.length_eq_one_iff.mp hl
  obtain ⟨n, hn, hlt⟩ := R.sizeLt d hd [] x (by rw [hx]; exact List.prefix_refl _)
  rw [R.root] at hn
  simp at hn
  exact ⟨x, hx, by omega⟩

/-- A periodic basis over any basis with flat indices satisfies the contract of all index
properties, hence may be used anywhere in a basis tree. -/
theorem periodic_refines {raw : PreBasis E} {sp : Spec E} (R : Refines raw sp) (hflat : raw.maxLen = 1)
    (f : List (Option Nat)) (n : Nat)
    (hf : ∀ i, i < sp.root → ∃ v, v < n ∧ f[i]? = some (some v)) :
    Refines (periodicPB raw f n) (specPeriodic sp f n) := by
  have hval : ∀ e, ∀ d ∈ sp.loc e, ∃ x v, sp.mi d = [x] ∧ v < n ∧ f[x]? = some (some v) := by
    intro e d hd
    obtain ⟨x, hx, hlt⟩ := mi_flat R hflat (R.locMem e d hd)
    obtain ⟨v, hv, hfv⟩ := hf x hlt
    exact ⟨x, v, hx, hv, hfv⟩
  refine
    { minPos := Nat.le_refl _, minMax := Nat.le_refl _, maxBuf := Nat.le_max_right _ _,
      nodup := ?_, locMem := ?_, dim := by simp [periodicPB, specPeriodic], maxN := ?_,
      lenMin := ?_, lenMax := ?_, prefixFree := ?_, root := by simp [periodicPB, specPeriodic],
      sizeLt := ?_, sizeFull := ?_, leafy := R.leafy, nodeSize := ?_, filterIrrel := ?_, fill := ?_ }
  · exact List.Pairwise.map _ (by intro a b h; simpa using h) List.nodup_range
  · intro e d hd
    simp only [specPeriodic, List.mem_map] at hd ⊢
    obtain ⟨c, hc, rfl⟩ := hd
    obtain ⟨x, v, hx, hv, hfv⟩ := hval e c hc
    exact ⟨v, by simpa using hv, by simp [hx, hfv]⟩
  · intro e; simpa [specPeriodic, periodicPB] using R.maxN e
  · intro d hd
    simp only [specPeriodic, List.mem_map] at hd ⊢
    obtain ⟨i, _, rfl⟩ := hd; simp [periodicPB]
  · intro d hd
    simp only [specPeriodic, List.mem_map] at hd ⊢
    obtain ⟨i, _, rfl⟩ := hd; simp [periodicPB]
  · intro d hd d' hd' hp
    simp only [specPeriodic, List.mem_map] at hd hd' hp
    obtain ⟨i, _, rfl⟩ := hd
    obtain ⟨j, _, rfl⟩ := hd'
    simpa using hp
  · intro d hd p x hp
    simp only [specPeriodic, List.mem_map, List.mem_range] at hd hp
    obtain ⟨i, hi, rfl⟩ := hd
    obtain ⟨rfl, rfl⟩ := prefix_snoc_singleton hp
    exact ⟨n, by simp [periodicPB], hi⟩
  · intro d hd
    simp only [specPeriodic, List.mem_map] at hd ⊢
    obtain ⟨i, _, rfl⟩ := hd
    simp [periodicPB]
  · intro e off m hm
    rw [R.nodeSize e off m hm]; simp [specPeriodic]
  · intro cap g nd buf pos
    simp only [periodicPB, R.filterIrrel, Node.addFilter_size]
  · intro cap hcap e off m hm pre mid post hmid
    have hcap' : max raw.bufLen 1 ≤ cap := hcap
    simp only [specPeriodic, List.length_map] at hmid
    have hraw := R.fill cap (by omega) e off m hm pre mid post hmid
    have hsz := R.nodeSize e off m hm
    simp only [periodicPB, hraw, Option.bind_some]
    have hb := blockLoop pre ((sp.loc e).map sp.mi) post (periodicTransform f cap)
      (fun mi => [((f[mi.headD 0]?).getD none).getD 0]) (by
        intro mi hmi
        obtain ⟨d, hd, rfl⟩ := List.mem_map.mp hmi
        obtain ⟨x, v, hx, hv, hfv⟩ := hval e d hd
        simp [periodicTransform, hx, hfv, show 1 ≤ cap by omega])
    rw [List.length_map] at hb
    rw [hsz, hb]
    simp [specPeriodic, Function.comp_def]

theorem periodic_complete (raw : PreBasis E) (sp : Spec E) (f : List (Option Nat)) (n : Nat)
    (hn : 0 < n) : Complete (periodicPB raw f n) (specPeriodic sp f n) where
  nonempty := by
    simp [specPeriodic]; omega
  digits := by
    intro d hd p hp k hk x hx
    simp only [specPeriodic, List.mem_map, List.mem_range] at hd hp ⊢
    obtain ⟨i, hi, rfl⟩ := hd
    have hpl := hp.length_le
    simp at hpl
    simp only [periodicPB] at hk
    split at hk
    · simp at hk; omega
    · rename_i h1
      have : p = [] := List.length_eq_zero_iff.mp (by omega)
      subst this
      simp at hk; subst hk
      exact ⟨[x], ⟨x, hx, rfl⟩, by simp⟩

/-- C15 for the basis: for every basis tree with flat indices and every sequence of calls of
`unifyIndexPair` with valid indices, the periodic basis satisfies the contract of C01-C11 and its
indices on an element are the images of the raw indices under the identification map. -/
theorem C15_basis (b : PB E) (hb : b.WF) (hflat : b.model.maxLen = 1) (calls : List (Nat × Nat))
    (h : ∀ p ∈ calls, p.1 < b.spec.root ∧ p.2 < b.spec.root) :
    ∃ f n, periodicMap b.spec.root (unifyAll calls) = some (f, n) ∧
      Refines (periodicPB b.model f n) (specPeriodic b.spec f n) := by
  obtain ⟨f, n, h1, _, h3, _⟩ := C15_partial b.spec.root calls h
  exact ⟨f, n, h1, periodic_refines (PB.refines b hb) hflat f n h3⟩

/-! ## C16 -/

/-- `size()` and `dimension()` of the periodic basis agree. -/
theorem C16_sizes (raw : PreBasis E) (f : List (Option Nat)) (n : Nat) :
    (periodicPB raw f n).size [] = some (periodicPB raw f n).dimension ∧
    ∀ x, (periodicPB raw f n).size [x] = some 0 := by
  simp [periodicPB]

end Verif.IndexTree
