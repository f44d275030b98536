/-!
# OverflowArray

Model of `dune/functions/common/overflowarray.hh`. `none`: failed assertion.
-/

namespace Verif.OverflowArray

/-- Base class array, member `overflow_`, member `size_` (overflowarray.hh:46-65, end of class). -/
structure OA (α : Type) where
  base : List α
  overflow : List α
  size : Nat

variable {α : Type}

/-- `capacity()`, overflowarray.hh:210-212: `maxSize` = size of base plus size of overflow buffer. -/
def capacity (a : OA α) : Nat := a.base.length + a.overflow.length

/-- `operator[]` (reading), overflowarray.hh:154-173. -/
def get (a : OA α) (i : Nat) : Option α :=
  if i < a.size then
    if i < a.base.length then a.base[i]? else a.overflow[i - a.base.length]?
  else none

/-- `(*this)[i] = t`, overflowarray.hh:154-162. -/
def set (a : OA α) (i : Nat) (t : α) : Option (OA α) :=
  if i < a.size then
    if i < a.base.length then some { a with base := a.base.set i t }
    else if i - a.base.length < a.overflow.length then
      some { a with overflow := a.overflow.set (i - a.base.length) t }
    else none
  else none

/-- `clear`, overflowarray.hh:87-89. -/
def clear (a : OA α) : OA α := { a with size := 0 }

/-- `resize`, overflowarray.hh:97-100. -/
def resize (a : OA α) (n : Nat) : Option (OA α) :=
  if n ≤ capacity a then some { a with size := n } else none

/-- `push_back`, overflowarray.hh:108-111; `size_` is incremented before the entry is accessed. -/
def pushBack (a : OA α) (t : α) : Option (OA α) :=
  if a.size < capacity a then set { a with size := a.size + 1 } a.size t else none

/-- `pop_back`, overflowarray.hh:114-118. -/
def popBack (a : OA α) : Option (OA α) :=
  if 0 < a.size then some { a with size := a.size - 1 } else none

/-- The loop of `push_front`, overflowarray.hh:128-129, for `i, i+1, ..., i+k-1`. -/
def shiftLoop : Nat → Nat → OA α → Option (OA α)
  | 0, _, a => some a
  | k+1, i, a => (get a i).bind fun x => (set a (i+1) x).bind fun a' => shiftLoop k (i+1) a'

/-- `push_front`, overflowarray.hh:126-131. -/
def pushFront (a : OA α) (t : α) : Option (OA α) :=
  if a.size < capacity a then
    (shiftLoop a.size 0 a).bind fun a' => set a' 0 t
  else none

/-- Loop of `std::copy_n(l.begin(), size_, begin())`. -/
def copyN : List α → Nat → OA α → Option (OA α)
  | [], _, a => some a
  | x :: xs, i, a => (set a i x).bind fun a' => copyN xs (i+1) a'

/-- Constructor from an initializer list, overflowarray.hh:71-75, over arbitrary storage. -/
def mkList (a : OA α) (l : List α) : Option (OA α) :=
  if l.length ≤ capacity a then copyN l 0 { a with size := l.length } else none

/-- `front`, overflowarray.hh:176-185. -/
def front (a : OA α) : Option α := if 0 < a.size then get a 0 else none

/-- `back`, overflowarray.hh:188-197. -/
def back (a : OA α) : Option α := if 0 < a.size then get a (a.size - 1) else none

/-- `back() = t`. -/
def setBack (a : OA α) (t : α) : Option (OA α) :=
  if 0 < a.size then set a (a.size - 1) t else none

/-- `operator==`, overflowarray.hh:77-84. `none` if an access is undefined. -/
def eqLoop [DecidableEq α] (a b : OA α) : Nat → Nat → Option Bool
  | 0, _ => some true
  | k+1, i => (get a i).bind fun x => (get b i).bind fun y =>
      if x ≠ y then some false else eqLoop a b k (i+1)

def eq [DecidableEq α] (a b : OA α) : Option Bool :=
  if a.size ≠ b.size then some false else eqLoop a b a.size 0

/-- Operations of a user. -/
inductive Op (α : Type) where
  | init (l : List α)
  | pushBack (t : α)
  | popBack
  | clear
  | resize (n : Nat)
  | set (i : Nat) (t : α)
  | setBack (t : α)

def step (a : OA α) : Op α → Option (OA α)
  | .init l => mkList a l
  | .pushBack t => pushBack a t
  | .popBack => popBack a
  | .clear => some (clear a)
  | .resize n => resize a n
  | .set i t => set a i t
  | .setBack t => setBack a t

def run : OA α → List (Op α) → Option (OA α)
  | a, [] => some a
  | a, op :: ops => (step a op).bind fun a' => run a' ops

/-! ## Specification: a vector as a list.

Growing by `resize` gives unspecified new entries: the specification keeps a relation to lists with
optional entries, `none` = unspecified. -/

def absStep (cap : Nat) (l : List (Option α)) : Op α → Option (List (Option α))
  | .init xs => if xs.length ≤ cap then some (xs.map some) else none
  | .pushBack t => if l.length < cap then some (l ++ [some t]) else none
  | .popBack => if l ≠ [] then some l.dropLast else none
  | .clear => some []
  | .resize n => if n ≤ cap then some (l.take n ++ List.replicate (n - l.length) none) else none
  | .set i t => if i < l.length then some (l.set i (some t)) else none
  | .setBack t => if l ≠ [] then some (l.dropLast ++ [some t]) else none

def absRun (cap : Nat) : List (Option α) → List (Op α) → Option (List (Option α))
  | l, [] => some l
  | l, op :: ops => (absStep cap l op).bind fun l' => absRun cap l' ops

/-- The container agrees with the vector `l`: size, every specified entry, front, back, and the base
array holds the leading entries. -/
def Agrees (a : OA α) (l : List (Option α)) : Prop :=
  a.size = l.length ∧
  (∀ i x, l[i]? = some (some x) → get a i = some x) ∧
  (∀ i, i < l.length → (get a i).isSome) ∧
  (∀ x, l.head? = some (some x) → front a = some x) ∧
  (∀ x, l.getLast? = some (some x) → back a = some x) ∧
  (∀ i x, i < a.base.length → l[i]? = some (some x) → a.base[i]? = some x)

/-! ## Proof -/

/-- The storage as one list. -/
def store (a : OA α) : List α := a.base ++ a.overflow

def Repr (nb no : Nat) (a : OA α) (l : List (Option α)) : Prop :=
  a.base.length = nb ∧ a.overflow.length = no ∧ a.size = l.length ∧ l.length ≤ nb + no ∧
  ∀ (i : Nat) (x : α), l[i]? = some (some x) → (store a)[i]? = some x

theorem get_eq (a : OA α) (i : Nat) (h : i < a.size) : get a i = (store a)[i]? := by
  simp only [get, h, if_true, store]
  split
  · rw [List.getElem?_append_left (by assumption)]
  · rw [List.getElem?_append_right (by omega)]

theorem set_eq (a : OA α) (i : Nat) (t : α) (h : i < a.size) (hc : a.size ≤ capacity a) :
    ∃ a', set a i t = some a' ∧ store a' = (store a).set i t ∧ a'.base.length = a.base.length ∧
      a'.overflow.length = a.overflow.length ∧ a'.size = a.size := by
  simp only [capacity] at hc
  simp only [set, h, if_true]
  split
  · rename_i hb
    refine ⟨_, rfl, ?_, by simp, rfl, rfl⟩
    simp only [store]
    rw [List.set_append_left _ _ hb]
  · rename_i hb
    rw [if_pos (by omega)]
    refine ⟨_, rfl, ?_, rfl, by simp, rfl⟩
    simp only [store]
    rw [List.set_append_right _ _ (by omega)]

theorem Repr.agrees {nb no : Nat} {a : OA α} {l : List (Option α)} (h : Repr nb no a l) : Agrees a l := by
  obtain ⟨h1, h2, h3, h4, h5⟩ := h
  have hlt : ∀ {i : Nat} {x : Option α}, l[i]? = some x → i < l.length := fun hx =>
    (List.getElem?_eq_some_iff.mp hx).1
  refine ⟨h3, ?_, ?_, ?_, ?_, ?_⟩
  · intro i x hx
    rw [get_eq a i (by have := hlt hx; omega), h5 i x hx]
  · intro i hi
    rw [get_eq a i (by omega)]
    simp [store]; omega
  · intro x hx
    rw [List.head?_eq_getElem?] at hx
    have := hlt hx
    simp only [front, h3, this, if_true]
    rw [get_eq a 0 (by omega), h5 0 x hx]
  · intro x hx
    rw [List.getLast?_eq_getElem?] at hx
    have := hlt hx
    have hpos : 0 < l.length := by omega
    simp only [back, h3, hpos, if_true]
    rw [get_eq a _ (by omega), h5 _ x hx]
  · intro i x hi hx
    have := h5 i x hx
    simp only [store] at this
    rwa [List.getElem?_append_left hi] at this

theorem Repr.set {nb no : Nat} {a : OA α} {l : List (Option α)} (h : Repr nb no a l) (i : Nat) (t : α)
    (hi : i < l.length) : ∃ a', set a i t = some a' ∧ Repr nb no a' (l.set i (some t)) := by
  obtain ⟨h1, h2, h3, h4, h5⟩ := h
  obtain ⟨a', g1, g2, g3, g4, g5⟩ := set_eq a i t (by omega) (by simp [capacity]; omega)
  refine ⟨a', g1, by omega, by omega, by simp; omega, by simp; omega, ?_⟩
  intro j x hx
  rw [g2]
  by_cases hij : i = j
  · subst hij
    rw [List.getElem?_set_self hi] at hx
    simp at hx; subst hx
    rw [List.getElem?_set_self (by simp [store]; omega)]
  · rw [List.getElem?_set_ne hij] at hx ⊢
    exact h5 j x hx

theorem Repr.copyN {nb no : Nat} (xs : List α) {a : OA α} (done : List α)
    (h : Repr nb no a (done.map some ++ List.replicate xs.length none)) :
    ∃ a', copyN xs done.length a = some a' ∧ Repr nb no a' ((done ++ xs).map some) := by
  induction xs generalizing a done with
  | nil => exact ⟨a, rfl, by simpa using h⟩
  | cons x xs ih =>
    obtain ⟨a1, h1, h2⟩ := h.set done.length x (by simp)
    have hset : (done.map some ++ List.replicate (x :: xs).length none).set done.length (some x)
        = (done ++ [x]).map some ++ List.replicate xs.length none := by
      rw [List.set_append_right _ _ (by simp)]
      simp [List.replicate_succ]
    rw [hset] at h2
    obtain ⟨a', h3, h4⟩ := ih (done ++ [x]) h2
    refine ⟨a', ?_, by simpa using h4⟩
    rw [OverflowArray.copyN, h1, Option.bind_some]
    simpa using h3

theorem step_repr {nb no : Nat} {a : OA α} {l : List (Option α)} (h : Repr nb no a l) (op : Op α)
    (l' : List (Option α)) (hl : absStep (nb + no) l op = some l') :
    ∃ a', step a op = some a' ∧ Repr nb no a' l' := by
  have h' := h
  obtain ⟨h1, h2, h3, h4, h5⟩ := h
  cases op with
  | init xs =>
    simp only [absStep] at hl
    split at hl
    · rename_i hle
      simp at hl; subst hl
      have h0 : Repr nb no { a with size := xs.length } (([] : List α).map some ++ List.replicate xs.length none) := by
        refine ⟨h1, h2, by simp, by simpa using hle, ?_⟩
        intro i x hx
        simp [List.getElem?_replicate] at hx
      obtain ⟨a', g1, g2⟩ := Repr.copyN xs [] h0
      refine ⟨a', ?_, by simpa using g2⟩
      simp only [step, mkList, capacity, h1, h2, hle, if_true]
      exact g1
    · simp at hl
  | pushBack t =>
    simp only [absStep] at hl
    split at hl
    · rename_i hlt
      simp at hl; subst hl
      have h0 : Repr nb no { a with size := a.size + 1 } (l ++ [none]) := by
        refine ⟨h1, h2, by simp [h3], by simp; omega, ?_⟩
        intro i x hx
        rcases Nat.lt_or_ge i l.length with hi | hi
        · rw [List.getElem?_append_left hi] at hx
          exact h5 i x hx
        · rw [List.getElem?_append_right hi] at hx
          have : i - l.length = 0 := by
            have := (List.getElem?_eq_some_iff.mp hx).1
            simp at this; omega
          rw [this] at hx; simp at hx
      obtain ⟨a', g1, g2⟩ := h0.set l.length t (by simp)
      refine ⟨a', ?_, ?_⟩
      · simp only [step, pushBack, capacity, h1, h2, h3]
        rw [if_pos hlt, ← h3]
        rw [← h3] at g1
        exact g1
      · rw [List.set_append_right _ _ (by simp)] at g2
        simpa using g2
    · simp at hl
  | popBack =>
    simp only [absStep] at hl
    split at hl
    · rename_i hne
      simp at hl; subst hl
      have hpos : 0 < l.length := List.length_pos_iff.mpr hne
      refine ⟨{ a with size := a.size - 1 }, by simp only [step, popBack]; rw [if_pos (by omega)], h1, h2, by simp [h3], by simp; omega, ?_⟩
      intro i x hx
      rw [List.getElem?_dropLast] at hx
      split at hx
      · exact h5 i x hx
      · simp at hx
    · simp at hl
  | clear =>
    simp [absStep] at hl; subst hl
    exact ⟨_, rfl, h1, h2, rfl, by simp, by simp⟩
  | resize n =>
    simp only [absStep] at hl
    split at hl
    · rename_i hle
      simp at hl; subst hl
      refine ⟨{ a with size := n }, by simp only [step, resize, capacity, h1, h2, hle, if_true], h1, h2, by simp; omega, by simp; omega, ?_⟩
      intro i x hx
      rcases Nat.lt_or_ge i (l.take n).length with hi | hi
      · rw [List.getElem?_append_left hi] at hx
        simp at hi
        rw [List.getElem?_take_of_lt (by omega)] at hx
        exact h5 i x hx
      · rw [List.getElem?_append_right hi] at hx
        simp [List.getElem?_replicate] at hx
    · simp at hl
  | set i t =>
    simp only [absStep] at hl
    split at hl
    · rename_i hi
      simp at hl; subst hl
      exact h'.set i t hi
    · simp at hl
  | setBack t =>
    simp only [absStep] at hl
    split at hl
    · rename_i hne
      simp at hl; subst hl
      have hpos : 0 < l.length := List.length_pos_iff.mpr hne
      obtain ⟨a', g1, g2⟩ := h'.set (l.length - 1) t (by omega)
      refine ⟨a', ?_, ?_⟩
      · simp only [step, setBack, h3, hpos, if_true]; exact g1
      · have : l.set (l.length - 1) (some t) = l.dropLast ++ [some t] := by
          conv => lhs; rw [← List.dropLast_concat_getLast hne]
          rw [List.set_append_right _ _ (by simp)]
          simp
        rwa [this] at g2
    · simp at hl

/-! ## C19 -/

/-- All histories of construction, `push_back`, `pop_back`, `clear`, `resize` and entry assignment
within capacity agree with an ordinary vector, and the base array (the static multi-index the user
sees) holds the leading entries. Missing: `push_front`, for which the claim is false
(`C19_push_front_false`). -/
theorem C19_partial (base overflow : List α) (n0 : Nat) (ops : List (Op α)) (l : List (Option α))
    (hn : n0 ≤ base.length + overflow.length)
    (hl : absRun (base.length + overflow.length) (List.replicate n0 none) ops = some l) :
    ∃ a, run ⟨base, overflow, n0⟩ ops = some a ∧ Agrees a l := by
  have key : ∀ (ops : List (Op α)) (a : OA α) (l l' : List (Option α)),
      Repr base.length overflow.length a l → absRun (base.length + overflow.length) l ops = some l' →
      ∃ a', run a ops = some a' ∧ Repr base.length overflow.length a' l' := by
    intro ops
    induction ops with
    | nil =>
      intro a l l' h hl
      simp [absRun] at hl; subst hl
      exact ⟨a, rfl, h⟩
    | cons op ops ih =>
      intro a l l' h hl
      simp only [absRun, Option.bind_eq_some_iff] at hl
      obtain ⟨l1, g1, g2⟩ := hl
      obtain ⟨a1, g3, g4⟩ := step_repr h op l1 g1
      obtain ⟨a2, g5, g6⟩ := ih a1 l1 l' g4 g2
      exact ⟨a2, by simp [run, g3, g5], g6⟩
  have h0 : Repr base.length overflow.length ⟨base, overflow, n0⟩ (List.replicate n0 none) := by
    refine ⟨rfl, rfl, by simp, by simpa using hn, ?_⟩
    intro i x hx
    simp [List.getElem?_replicate] at hx
  obtain ⟨a, h1, h2⟩ := key ops _ _ l h0 hl
  exact ⟨a, h1, h2.agrees⟩

example := C19_partial [0, 0] [0] 0 [.init [5], .resize 2, .set 1 5, .set 0 7, .pushBack 3, .setBack (4 : Nat)]
  [some 7, some 5, some 4] (by decide) rfl

/-- Equality compares size and entries. -/
theorem C19_eq [DecidableEq α] (a b : OA α) (ha : a.size ≤ capacity a) (hb : b.size ≤ capacity b) :
    eq a b = some (decide ((store a).take a.size = (store b).take b.size)) := by
  have hla : (store a).length = capacity a := by simp [store, capacity]
  have hlb : (store b).length = capacity b := by simp [store, capacity]
  unfold eq
  split
  · rename_i hne
    have : (store a).take a.size ≠ (store b).take b.size := by
      intro h
      have := congrArg List.length h
      simp at this; omega
    simp [this]
  · rename_i heq
    simp at heq
    have key : ∀ (k i : Nat), i + k = a.size →
        eqLoop a b k i = some (decide (((store a).take a.size).drop i = ((store b).take b.size).drop i)) := by
      intro k
      induction k with
      | zero =>
        intro i hi
        simp at hi; subst hi
        simp only [eqLoop]
        rw [List.drop_of_length_le (by simp; omega), List.drop_of_length_le (by simp; omega)]
        simp
      | succ k ih =>
        intro i hi
        have hia : i < (store a).length := by omega
        have hib : i < (store b).length := by omega
        have e1 : get a i = some (store a)[i] := by rw [get_eq a i (by omega)]; simp
        have e2 : get b i = some (store b)[i] := by rw [get_eq b i (by omega)]; simp
        have d1 : ((store a).take a.size).drop i = (store a)[i] :: ((store a).take a.size).drop (i+1) := by
          rw [List.drop_eq_getElem_cons (by simp; omega)]; simp
        have d2 : ((store b).take b.size).drop i = (store b)[i] :: ((store b).take b.size).drop (i+1) := by
          rw [List.drop_eq_getElem_cons (by simp; omega)]; simp
        rw [d1, d2, eqLoop, e1, e2, Option.bind_some, Option.bind_some, ih (i+1) (by omega)]
        by_cases hx : (store a)[i] = (store b)[i]
        · simp [hx]
        · simp [hx]
    have := key a.size 0 (by omega)
    simpa using this

example : eq (⟨[1,2],[3],2⟩ : OA Nat) ⟨[1,2],[4],2⟩ = some true := by decide

/-- `push_front` on a non-empty array violates the assertion of `operator[]`. -/
theorem C19_push_front_false (a : OA α) (t : α) (h0 : 0 < a.size) : pushFront a t = none := by
  have key : ∀ (k i : Nat) (a : OA α), 0 < k → i + k = a.size → shiftLoop k i a = none := by
    intro k
    induction k with
    | zero => intro i a h; omega
    | succ k ih =>
      intro i a _ hi
      rw [shiftLoop]
      cases hg : get a i with
      | none => rfl
      | some x =>
        rw [Option.bind_some]
        cases hs : set a (i+1) x with
        | none => rfl
        | some a' =>
          rw [Option.bind_some]
          have hlt : i + 1 < a.size := by
            rcases Nat.lt_or_ge (i+1) a.size with h | h
            · exact h
            · simp [set, show ¬ (i + 1 < a.size) by omega] at hs
          have hsz : a'.size = a.size := by
            simp only [set] at hs
            repeat' split at hs
            all_goals first
              | (injection hs with hs; rw [← hs])
              | cases hs
          exact ih (i+1) a' (by omega) (by omega)
  simp only [pushFront]
  split
  · rw [key a.size 0 a h0 (by omega)]; rfl
  · rfl

/-- Even ignoring the assertion the size is not incremented: pushing to the front of an empty array
is undefined as well (`(*this)[0]` with size 0). -/
theorem C19_push_front_empty_false (a : OA α) (t : α) (h0 : a.size = 0) : pushFront a t = none := by
  simp [pushFront, h0, shiftLoop, set]

end Verif.OverflowArray
