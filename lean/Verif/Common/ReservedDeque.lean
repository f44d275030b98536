/-!
# ReservedDeque

Model of `dune/functions/common/reserveddeque.hh`. `none` is undefined behaviour (reading the
uninitialised member `first_`) or an access outside of the storage.  `CHECKSIZE` is a no-op
by default, hence size violations are not an outcome of the operations; the operations are only
specified within capacity.
-/

namespace Verif.ReservedDeque

/-- Members `data_`, `size_`, `first_` (reserveddeque.hh, end of class). `first = none`: not
initialised. -/
structure RD (α : Type) where
  data : List α
  size : Nat
  first : Option Nat

variable {α : Type}

/-- Default constructor, reserveddeque.hh:76-79; the storage holds arbitrary values `d`. -/
def mk0 (d : List α) : RD α := ⟨d, 0, some 0⟩

/-- Constructor from an initializer list, reserveddeque.hh:81-86: copies the values to the
beginning of the storage; does not initialise `first_`. -/
def mkList (d l : List α) : RD α := ⟨l ++ d.drop l.length, l.length, none⟩

/-- `clear`, reserveddeque.hh:93-97. -/
def clear (r : RD α) : RD α := { r with first := some 0, size := 0 }

/-- `resize`, reserveddeque.hh:100-104. -/
def resize (r : RD α) (s : Nat) : RD α := { r with size := s }

/-- `push_back`, reserveddeque.hh:107-111: `data_[size_++ % n] = t`. -/
def pushBack (n : Nat) (r : RD α) (t : α) : RD α :=
  { r with data := r.data.set (r.size % n) t, size := r.size + 1 }

/-- `push_front`, reserveddeque.hh:114-120. -/
def pushFront (n : Nat) (r : RD α) (t : α) : Option (RD α) :=
  r.first.bind fun f =>
    let f' := (f + (n-1)) % n
    some { data := r.data.set f' t, size := r.size + 1, first := some f' }

/-- `pop_back`, reserveddeque.hh:123-127. -/
def popBack (r : RD α) : RD α := if r.size = 0 then r else { r with size := r.size - 1 }

/-- `pop_front`, reserveddeque.hh:130-137. -/
def popFront (n : Nat) (r : RD α) : Option (RD α) :=
  if r.size = 0 then some r else
    r.first.bind fun f => some { r with size := r.size - 1, first := some ((f + 1) % n) }

/-- `operator[]`, reserveddeque.hh:160-171. -/
def get (n : Nat) (r : RD α) (i : Nat) : Option α := r.first.bind fun f => r.data[(f + i) % n]?

/-- `front`, reserveddeque.hh:174-185. -/
def front (r : RD α) : Option α := r.first.bind fun f => r.data[f]?

/-- `back`, reserveddeque.hh:188-199. -/
def back (n : Nat) (r : RD α) : Option α := r.first.bind fun f => r.data[(f + r.size - 1) % n]?

inductive Op (α : Type) where
  | pushBack (t : α)
  | pushFront (t : α)
  | popBack
  | popFront
  | clear
  | resize (s : Nat)

def step (n : Nat) (r : RD α) : Op α → Option (RD α)
  | .pushBack t => some (pushBack n r t)
  | .pushFront t => pushFront n r t
  | .popBack => some (popBack r)
  | .popFront => popFront n r
  | .clear => some (clear r)
  | .resize s => some (resize r s)

def run (n : Nat) : RD α → List (Op α) → Option (RD α)
  | r, [] => some r
  | r, op :: ops => (step n r op).bind fun r' => run n r' ops

/-! ## Specification: an ordinary deque as a list -/

/-- Abstract deque of at most `n` values; `none`: operation outside of its precondition
(capacity exceeded, or `resize` growing the deque which would expose unspecified values). -/
def absStep (n : Nat) (l : List α) : Op α → Option (List α)
  | .pushBack t => if l.length < n then some (l ++ [t]) else none
  | .pushFront t => if l.length < n then some (t :: l) else none
  | .popBack => some l.dropLast
  | .popFront => some l.tail
  | .clear => some []
  | .resize s => if s ≤ l.length then some (l.take s) else none

def absRun (n : Nat) : List α → List (Op α) → Option (List α)
  | l, [] => some l
  | l, op :: ops => (absStep n l op).bind fun l' => absRun n l' ops

/-- All observations of the container agree with the abstract deque. -/
def Agrees (n : Nat) (r : RD α) (l : List α) : Prop :=
  r.size = l.length ∧ (∀ i, i < l.length → get n r i = l[i]?) ∧
  (l ≠ [] → front r = l.head? ∧ back n r = l.getLast?)

/-! ## Proof -/

def Repr (n : Nat) (r : RD α) (f : Nat) (l : List α) : Prop :=
  r.data.length = n ∧ r.first = some f ∧ f < n ∧ r.size = l.length ∧ l.length ≤ n ∧
  ∀ i, i < l.length → r.data[(f + i) % n]? = l[i]?

theorem mod_shift_ne {n f j : Nat} (hf : f < n) (hj : 0 < j) (hjn : j < n) : (f + j) % n ≠ f := by
  intro h
  rcases Nat.lt_or_ge (f + j) n with h1 | h1
  · rw [Nat.mod_eq_of_lt h1] at h; omega
  · rw [Nat.mod_eq_sub_mod h1, Nat.mod_eq_of_lt (by omega)] at h; omega

theorem pred_mod {n f : Nat} (hf : f < n) (i : Nat) :
    ((f + (n-1)) % n + (i + 1)) % n = (f + i) % n := by
  rw [Nat.mod_add_mod]
  have : f + (n-1) + (i+1) = (f + i) + n := by omega
  rw [this, Nat.add_mod_right]

theorem Repr.agrees {n : Nat} {r : RD α} {f : Nat} {l : List α} (h : Repr n r f l) : Agrees n r l := by
  obtain ⟨h1, h2, h3, h4, h5, h6⟩ := h
  refine ⟨h4, ?_, ?_⟩
  · intro i hi
    simp [get, h2, h6 i hi]
  · intro hne
    have hpos : 0 < l.length := List.length_pos_iff.mpr hne
    constructor
    · have := h6 0 hpos
      simp only [Nat.add_zero, Nat.mod_eq_of_lt h3] at this
      simp [front, h2, this, List.head?_eq_getElem?]
    · have := h6 (l.length - 1) (by omega)
      rw [List.getLast?_eq_getElem?]
      simp only [back, h2, Option.bind_some, h4]
      rw [show f + l.length - 1 = f + (l.length - 1) by omega, this]

/-- Front offset after an operation. -/
def offStep (n : Nat) (l : List α) (f : Nat) : Op α → Nat
  | .pushFront _ => (f + (n-1)) % n
  | .popFront => if l = [] then f else (f+1) % n
  | .clear => 0
  | _ => f

/-- Histories in which `push_back` is only called while the front is at the start of the storage
(no `push_front`/`pop_front` since construction or `clear`, up to a multiple of `n`). -/
def SafeRun (n : Nat) : List α → Nat → List (Op α) → Prop
  | _, _, [] => True
  | l, f, op :: ops =>
    (∀ t, op = .pushBack t → f = 0) ∧
    match absStep n l op with
    | none => False
    | some l' => SafeRun n l' (offStep n l f op) ops

theorem step_repr {n : Nat} {r : RD α} {f : Nat} {l : List α} (h : Repr n r f l) (op : Op α)
    (hs : ∀ t, op = .pushBack t → f = 0) (l' : List α) (hl : absStep n l op = some l') :
    ∃ r', step n r op = some r' ∧ Repr n r' (offStep n l f op) l' := by
  obtain ⟨h1, h2, h3, h4, h5, h6⟩ := h
  cases op with
  | pushBack t =>
    obtain rfl := hs t rfl
    simp only [absStep] at hl
    split at hl
    · rename_i hlt
      simp at hl; subst hl
      refine ⟨_, rfl, ?_⟩
      simp only [pushBack, offStep]
      refine ⟨by simp [h1], h2, h3, by simp [h4], by simp; omega, ?_⟩
      intro i hi
      simp only [List.length_append, List.length_singleton] at hi
      rw [Nat.zero_add, Nat.mod_eq_of_lt (show i < n by omega), h4, Nat.mod_eq_of_lt hlt]
      rcases Nat.lt_or_ge i l.length with hi' | hi'
      · have := h6 i hi'
        rw [Nat.zero_add, Nat.mod_eq_of_lt (by omega)] at this
        rw [List.getElem?_set_ne (by omega), this, List.getElem?_append_left hi']
      · have : i = l.length := by omega
        subst this
        rw [List.getElem?_set_self (by omega)]; simp
    · simp at hl
  | pushFront t =>
    simp only [absStep] at hl
    split at hl
    · rename_i hlt
      simp at hl; subst hl
      have hn : 0 < n := by omega
      refine ⟨_, by simp [step, pushFront, h2]; rfl, ?_⟩
      simp only [offStep]
      have hf' : (f + (n-1)) % n < n := Nat.mod_lt _ hn
      refine ⟨by simp [h1], rfl, hf', by simp [h4], by simp; omega, ?_⟩
      intro i hi
      simp only [List.length_cons] at hi
      cases i with
      | zero =>
        simp only [Nat.add_zero, Nat.mod_mod]
        rw [List.getElem?_set_self (by omega)]; simp
      | succ i =>
        have hne := mod_shift_ne hf' (show 0 < i + 1 by omega) (by omega)
        rw [List.getElem?_set_ne (Ne.symm hne), pred_mod h3, h6 i (by omega)]
        simp
    · simp at hl
  | popBack =>
    simp [absStep] at hl; subst hl
    refine ⟨_, rfl, ?_⟩
    simp only [offStep, popBack]
    split
    · rename_i h0
      have : l = [] := List.length_eq_zero_iff.mp (by omega)
      subst this
      exact ⟨h1, h2, h3, by simpa using h4, by simp, by simp⟩
    · refine ⟨h1, h2, h3, by simp [h4], by simp; omega, ?_⟩
      intro i hi
      simp at hi
      rw [h6 i (by omega), List.getElem?_dropLast, if_pos (by omega)]
  | popFront =>
    simp [absStep] at hl; subst hl
    simp only [step, popFront, offStep]
    by_cases h0 : r.size = 0
    · have : l = [] := List.length_eq_zero_iff.mp (by omega)
      subst this
      rw [if_pos h0]
      refine ⟨r, rfl, ?_⟩
      simp only [if_true]
      exact ⟨h1, h2, h3, by simpa using h4, by simp, by simp⟩
    · have hne : l ≠ [] := by
        intro hl; subst hl; simp at h4; exact h0 h4
      have hpos : 0 < l.length := List.length_pos_iff.mpr hne
      rw [if_neg h0, h2, Option.bind_some, if_neg hne]
      refine ⟨_, rfl, h1, rfl, Nat.mod_lt _ (by omega), by simp [h4], by simp; omega, ?_⟩
      intro i hi
      simp at hi
      rw [Nat.mod_add_mod, show f + 1 + i = f + (i+1) by omega, h6 (i+1) (by omega)]
      simp
  | clear =>
    simp [absStep] at hl; subst hl
    refine ⟨_, rfl, ?_⟩
    simp only [clear, offStep]
    exact ⟨h1, rfl, by omega, rfl, by simp, by simp⟩
  | resize s =>
    simp only [absStep] at hl
    split at hl
    · rename_i hlt
      simp at hl; subst hl
      refine ⟨_, rfl, ?_⟩
      simp only [resize, offStep]
      refine ⟨h1, h2, h3, by simp; omega, by simp; omega, ?_⟩
      intro i hi
      simp at hi
      rw [h6 i (by omega), List.getElem?_take_of_lt (by omega)]
    · simp at hl

theorem run_repr {n : Nat} (ops : List (Op α)) {r : RD α} {f : Nat} {l : List α} (h : Repr n r f l)
    (hs : SafeRun n l f ops) :
    ∃ r' l' f', run n r ops = some r' ∧ absRun n l ops = some l' ∧ Repr n r' f' l' := by
  induction ops generalizing r f l with
  | nil => exact ⟨r, l, f, rfl, rfl, h⟩
  | cons op ops ih =>
    rw [SafeRun] at hs
    obtain ⟨hs1, hs2⟩ := hs
    cases hl : absStep n l op with
    | none => rw [hl] at hs2; exact hs2.elim
    | some l' =>
      rw [hl] at hs2
      obtain ⟨r', hr', hrep⟩ := step_repr h op hs1 l' hl
      obtain ⟨r2, l2, f2, h1, h2, h3⟩ := ih hrep hs2
      exact ⟨r2, l2, f2, by simp [run, hr', h1], by simp [absRun, hl, h2], h3⟩

/-! ## C18 -/

/-- The full claim: every history within capacity agrees with an ordinary deque.  It is false, see
`C18_false`. -/
def C18_full : Prop :=
  ∀ (n : Nat) (d : List Nat) (ops : List (Op Nat)) (l : List Nat), d.length = n → 0 < n →
    absRun n [] ops = some l → ∃ r, run n (mk0 d) ops = some r ∧ Agrees n r l

/-- `push_back` ignores `first_`: after `push_front(1); push_back(2)` in a deque of capacity 3 the
second entry is not 2. -/
theorem C18_false : ¬ C18_full := by
  intro h
  obtain ⟨r, hr, hag⟩ := h 3 [0, 0, 0] [.pushFront 1, .pushBack 2] [1, 2] rfl (by decide) rfl
  have : r = ⟨[0, 2, 1], 2, some 2⟩ := by
    have h2 : run 3 (mk0 [0, 0, 0]) [.pushFront 1, .pushBack 2] = some ⟨[0, 2, 1], 2, some 2⟩ := rfl
    rw [h2] at hr; simpa using hr.symm
  subst this
  have := hag.2.1 1 (by decide)
  exact absurd this (by decide)

/-- A deque built from an initializer list reads the uninitialised member `first_`: even `front` is
undefined. -/
theorem C18_initializer_list_false (d l : List α) : front (mkList d l) = none ∧
    ∀ n i, get n (mkList d l) i = none := by
  simp [front, get, mkList]

/-- What holds: all histories agree with an ordinary deque as long as `push_back` is only used while
the front is at the beginning of the storage (in particular histories without `push_back`, and
histories without `push_front` and `pop_front`).  Missing: `push_back` in the remaining states, where
the claim is false. -/
theorem C18_partial (n : Nat) (d : List α) (hd : d.length = n) (hn : 0 < n) (ops : List (Op α))
    (hs : SafeRun n [] 0 ops) :
    ∃ r l, run n (mk0 d) ops = some r ∧ absRun n [] ops = some l ∧ Agrees n r l := by
  have h0 : Repr n (mk0 d) 0 ([] : List α) := ⟨hd, rfl, hn, rfl, by simp, by simp⟩
  obtain ⟨r, l, f, h1, h2, h3⟩ := run_repr ops h0 hs
  exact ⟨r, l, h1, h2, h3.agrees⟩

/-- Corollary: without `push_back` every history within capacity is fine. -/
theorem C18_no_push_back_partial (n : Nat) (d : List α) (hd : d.length = n) (hn : 0 < n)
    (ops : List (Op α)) (hop : ∀ t, Op.pushBack t ∉ ops) (l : List α) (hl : absRun n [] ops = some l) :
    ∃ r, run n (mk0 d) ops = some r ∧ Agrees n r l := by
  have key : ∀ (ops : List (Op α)) (l0 : List α) (f : Nat) (l : List α),
      (∀ t, Op.pushBack t ∉ ops) → absRun n l0 ops = some l → SafeRun n l0 f ops := by
    intro ops
    induction ops with
    | nil => intros; trivial
    | cons op ops ih =>
      intro l0 f l hop hl
      simp only [absRun, Option.bind_eq_some_iff] at hl
      obtain ⟨l1, h1, h2⟩ := hl
      rw [SafeRun, h1]
      refine ⟨fun t ht => absurd (by simp [ht]) (hop t), ih _ _ _ (fun t => ?_) h2⟩
      have := hop t
      simp at this
      exact this.2
  obtain ⟨r, l', h1, h2, h3⟩ := C18_partial n d hd hn ops (key ops [] 0 l hop hl)
  rw [hl] at h2
  simp at h2; subst h2
  exact ⟨r, h1, h3⟩

example : SafeRun 3 [] 0 [.pushBack 1, .pushBack 2, .pushFront 3, .popBack, .popFront, .popFront,
    .clear, .pushBack (4 : Nat)] := by
  simp [SafeRun, absStep, offStep]
example := C18_no_push_back_partial 2 [0, 0] rfl (by decide)
  [.pushFront 1, .pushFront 2, .popBack, .pushFront 3, .popBack, .pushFront (4 : Nat)] (by simp) [4, 3] rfl

end Verif.ReservedDeque
