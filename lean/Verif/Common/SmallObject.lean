import Mathlib.Data.List.Nodup
import Mathlib.Logic.Function.Basic

/-!
# Small object optimization

Model of `dune/functions/common/polymorphicsmallobject.hh`: `PolymorphicSmallObject<Base, bufferSize>`.
-/

namespace Verif.SmallObject

/-! ## Model -/

/-- What matters of a type derived from `Base`: size, alignment, and the position of the base class object within it. -/
structure Ty where
  size : Nat
  align : Nat
  off : Nat
  deriving DecidableEq

/-- Pointers of type `Base*`: null, a pointer into the buffer of a wrapper with an offset, or a pointer to the `Base` part of a
dynamically allocated object. -/
inductive Ptr where
  | null
  | buf (wrapper off : Nat)
  | heap (id : Nat)
  deriving DecidableEq

/-- Memory. Objects of derived types get a number when they are created; `obj` are those which are alive, `dead` is the list
of destroyed objects. `wr` are the pointers `p_` of all wrappers which are alive, `buf` the objects in the buffers. -/
structure Mem (V : Type) where
  wr : Nat → Option Ptr
  buf : Nat → Option Nat
  obj : Nat → Option (V × Ty)
  next : Nat
  dead : List Nat

/-- Parameters: `bufferSize`, `bufferAlignment`, and the value of an object of which the data has been moved. -/
structure Par (V : Type) where
  bufferSize : Nat
  bufferAlignment : Nat
  movedFrom : V → V

variable {V : Type}

/-- `useBuffer`, polymorphicsmallobject.hh:77-78. -/
def Par.useBuffer (P : Par V) (t : Ty) : Bool := decide (t.size ≤ P.bufferSize ∧ P.bufferAlignment % t.align = 0)

/-- Virtual calls and destructor calls: the number and data of the object to which the pointer refers. `none` if there is none, i.e.
undefined behaviour. -/
def Mem.deref (S : Mem V) : Ptr → Option (Nat × V × Ty)
  | .null => none
  | .buf j off => (S.buf j).bind fun n => (S.obj n).bind fun o => if o.2.off = off then some (n, o) else none
  | .heap n => (S.obj n).map fun o => (n, o)

/-- Placement new in the buffer of wrapper `i`. Whatever lives there is overwritten without being destroyed. -/
def Mem.newInBuffer (S : Mem V) (i : Nat) (v : V) (t : Ty) : Mem V × Ptr :=
  ({ S with buf := Function.update S.buf i (some S.next), obj := Function.update S.obj S.next (some (v, t)), next := S.next + 1 },
    .buf i t.off)

/-- Dynamic allocation. -/
def Mem.newOnHeap (S : Mem V) (v : V) (t : Ty) : Mem V × Ptr :=
  ({ S with obj := Function.update S.obj S.next (some (v, t)), next := S.next + 1 }, .heap S.next)

def Mem.setPtr (S : Mem V) (i : Nat) (p : Ptr) : Mem V := { S with wr := Function.update S.wr i (some p) }

/-- Destruction of the object with number `n`. -/
def Mem.kill (S : Mem V) (n : Nat) : Mem V := { S with obj := Function.update S.obj n none, dead := n :: S.dead }

/-- `bufferUsed`, polymorphicsmallobject.hh:131-134. -/
def bufferUsed (i : Nat) (p : Ptr) : Bool := decide (p = .buf i 0)

/-- `destroyWrappedObject`, polymorphicsmallobject.hh:150-159. Only pointers to dynamically allocated objects may be deleted. -/
def Mem.destroyWrapped (S : Mem V) (i : Nat) : Option (Mem V) := (S.wr i).bind fun p =>
  if p = .null then some S
  else if bufferUsed i p then (S.deref p).map fun o =>
    { S.kill o.1 with buf := Function.update S.buf i none }
  else match p with
    | .heap _ => (S.deref p).map fun o => S.kill o.1
    | _ => none

/-- `moveToWrappedObject`, polymorphicsmallobject.hh:161-178, with `this = i`, `other = j`. -/
def Mem.moveTo (P : Par V) (S : Mem V) (i j : Nat) : Option (Mem V) := (S.wr j).bind fun q =>
  if bufferUsed j q then (S.deref q).map fun o =>
    let r := S.newInBuffer i o.2.1 o.2.2
    Mem.setPtr { r.1 with obj := Function.update r.1.obj o.1 (some (P.movedFrom o.2.1, o.2.2)) } i r.2
  else
    some ((S.setPtr i q).setPtr j .null)

/-- `copyToWrappedObject`, polymorphicsmallobject.hh:180-186. If `clone` throws then `p_` is not changed. The flag tells whether
an exception is thrown. -/
def Mem.copyTo (S : Mem V) (i j : Nat) (throws : Bool) : Option (Mem V × Bool) := (S.wr j).bind fun q =>
  (S.deref q).map fun o =>
    if throws then (S, true)
    else
      let r := if bufferUsed j q then S.newInBuffer i o.2.1 o.2.2 else S.newOnHeap o.2.1 o.2.2
      (r.1.setPtr i r.2, false)

/-- Operations on wrappers `i`, `j`, ... (at fixed addresses). `throws` tells that the copy constructor of the stored type throws. -/
inductive Op (V : Type) where
  | default (i : Nat)
  | make (i : Nat) (v : V) (t : Ty) (throws : Bool)
  | moveCtor (i j : Nat)
  | copyCtor (i j : Nat) (throws : Bool)
  | destroy (i : Nat)
  | copyAssign (i j : Nat) (throws : Bool)
  | moveAssign (i j : Nat)
  /-- `get() = v` -/
  | set (i : Nat) (v : V)

/-- One operation, polymorphicsmallobject.hh:62-122 and 143-146. `none` is undefined behaviour. The end of the life of a wrapper is the
end of its buffer as well. Exceptions are caught. -/
def step (P : Par V) (S : Mem V) : Op V → Option (Mem V)
  | .default i => some (S.setPtr i .null)
  | .make i v t throws =>
    if throws then some S
    else
      let r := if P.useBuffer t then S.newInBuffer i v t else S.newOnHeap v t
      some (r.1.setPtr i r.2)
  | .moveCtor i j => S.moveTo P i j
  | .copyCtor i j throws => (S.copyTo i j throws).map fun r => r.1
  | .destroy i => (S.destroyWrapped i).map fun S' =>
      { S' with wr := Function.update S'.wr i none, buf := Function.update S'.buf i none }
  | .copyAssign i j throws =>
    if j = i then (S.wr i).map fun _ => S
    else (S.destroyWrapped i).bind fun S' => (S'.copyTo i j throws).map fun r => r.1
  | .moveAssign i j => (S.destroyWrapped i).bind fun S' => S'.moveTo P i j
  | .set i v => (S.wr i).bind fun p => (S.deref p).map fun o =>
      { S with obj := Function.update S.obj o.1 (some (v, o.2.2)) }

def run (P : Par V) : Mem V → List (Op V) → Option (Mem V)
  | S, [] => some S
  | S, op :: ops => (step P S op).bind fun S' => run P S' ops

/-- Before the first operation. -/
def Mem.init : Mem V := ⟨fun _ => none, fun _ => none, fun _ => none, 0, []⟩

/-- `get`, polymorphicsmallobject.hh:137-140. -/
def Mem.get (S : Mem V) (i : Nat) : Option V := (S.wr i).bind fun p => (S.deref p).map fun o => o.2.1

/-! ## Specification -/

/-- Wrappers as values: not alive, empty, or holding a value of some type. -/
abbrev Abs (V : Type) := Nat → Option (Option (V × Ty))

/-- What the user expects. `none` if the precondition is violated: a wrapper is constructed where none is alive; others are alive; the
source of a copy is not empty; move assignment is not applied to the same object; types which are stored in the buffer start with
their base class; copy assignment does not throw, unless the target is empty. Objects are moved as a whole if they do not fit in the buffer. -/
def spec (P : Par V) (A : Abs V) : Op V → Option (Abs V)
  | .default i => if A i = none then some (Function.update A i (some none)) else none
  | .make i v t throws =>
    if A i = none ∧ (P.useBuffer t → t.off = 0) then
      if throws then some A else some (Function.update A i (some (some (v, t))))
    else none
  | .moveCtor i j => if A i = none then
      (A j).map fun x => Function.update (Function.update A i (some x)) j (some (moved x))
    else none
  | .copyCtor i j throws => if A i = none then
      (A j).bind fun x => if x = none then none else if throws then some A else some (Function.update A i (some x))
    else none
  | .destroy i => (A i).map fun _ => Function.update A i none
  | .copyAssign i j throws => (A i).bind fun x => (A j).bind fun y =>
      if j = i then some A
      else if y = none then none
      else if throws then (if x = none then some A else none)
      else some (Function.update A i (some y))
  | .moveAssign i j => if j = i then none else
      (A i).bind fun _ => (A j).map fun y => Function.update (Function.update A i (some y)) j (some (moved y))
  | .set i v => (A i).bind fun x => x.map fun o => Function.update A i (some (some (v, o.2)))
where
  moved : Option (V × Ty) → Option (V × Ty)
    | none => none
    | some (v, t) => if P.useBuffer t then some (P.movedFrom v, t) else none

def specRun (P : Par V) : Abs V → List (Op V) → Option (Abs V)
  | A, [] => some A
  | A, op :: ops => (spec P A op).bind fun A' => specRun P A' ops

/-! ## Proof -/

open Function

/-- Wrapper `i` is as told by the specification; `o` is the object which it owns. -/
def Holds (P : Par V) (S : Mem V) (i : Nat) (o : Option Nat) : Option (Option (V × Ty)) → Prop
  | none => o = none ∧ S.wr i = none ∧ S.buf i = none
  | some none => o = none ∧ S.wr i = some .null ∧ S.buf i = none
  | some (some (v, t)) => ∃ n, o = some n ∧ S.obj n = some (v, t) ∧
      if P.useBuffer t = true then t.off = 0 ∧ S.wr i = some (.buf i 0) ∧ S.buf i = some n
      else S.wr i = some (.heap n) ∧ S.buf i = none

structure Inv (P : Par V) (S : Mem V) (A : Abs V) (o : Nat → Option Nat) : Prop where
  holds : ∀ i, Holds P S i (o i) (A i)
  inj : ∀ i j n, o i = some n → o j = some n → i = j
  live : ∀ n, S.obj n ≠ none ↔ ∃ i, o i = some n
  fresh : ∀ n, S.obj n ≠ none → n < S.next
  nodup : S.dead.Nodup
  dead : ∀ n, n ∈ S.dead ↔ n < S.next ∧ S.obj n = none

theorem Holds.congr {P : Par V} {S S' : Mem V} {i : Nat} {o : Option Nat} {x : Option (Option (V × Ty))} (h : Holds P S i o x)
    (h1 : S'.wr i = S.wr i) (h2 : S'.buf i = S.buf i) (h3 : ∀ n, o = some n → S'.obj n = S.obj n) : Holds P S' i o x := by
  match x with
  | none => exact ⟨h.1, by rw [h1]; exact h.2.1, by rw [h2]; exact h.2.2⟩
  | some none => exact ⟨h.1, by rw [h1]; exact h.2.1, by rw [h2]; exact h.2.2⟩
  | some (some (v, t)) =>
    obtain ⟨n, g1, g2, g3⟩ := h
    refine ⟨n, g1, by rw [h3 n g1]; exact g2, ?_⟩
    rw [h1, h2]
    exact g3

theorem holds_next_none {P : Par V} {S : Mem V} {A : Abs V} {o : Nat → Option Nat} (h : Inv P S A o) : S.obj S.next = none := by
  by_contra hc
  exact absurd (h.fresh _ hc) (Nat.lt_irrefl _)

/-- An empty wrapper comes to life. -/
theorem inv_alive {P : Par V} {S : Mem V} {A : Abs V} {o : Nat → Option Nat} (h : Inv P S A o) {i : Nat}
    (hi : A i = none ∨ A i = some none) : Inv P (S.setPtr i .null) (update A i (some none)) o := by
  refine ⟨?_, h.inj, h.live, h.fresh, h.nodup, h.dead⟩
  intro k
  by_cases hk : k = i
  · subst hk
    rw [update_self]
    have := h.holds k
    rcases hi with hi | hi <;> rw [hi] at this
    · exact ⟨this.1, by simp [Mem.setPtr], this.2.2⟩
    · exact ⟨this.1, by simp [Mem.setPtr], this.2.2⟩
  · rw [update_of_ne hk]
    exact (h.holds k).congr (by simp [Mem.setPtr, update_of_ne hk]) rfl (fun _ _ => rfl)

/-- An empty wrapper dies. -/
theorem inv_die {P : Par V} {S : Mem V} {A : Abs V} {o : Nat → Option Nat} (h : Inv P S A o) {i : Nat}
    (hi : A i = some none) : Inv P { S with wr := update S.wr i none, buf := update S.buf i none } (update A i none) o := by
  refine ⟨?_, h.inj, h.live, h.fresh, h.nodup, h.dead⟩
  intro k
  by_cases hk : k = i
  · subst hk
    rw [update_self]
    have := h.holds k
    rw [hi] at this
    exact ⟨this.1, by simp, by simp⟩
  · rw [update_of_ne hk]
    exact (h.holds k).congr (by simp [update_of_ne hk]) (by simp [update_of_ne hk]) (fun _ _ => rfl)

theorem inv_new_ids {P : Par V} {S : Mem V} {A : Abs V} {o : Nat → Option Nat} (h : Inv P S A o) {i : Nat} (hi : o i = none) (vt : V × Ty) :
    (∀ k l n, update o i (some S.next) k = some n → update o i (some S.next) l = some n → k = l) ∧
    (∀ n, update S.obj S.next (some vt) n ≠ none ↔ ∃ k, update o i (some S.next) k = some n) ∧
    (∀ n, update S.obj S.next (some vt) n ≠ none → n < S.next + 1) ∧
    (∀ n, n ∈ S.dead ↔ n < S.next + 1 ∧ update S.obj S.next (some vt) n = none) := by
  have ho : ∀ k n, o k = some n → n < S.next := fun k n hk => h.fresh n ((h.live n).mpr ⟨k, hk⟩)
  refine ⟨?_, ?_, ?_, ?_⟩
  · intro k l n hk hl
    by_cases hki : k = i <;> by_cases hli : l = i
    · rw [hki, hli]
    · rw [hki, update_self] at hk
      rw [update_of_ne hli] at hl
      injection hk with hk
      have := ho l n hl
      omega
    · rw [hli, update_self] at hl
      rw [update_of_ne hki] at hk
      injection hl with hl
      have := ho k n hk
      omega
    · rw [update_of_ne hki] at hk
      rw [update_of_ne hli] at hl
      exact h.inj k l n hk hl
  · intro n
    by_cases hn : n = S.next
    · subst hn
      simp only [update_self]
      exact ⟨fun _ => ⟨i, update_self _ _ _⟩, fun _ => by simp⟩
    · rw [update_of_ne hn, h.live n]
      constructor
      · rintro ⟨k, hk⟩
        refine ⟨k, ?_⟩
        rw [update_of_ne (by rintro rfl; rw [hi] at hk; simp at hk)]
        exact hk
      · rintro ⟨k, hk⟩
        by_cases hki : k = i
        · rw [hki, update_self] at hk
          injection hk with hk
          exact absurd hk.symm hn
        · rw [update_of_ne hki] at hk
          exact ⟨k, hk⟩
  · intro n hn
    by_cases hn' : n = S.next
    · omega
    · rw [update_of_ne hn'] at hn
      have := h.fresh n hn
      omega
  · intro n
    rw [h.dead n]
    by_cases hn' : n = S.next
    · subst hn'
      simp
    · rw [update_of_ne hn']
      constructor
      · rintro ⟨h1, h2⟩; exact ⟨by omega, h2⟩
      · rintro ⟨h1, h2⟩; exact ⟨by omega, h2⟩

/-- A new object in an empty wrapper. -/
theorem inv_new {P : Par V} {S : Mem V} {A : Abs V} {o : Nat → Option Nat} (h : Inv P S A o) {i : Nat} (hi : A i = some none)
    (v : V) (t : Ty) (ht : P.useBuffer t = true → t.off = 0) :
    Inv P ((if P.useBuffer t then S.newInBuffer i v t else S.newOnHeap v t).1.setPtr i
      (if P.useBuffer t then S.newInBuffer i v t else S.newOnHeap v t).2) (update A i (some (some (v, t)))) (update o i (some S.next)) := by
  have h0 := h.holds i
  rw [hi] at h0
  obtain ⟨g1, g2, g3, g4⟩ := inv_new_ids h h0.1 (v, t)
  have hne : ∀ k, k ≠ i → ∀ n, o k = some n → update S.obj S.next (some (v, t)) n = S.obj n := by
    intro k _ n hk
    refine update_of_ne ?_ _ _
    have := h.fresh n ((h.live n).mpr ⟨k, hk⟩)
    omega
  by_cases hb : P.useBuffer t = true
  · simp only [hb, if_true]
    refine ⟨?_, g1, g2, g3, h.nodup, g4⟩
    intro k
    by_cases hk : k = i
    · subst hk
      rw [update_self, update_self]
      refine ⟨S.next, rfl, by simp [Mem.setPtr, Mem.newInBuffer], ?_⟩
      rw [if_pos hb]
      exact ⟨ht hb, by simp [Mem.setPtr, Mem.newInBuffer, ht hb], by simp [Mem.setPtr, Mem.newInBuffer]⟩
    · rw [update_of_ne hk, update_of_ne hk]
      exact (h.holds k).congr (by simp [Mem.setPtr, Mem.newInBuffer, update_of_ne hk])
        (by simp [Mem.setPtr, Mem.newInBuffer, update_of_ne hk]) (hne k hk)
  · rw [if_neg hb]
    refine ⟨?_, g1, g2, g3, h.nodup, g4⟩
    intro k
    by_cases hk : k = i
    · subst hk
      rw [update_self, update_self]
      refine ⟨S.next, rfl, by simp [Mem.setPtr, Mem.newOnHeap], ?_⟩
      rw [if_neg hb]
      exact ⟨by simp [Mem.setPtr, Mem.newOnHeap], h0.2.2⟩
    · rw [update_of_ne hk, update_of_ne hk]
      exact (h.holds k).congr (by simp [Mem.setPtr, Mem.newOnHeap, update_of_ne hk]) rfl (hne k hk)

/-- The value of an object changes. -/
theorem inv_set {P : Par V} {S : Mem V} {A : Abs V} {o : Nat → Option Nat} (h : Inv P S A o) {i n : Nat} {v : V} {t : Ty}
    (hi : A i = some (some (v, t))) (hn : o i = some n) (v' : V) :
    Inv P { S with obj := update S.obj n (some (v', t)) } (update A i (some (some (v', t)))) o := by
  have hl : S.obj n ≠ none := (h.live n).mpr ⟨i, hn⟩
  have hiff : ∀ m, update S.obj n (some (v', t)) m = none ↔ S.obj m = none := by
    intro m
    by_cases hm : m = n
    · subst hm; simp [hl]
    · rw [update_of_ne hm]
  refine ⟨?_, h.inj, ?_, ?_, h.nodup, ?_⟩
  · intro k
    by_cases hk : k = i
    · subst hk
      rw [update_self]
      have h0 := h.holds k
      rw [hi] at h0
      obtain ⟨m, h1, h2, h3⟩ := h0
      rw [hn] at h1
      injection h1 with h1
      subst h1
      exact ⟨n, hn, by simp, h3⟩
    · rw [update_of_ne hk]
      refine (h.holds k).congr rfl rfl (fun m hm => update_of_ne ?_ _ _)
      rintro rfl
      exact hk (h.inj k i m hm hn)
  · intro m
    rw [← h.live m]
    exact not_congr (hiff m)
  · intro m hm
    exact h.fresh m fun h' => hm ((hiff m).mpr h')
  · intro m
    rw [h.dead m]
    exact and_congr_right fun _ => (hiff m).symm

/-- `destroyWrappedObject`: the pointer is not reset. -/
theorem inv_destroy {P : Par V} {S : Mem V} {A : Abs V} {o : Nat → Option Nat} (h : Inv P S A o) {i : Nat} {x : Option (V × Ty)}
    (hi : A i = some x) : ∃ S', S.destroyWrapped i = some S' ∧ S'.wr = S.wr ∧
      Inv P (S'.setPtr i .null) (update A i (some none)) (update o i none) := by
  have h0 := h.holds i
  rw [hi] at h0
  match x with
  | none =>
    refine ⟨S, by simp [Mem.destroyWrapped, h0.2.1], rfl, ?_⟩
    rw [show update o i none = o by rw [← h0.1, update_eq_self]]
    exact inv_alive h (Or.inr hi)
  | some (v, t) =>
    obtain ⟨n, h1, h2, h3⟩ := h0
    have hids : (∀ k l m, update o i none k = some m → update o i none l = some m → k = l) ∧
        (∀ m, update S.obj n none m ≠ none ↔ ∃ k, update o i none k = some m) ∧
        (∀ m, update S.obj n none m ≠ none → m < S.next) ∧ (n :: S.dead).Nodup ∧
        (∀ m, m ∈ n :: S.dead ↔ m < S.next ∧ update S.obj n none m = none) := by
      have hnn : S.obj n ≠ none := by rw [h2]; simp
      refine ⟨?_, ?_, ?_, ?_, ?_⟩
      · intro k l m hk hl
        have hki : k ≠ i := by rintro rfl; simp at hk
        have hli : l ≠ i := by rintro rfl; simp at hl
        rw [update_of_ne hki] at hk
        rw [update_of_ne hli] at hl
        exact h.inj k l m hk hl
      · intro m
        by_cases hm : m = n
        · subst hm
          simp only [update_self, ne_eq, not_true_eq_false, false_iff, not_exists]
          intro k hk
          have hki : k ≠ i := by rintro rfl; simp at hk
          rw [update_of_ne hki] at hk
          exact hki (h.inj k i m hk h1)
        · rw [update_of_ne hm, h.live m]
          constructor
          · rintro ⟨k, hk⟩
            refine ⟨k, ?_⟩
            rw [update_of_ne (by rintro rfl; rw [h1] at hk; injection hk with hk; exact hm hk.symm)]
            exact hk
          · rintro ⟨k, hk⟩
            have hki : k ≠ i := by rintro rfl; simp at hk
            rw [update_of_ne hki] at hk
            exact ⟨k, hk⟩
      · intro m hm
        by_cases hm' : m = n
        · subst hm'; simp at hm
        · rw [update_of_ne hm'] at hm
          exact h.fresh m hm
      · rw [List.nodup_cons]
        exact ⟨fun hd => hnn ((h.dead n).mp hd).2, h.nodup⟩
      · intro m
        rw [List.mem_cons, h.dead m]
        by_cases hm : m = n
        · subst hm
          simp [h.fresh m hnn]
        · rw [update_of_ne hm]
          simp [hm]
    obtain ⟨g1, g2, g3, g4, g5⟩ := hids
    have hne : ∀ k, k ≠ i → ∀ m, o k = some m → update S.obj n none m = S.obj m := by
      intro k hk m hm
      refine update_of_ne ?_ _ _
      rintro rfl
      exact hk (h.inj k i m hm h1)
    by_cases hb : P.useBuffer t = true
    · rw [if_pos hb] at h3
      obtain ⟨ho, hw, hbuf⟩ := h3
      refine ⟨{ S.kill n with buf := update S.buf i none }, ?_, rfl, ?_⟩
      · simp [Mem.destroyWrapped, hw, bufferUsed, Mem.deref, hbuf, h2, ho]
      · refine ⟨?_, g1, g2, g3, g4, g5⟩
        intro k
        by_cases hk : k = i
        · subst hk
          rw [update_self, update_self]
          exact ⟨rfl, by simp [Mem.setPtr], by simp [Mem.setPtr]⟩
        · rw [update_of_ne hk, update_of_ne hk]
          exact (h.holds k).congr (by simp [Mem.setPtr, Mem.kill, update_of_ne hk]) (by simp [Mem.setPtr, update_of_ne hk]) (hne k hk)
    · rw [if_neg hb] at h3
      obtain ⟨hw, hbuf⟩ := h3
      refine ⟨S.kill n, ?_, rfl, ?_⟩
      · simp [Mem.destroyWrapped, hw, bufferUsed, Mem.deref, h2]
      · refine ⟨?_, g1, g2, g3, g4, g5⟩
        intro k
        by_cases hk : k = i
        · subst hk
          rw [update_self, update_self]
          exact ⟨rfl, by simp [Mem.setPtr], hbuf⟩
        · rw [update_of_ne hk, update_of_ne hk]
          exact (h.holds k).congr (by simp [Mem.setPtr, Mem.kill, update_of_ne hk]) rfl (hne k hk)

theorem moveTo_setPtr (P : Par V) (S : Mem V) (i j : Nat) (hij : j ≠ i) (p : Ptr) : (S.setPtr i p).moveTo P i j = S.moveTo P i j := by
  have h1 : (S.setPtr i p).wr j = S.wr j := by simp [Mem.setPtr, update_of_ne hij]
  have h2 : ∀ q, (S.setPtr i p).deref q = S.deref q := by intro q; cases q <;> rfl
  rw [Mem.moveTo, Mem.moveTo, h1]
  simp only [h2]
  simp [Mem.setPtr, Mem.newInBuffer]

theorem copyTo_setPtr (S : Mem V) (i j : Nat) (hij : j ≠ i) (p : Ptr) :
    ((S.setPtr i p).copyTo i j false).map (fun r => r.1) = (S.copyTo i j false).map fun r => r.1 := by
  have h1 : (S.setPtr i p).wr j = S.wr j := by simp [Mem.setPtr, update_of_ne hij]
  have h2 : ∀ q, (S.setPtr i p).deref q = S.deref q := by intro q; cases q <;> rfl
  rw [Mem.copyTo, Mem.copyTo, h1]
  simp only [h2]
  rcases S.wr j with _ | q
  · rfl
  · simp only [Option.bind_some, Option.map_map]
    congr 1
    funext o
    by_cases hb : bufferUsed j q = true <;> simp [Mem.setPtr, Mem.newInBuffer, Mem.newOnHeap, hb]

theorem inv_move {P : Par V} {S : Mem V} {A : Abs V} {o : Nat → Option Nat} (h : Inv P S A o) {i j : Nat} (hij : j ≠ i)
    (hi : A i = some none) {x : Option (V × Ty)} (hj : A j = some x) :
    ∃ S' o', S.moveTo P i j = some S' ∧ Inv P S' (update (update A i (some x)) j (some (spec.moved P x))) o' := by
  have h0 := h.holds j
  rw [hj] at h0
  have hi0 := h.holds i
  rw [hi] at hi0
  match x with
  | none =>
    refine ⟨_, o, by simp [Mem.moveTo, h0.2.1, bufferUsed]; rfl, ?_⟩
    have : update (update A i (some none)) j (some (spec.moved P none)) = A := by
      rw [← hi, update_eq_self, show some (spec.moved P none) = A j from hj.symm, update_eq_self]
    rw [this]
    refine ⟨?_, h.inj, h.live, h.fresh, h.nodup, h.dead⟩
    intro k
    refine (h.holds k).congr ?_ rfl (fun _ _ => rfl)
    by_cases hkj : k = j
    · subst hkj; simp [Mem.setPtr, h0.2.1]
    · by_cases hki : k = i
      · subst hki; simp [Mem.setPtr, update_of_ne hkj, hi0.2.1]
      · simp [Mem.setPtr, update_of_ne hkj, update_of_ne hki]
  | some (v, t) =>
    obtain ⟨n, h1, h2, h3⟩ := h0
    by_cases hb : P.useBuffer t = true
    · rw [if_pos hb] at h3
      obtain ⟨ho, hw, hbuf⟩ := h3
      have hn := inv_new h hi v t (fun _ => ho)
      simp only [hb, if_true] at hn
      have hs := inv_set (i := j) (n := n) (v := v) (t := t) hn (by rw [update_of_ne hij]; exact hj)
        (by rw [update_of_ne hij]; exact h1) (P.movedFrom v)
      rw [show spec.moved P (some (v, t)) = some (P.movedFrom v, t) from if_pos hb]
      refine ⟨_, _, ?_, hs⟩
      · simp [Mem.moveTo, hw, bufferUsed, Mem.deref, hbuf, h2, ho, Mem.setPtr, Mem.newInBuffer]
    · rw [if_neg hb] at h3
      obtain ⟨hw, hbuf⟩ := h3
      refine ⟨(S.setPtr i (.heap n)).setPtr j .null, update (update o i (some n)) j none, ?_, ?_⟩
      · simp [Mem.moveTo, hw, bufferUsed]
      · rw [spec.moved, if_neg hb]
        have hoj : ∀ k m, update (update o i (some n)) j none k = some m → (k = i ∧ m = n) ∨ (k ≠ i ∧ k ≠ j ∧ o k = some m) := by
          intro k m hk
          have hkj : k ≠ j := by rintro rfl; simp at hk
          rw [update_of_ne hkj] at hk
          by_cases hki : k = i
          · subst hki
            rw [update_self] at hk
            injection hk with hk
            exact Or.inl ⟨rfl, hk.symm⟩
          · rw [update_of_ne hki] at hk
            exact Or.inr ⟨hki, hkj, hk⟩
        refine ⟨?_, ?_, ?_, h.fresh, h.nodup, h.dead⟩
        · intro k
          by_cases hkj : k = j
          · subst hkj
            rw [update_self, update_self]
            exact ⟨rfl, by simp [Mem.setPtr], hbuf⟩
          · rw [update_of_ne hkj, update_of_ne hkj]
            by_cases hki : k = i
            · subst hki
              rw [update_self, update_self]
              refine ⟨n, rfl, h2, ?_⟩
              rw [if_neg hb]
              exact ⟨by simp [Mem.setPtr, update_of_ne hkj], hi0.2.2⟩
            · rw [update_of_ne hki, update_of_ne hki]
              exact (h.holds k).congr (by simp [Mem.setPtr, update_of_ne hkj, update_of_ne hki]) rfl (fun _ _ => rfl)
        · intro k l m hk hl
          rcases hoj k m hk with ⟨hki, hm⟩ | ⟨hki, hkj, hk'⟩ <;> rcases hoj l _ hl with ⟨hli, hm'⟩ | ⟨hli, hlj, hl'⟩
          · rw [hki, hli]
          · rw [hm] at hl'
            exact absurd (h.inj l j _ hl' h1) hlj
          · rw [hm'] at hk'
            exact absurd (h.inj k j _ hk' h1) hkj
          · exact h.inj k l m hk' hl'
        · intro m
          show S.obj m ≠ none ↔ _
          rw [h.live m]
          constructor
          · rintro ⟨k, hk⟩
            by_cases hkj : k = j
            · subst hkj
              rw [h1] at hk
              exact ⟨i, by rw [update_of_ne hij.symm, update_self]; exact hk⟩
            · refine ⟨k, ?_⟩
              rw [update_of_ne hkj, update_of_ne (by rintro rfl; rw [hi0.1] at hk; simp at hk)]
              exact hk
          · rintro ⟨k, hk⟩
            rcases hoj k m hk with ⟨rfl, rfl⟩ | ⟨_, _, hk⟩
            · exact ⟨j, h1⟩
            · exact ⟨k, hk⟩

theorem deref_wr {P : Par V} {S : Mem V} {A : Abs V} {o : Nat → Option Nat} (h : Inv P S A o) {j : Nat} {v : V} {t : Ty}
    (hj : A j = some (some (v, t))) : ∃ q n, S.wr j = some q ∧ o j = some n ∧ S.deref q = some (n, v, t) ∧
      bufferUsed j q = P.useBuffer t ∧ q ≠ .null ∧ (P.useBuffer t = true → t.off = 0) := by
  have h0 := h.holds j
  rw [hj] at h0
  obtain ⟨n, h1, h2, h3⟩ := h0
  by_cases hb : P.useBuffer t = true
  · rw [if_pos hb] at h3
    obtain ⟨ho, hw, hbuf⟩ := h3
    exact ⟨_, n, hw, h1, by simp [Mem.deref, hbuf, h2, ho], by simp [bufferUsed, hb], by simp, fun _ => ho⟩
  · rw [if_neg hb] at h3
    exact ⟨_, n, h3.1, h1, by simp [Mem.deref, h2], by simp [bufferUsed, hb], by simp, fun h => absurd h hb⟩

theorem inv_copy {P : Par V} {S : Mem V} {A : Abs V} {o : Nat → Option Nat} (h : Inv P S A o) {i j : Nat}
    (hi : A i = some none) {x : V × Ty} (hj : A j = some (some x)) :
    ∃ S', (S.copyTo i j false).map (fun r => r.1) = some S' ∧ Inv P S' (update A i (some (some x))) (update o i (some S.next)) := by
  obtain ⟨v, t⟩ := x
  obtain ⟨q, n, h1, h2, h3, h4, _, h5⟩ := deref_wr h hj
  refine ⟨_, ?_, inv_new h hi v t h5⟩
  simp only [Mem.copyTo, h1, h3, h4, Option.bind_some, Option.map_some]
  by_cases hb : P.useBuffer t = true <;> simp [hb]

theorem step_inv {P : Par V} {S : Mem V} {A A' : Abs V} {o : Nat → Option Nat} (h : Inv P S A o) (op : Op V)
    (hs : spec P A op = some A') : ∃ S' o', step P S op = some S' ∧ Inv P S' A' o' := by
  match op with
  | .default i =>
    simp only [spec] at hs
    split at hs
    · rename_i hi
      injection hs with hs
      subst hs
      exact ⟨_, o, rfl, inv_alive h (Or.inl hi)⟩
    · simp at hs
  | .make i v t throws =>
    simp only [spec] at hs
    split at hs
    · rename_i hi
      cases throws with
      | true =>
        injection hs with hs
        subst hs
        exact ⟨S, o, rfl, h⟩
      | false =>
        injection hs with hs
        subst hs
        have h1 := inv_new (inv_alive h (Or.inl hi.1)) (update_self _ _ _) v t hi.2
        rw [update_idem] at h1
        refine ⟨_, update o i (some S.next), rfl, ?_⟩
        convert h1 using 1
        · by_cases hb : P.useBuffer t = true <;> simp [hb, Mem.setPtr, Mem.newInBuffer, Mem.newOnHeap]
        · rfl
    · simp at hs
  | .moveCtor i j =>
    simp only [spec] at hs
    split at hs
    · rename_i hi
      rcases hj : A j with _ | x
      · rw [hj] at hs; simp at hs
      · rw [hj] at hs
        injection hs with hs
        subst hs
        have hij : j ≠ i := by rintro rfl; rw [hi] at hj; simp at hj
        obtain ⟨S', o', h1, h2⟩ := inv_move (inv_alive h (Or.inl hi)) hij (update_self _ _ _) (x := x)
          (by rw [update_of_ne hij]; exact hj)
        rw [moveTo_setPtr P S i j hij] at h1
        rw [update_idem] at h2
        exact ⟨S', o', h1, h2⟩
    · simp at hs
  | .copyCtor i j throws =>
    simp only [spec] at hs
    split at hs
    · rename_i hi
      rcases hj : A j with _ | x
      · rw [hj] at hs; simp at hs
      · rw [hj] at hs
        simp only [Option.bind_some] at hs
        rcases x with _ | x
        · simp at hs
        · rw [if_neg (by simp)] at hs
          have hij : j ≠ i := by rintro rfl; rw [hi] at hj; simp at hj
          cases throws with
          | true =>
            injection hs with hs
            subst hs
            obtain ⟨q, n, h1, h2, h3, _⟩ := deref_wr (v := x.1) (t := x.2) h hj
            exact ⟨S, o, by simp [step, Mem.copyTo, h1, h3], h⟩
          | false =>
            injection hs with hs
            subst hs
            obtain ⟨S', h1, h2⟩ := inv_copy (j := j) (inv_alive h (Or.inl hi)) (update_self _ _ _) (x := x)
              (by rw [update_of_ne hij]; exact hj)
            rw [copyTo_setPtr S i j hij] at h1
            rw [update_idem] at h2
            exact ⟨S', _, h1, h2⟩
    · simp at hs
  | .destroy i =>
    simp only [spec] at hs
    rcases hi : A i with _ | x
    · rw [hi] at hs; simp at hs
    · rw [hi] at hs
      injection hs with hs
      subst hs
      obtain ⟨S', h1, h2, h3⟩ := inv_destroy h hi
      have h4 := inv_die h3 (update_self _ _ _)
      rw [update_idem] at h4
      refine ⟨_, update o i none, by rw [step, h1]; rfl, ?_⟩
      convert h4 using 1
      simp [Mem.setPtr]
  | .copyAssign i j throws =>
    simp only [spec] at hs
    rcases hi : A i with _ | x
    · rw [hi] at hs; simp at hs
    · rw [hi] at hs
      rcases hj : A j with _ | y
      · rw [hj] at hs; simp at hs
      · rw [hj] at hs
        simp only [Option.bind_some] at hs
        by_cases hij : j = i
        · rw [if_pos hij] at hs
          injection hs with hs
          subst hs
          refine ⟨S, o, ?_, h⟩
          rw [step, if_pos hij]
          have h0 := h.holds i
          rw [hi] at h0
          rcases x with _ | ⟨v, t⟩
          · rw [h0.2.1]; rfl
          · obtain ⟨q, n, h1, _⟩ := deref_wr h hi
            rw [h1]; rfl
        · rw [if_neg hij] at hs
          rcases y with _ | y
          · simp at hs
          · rw [if_neg (by simp)] at hs
            obtain ⟨S', h1, h2, h3⟩ := inv_destroy h hi
            cases throws with
            | true =>
              simp only [if_true] at hs
              split at hs
              · rename_i hx
                subst hx
                injection hs with hs
                subst hs
                have h0 := h.holds i
                rw [hi] at h0
                have h4 : S.destroyWrapped i = some S := by simp [Mem.destroyWrapped, h0.2.1]
                obtain ⟨q, n, h5, _, h6, _⟩ := deref_wr (v := y.1) (t := y.2) h hj
                refine ⟨S, o, ?_, h⟩
                rw [step, if_neg hij, h4]
                simp [Mem.copyTo, h5, h6]
              · simp at hs
            | false =>
              injection hs with hs
              subst hs
              obtain ⟨S'', h4, h5⟩ := inv_copy (j := j) h3 (update_self _ _ _) (x := y)
                (by rw [update_of_ne hij]; exact hj)
              rw [copyTo_setPtr S' i j hij] at h4
              rw [update_idem] at h5
              refine ⟨S'', _, ?_, h5⟩
              rw [step, if_neg hij, h1]
              exact h4
  | .moveAssign i j =>
    simp only [spec] at hs
    by_cases hij : j = i
    · rw [if_pos hij] at hs; simp at hs
    · rw [if_neg hij] at hs
      rcases hi : A i with _ | x
      · rw [hi] at hs; simp at hs
      · rw [hi] at hs
        rcases hj : A j with _ | y
        · rw [hj] at hs; simp at hs
        · rw [hj] at hs
          injection hs with hs
          subst hs
          obtain ⟨S', h1, h2, h3⟩ := inv_destroy h hi
          obtain ⟨S'', o', h4, h5⟩ := inv_move (j := j) h3 hij (update_self _ _ _) (x := y)
            (by rw [update_of_ne hij]; exact hj)
          rw [moveTo_setPtr P S' i j hij] at h4
          rw [update_idem] at h5
          exact ⟨S'', o', by rw [step, h1]; exact h4, h5⟩
  | .set i v =>
    simp only [spec] at hs
    rcases hi : A i with _ | x
    · rw [hi] at hs; simp at hs
    · rw [hi] at hs
      rcases x with _ | ⟨v0, t⟩
      · simp at hs
      · injection hs with hs
        subst hs
        obtain ⟨q, n, h1, h2, h3, _⟩ := deref_wr h hi
        exact ⟨_, o, by simp only [step, h1, h3, Option.bind_some, Option.map_some], inv_set h hi h2 v⟩

theorem run_inv {P : Par V} : ∀ (ops : List (Op V)) {S : Mem V} {A A' : Abs V} {o : Nat → Option Nat}, Inv P S A o →
    specRun P A ops = some A' → ∃ S' o', run P S ops = some S' ∧ Inv P S' A' o'
  | [], S, A, A', o, h, hs => by
    injection hs with hs
    subst hs
    exact ⟨S, o, rfl, h⟩
  | op :: ops, S, A, A', o, h, hs => by
    rw [specRun] at hs
    rcases h1 : spec P A op with _ | A1
    · rw [h1] at hs; simp at hs
    · rw [h1] at hs
      obtain ⟨S1, o1, h2, h3⟩ := step_inv h op h1
      obtain ⟨S2, o2, h4, h5⟩ := run_inv ops h3 hs
      exact ⟨S2, o2, by rw [run, h2]; exact h4, h5⟩

theorem inv_init (P : Par V) : Inv P Mem.init (fun _ => none) (fun _ => none) :=
  ⟨fun _ => ⟨rfl, rfl, rfl⟩, by simp, by simp [Mem.init], by simp [Mem.init], by simp [Mem.init], by simp [Mem.init]⟩

/-! ## Theorems -/

/-- C42: over any history that respects the preconditions, there is no undefined behaviour. In particular nothing is destroyed twice or
used after its destruction. Wrappers behave like values: `get` gives the value that was stored, assigned or moved there last,
and a copy holds an equal value. Objects are in the buffer if they fit. Every object that was created is either destroyed
exactly once or owned by exactly one wrapper. -/
theorem C42_partial (P : Par V) (ops : List (Op V)) {A : Abs V} (hs : specRun P (fun _ => none) ops = some A) :
    ∃ S, run P Mem.init ops = some S ∧
      (∀ i, (A i = none → S.wr i = none) ∧ (A i = some none → S.wr i = some .null) ∧
        (∀ v t, A i = some (some (v, t)) → S.get i = some v ∧ ∃ p, S.wr i = some p ∧ p ≠ .null ∧ bufferUsed i p = P.useBuffer t)) ∧
      S.dead.Nodup ∧ (∀ n, n ∈ S.dead → n < S.next ∧ S.obj n = none) ∧
      ∃ owner : Nat → Nat, ∀ n, n < S.next → n ∉ S.dead → S.obj n ≠ none ∧
        (∃ p, S.wr (owner n) = some p ∧ ∃ o, S.deref p = some (n, o)) ∧
        ∀ i p o, S.wr i = some p → S.deref p = some (n, o) → i = owner n := by
  obtain ⟨S, o, h1, h2⟩ := run_inv ops (inv_init P) hs
  refine ⟨S, h1, ?_, h2.nodup, fun n hn => (h2.dead n).mp hn, ?_⟩
  · intro i
    refine ⟨?_, ?_, ?_⟩
    · intro hi
      have := h2.holds i
      rw [hi] at this
      exact this.2.1
    · intro hi
      have := h2.holds i
      rw [hi] at this
      exact this.2.1
    · intro v t hi
      obtain ⟨q, n, h3, h4, h5, h6, h7, _⟩ := deref_wr h2 hi
      exact ⟨by simp [Mem.get, h3, h5], q, h3, h7, h6⟩
  · have hex : ∀ n, ∃ i, n < S.next → n ∉ S.dead → o i = some n := by
      intro n
      by_cases hn : n < S.next ∧ n ∉ S.dead
      · have h3 : S.obj n ≠ none := fun hc => hn.2 ((h2.dead n).mpr ⟨hn.1, hc⟩)
        obtain ⟨i, hi⟩ := (h2.live n).mp h3
        exact ⟨i, fun _ _ => hi⟩
      · exact ⟨0, fun h3 h4 => absurd ⟨h3, h4⟩ hn⟩
    have hown : ∀ i p n x, S.wr i = some p → S.deref p = some (n, x) → o i = some n := by
      intro i p n x hp hd
      have h3 := h2.holds i
      rcases hA : A i with _ | _ | ⟨v, t⟩
      · rw [hA] at h3
        rw [h3.2.1] at hp
        simp at hp
      · rw [hA] at h3
        rw [h3.2.1] at hp
        injection hp with hp
        subst hp
        simp [Mem.deref] at hd
      · obtain ⟨q, m, h4, h5, h6, _⟩ := deref_wr h2 hA
        rw [hp] at h4
        injection h4 with h4
        subst h4
        rw [hd] at h6
        injection h6 with h6
        injection h6 with h6
        rw [h5, h6]
    refine ⟨fun n => (hex n).choose, ?_⟩
    intro n hn hd
    have ho := (hex n).choose_spec hn hd
    refine ⟨(h2.live n).mpr ⟨_, ho⟩, ?_, ?_⟩
    · have h3 := h2.holds (hex n).choose
      rcases hA : A (hex n).choose with _ | _ | ⟨v, t⟩
      · rw [hA, ho] at h3
        exact absurd h3.1 (by simp)
      · rw [hA, ho] at h3
        exact absurd h3.1 (by simp)
      · obtain ⟨q, m, h4, h5, h6, _⟩ := deref_wr h2 hA
        rw [ho] at h5
        injection h5 with h5
        subst h5
        exact ⟨q, h4, _, h6⟩
    · intro i p x hp hx
      exact h2.inj i _ n (hown i p n x hp hx) ho

/-- C42, no leaks: if no wrapper is alive at the end, then all objects have been destroyed, each exactly once. -/
theorem C42_no_leak (P : Par V) (ops : List (Op V)) {A : Abs V} (hs : specRun P (fun _ => none) ops = some A)
    (hA : ∀ i, A i = none) : ∃ S, run P Mem.init ops = some S ∧ (∀ n, S.dead.count n = if n < S.next then 1 else 0) ∧
      ∀ n, S.obj n = none := by
  obtain ⟨S, o, h1, h2⟩ := run_inv ops (inv_init P) hs
  have hn : ∀ n, S.obj n = none := by
    intro n
    by_contra hc
    obtain ⟨i, hi⟩ := (h2.live n).mp hc
    have := h2.holds i
    rw [hA i, hi] at this
    exact absurd this.1 (by simp)
  refine ⟨S, h1, ?_, hn⟩
  intro n
  by_cases hl : n < S.next
  · rw [if_pos hl]
    exact List.count_eq_one_of_mem h2.nodup ((h2.dead n).mpr ⟨hl, hn n⟩)
  · rw [if_neg hl]
    exact List.count_eq_zero.mpr fun hm => hl ((h2.dead n).mp hm).1

/-- C42, storage: an object in a buffer fits into the buffer, and its alignment divides the alignment of the buffer. -/
theorem C42_fits (P : Par V) (ops : List (Op V)) {A : Abs V} (hs : specRun P (fun _ => none) ops = some A) :
    ∃ S, run P Mem.init ops = some S ∧ ∀ i n, S.buf i = some n →
      ∃ v t, S.obj n = some (v, t) ∧ t.size ≤ P.bufferSize ∧ t.align ∣ P.bufferAlignment := by
  obtain ⟨S, o, h1, h2⟩ := run_inv ops (inv_init P) hs
  refine ⟨S, h1, ?_⟩
  intro i n hn
  have h3 := h2.holds i
  rcases hA : A i with _ | _ | ⟨v, t⟩
  · rw [hA] at h3
    rw [h3.2.2] at hn
    simp at hn
  · rw [hA] at h3
    rw [h3.2.2] at hn
    simp at hn
  · rw [hA] at h3
    obtain ⟨m, h4, h5, h6⟩ := h3
    by_cases hu : P.useBuffer t = true
    · rw [if_pos hu] at h6
      rw [h6.2.2] at hn
      injection hn with hn
      subst hn
      have hu' := of_decide_eq_true hu
      exact ⟨v, t, h5, hu'.1, Nat.dvd_of_mod_eq_zero hu'.2⟩
    · rw [if_neg hu] at h6
      rw [h6.2] at hn
      simp at hn

/-! ## Counterexamples and examples -/

def exPar : Par Int := ⟨56, 16, fun _ => 0⟩
def small : Ty := ⟨16, 8, 0⟩
def large : Ty := ⟨64, 8, 0⟩

/-- Small and large objects: construction, copies, moves, assignments, change of a copy, destruction. -/
def exOps : List (Op Int) := [.make 0 5 small false, .make 1 7 large false, .copyCtor 2 0 false, .moveCtor 3 1, .default 4,
  .set 2 6, .copyAssign 4 3 false, .moveAssign 3 2, .copyAssign 0 4 false, .copyAssign 0 0 false, .copyCtor 5 4 true, .moveAssign 1 4]

example : ((run exPar Mem.init exOps).map fun S => (List.range 6).map S.get) = some [some 7, some 7, some 0, some 6, none, none] ∧
    ((run exPar Mem.init exOps).map fun S => (S.dead, S.next)) = some ([0, 1], 6) := by decide

example : ∃ A, specRun exPar (fun _ => none) exOps = some A ∧ A 0 = some (some (7, large)) ∧ A 4 = some none :=
  ⟨_, rfl, rfl, rfl⟩

example := C42_partial exPar exOps rfl

example := C42_fits exPar exOps rfl

example : ((run exPar Mem.init exOps).map fun S => (List.range 6).map fun i => (S.buf i).isSome) =
    some [false, false, true, true, false, false] := by decide

/-- All wrappers destroyed. -/
example : ∃ A, specRun exPar (fun _ => none) (exOps ++ (List.range 5).map Op.destroy) = some A ∧ ∀ i, A i = none := by
  refine ⟨_, rfl, ?_⟩
  intro i
  rcases i with _ | _ | _ | _ | _ | _ | i <;> rfl

example := C42_no_leak exPar (exOps ++ (List.range 5).map Op.destroy) rfl (by
  intro i
  rcases i with _ | _ | _ | _ | _ | _ | i <;> rfl)

example : ((run exPar Mem.init (exOps ++ (List.range 5).map Op.destroy)).map fun S => ((List.range 7).map S.dead.count, S.next)) =
    some ([1, 1, 1, 1, 1, 1, 0], 6) := by decide

/-- The full claim is false: copying an empty wrapper is undefined. A wrapper is empty after default construction or after a large
object was moved from it. -/
theorem C42_copy_empty_false : run exPar Mem.init [.default 0, .copyCtor 1 0 false] = none ∧
    run exPar Mem.init [.default 0, .default 1, .copyAssign 1 0 false] = none ∧
    run exPar Mem.init [.make 0 5 large false, .moveCtor 1 0, .copyCtor 2 0 false] = none := ⟨rfl, rfl, rfl⟩

/-- An exception in copy assignment leaves a dangling pointer behind: the object is destroyed twice. This is so for objects of any size. -/
theorem C42_throw_false (t t' : Ty) (ht : t.off = 0) (ht' : t'.off = 0) :
    run exPar Mem.init [.make 0 5 t false, .make 1 6 t' false, .copyAssign 0 1 true] ≠ none ∧
    run exPar Mem.init [.make 0 5 t false, .make 1 6 t' false, .copyAssign 0 1 true, .destroy 0] = none := by
  obtain ⟨s, a, o⟩ := t
  obtain ⟨s', a', o'⟩ := t'
  simp only at ht ht'
  subst ht ht'
  constructor <;>
  · by_cases h : exPar.useBuffer ⟨s, a, 0⟩ = true <;> by_cases h' : exPar.useBuffer ⟨s', a', 0⟩ = true <;>
    simp [run, step, h, h', Mem.newInBuffer, Mem.newOnHeap, Mem.setPtr, Mem.destroyWrapped, bufferUsed, Mem.deref, Mem.copyTo,
      Mem.kill, Mem.init, Function.update_apply]

/-- Move assignment to itself, e.g. by `std::swap(x,x)`, is undefined for objects in the buffer and destroys large objects. -/
theorem C42_self_move_false : run exPar Mem.init [.make 0 5 small false, .moveAssign 0 0] = none ∧
    ((run exPar Mem.init [.make 0 5 large false, .moveAssign 0 0]).map fun S => S.wr 0) = some (some .null) ∧
    run exPar Mem.init [.make 0 5 small false, .moveCtor 1 0, .moveAssign 0 0, .moveAssign 0 1] = none := ⟨rfl, rfl, rfl⟩

/-- If the base class is not at the beginning of a small object, then it is not recognized that the object is in the buffer, and the
pointer is deleted. -/
theorem C42_offset_false : run exPar Mem.init [.make 0 5 ⟨16, 8, 8⟩ false] ≠ none ∧
    run exPar Mem.init [.make 0 5 ⟨16, 8, 8⟩ false, .destroy 0] = none := ⟨by simp [run, step], rfl⟩

end Verif.SmallObject
