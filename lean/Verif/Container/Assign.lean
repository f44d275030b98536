import Verif.Container.Resize

/-!
# Assignments to wrapped vectors

Model of the assignment operators of `ISTLVectorBackend` (dune/functions/backends/istlvectorbackend.hh).
-/

namespace Verif.Assign

open Verif.IndexTree Verif.Container

variable {T V : Type}

/-! ## Model -/

/-- Assignments `c = t` of the container libraries: `ok ty` is `std::is_assignable_v<C&,V>` for containers of type `ty`, `set` its effect. -/
structure Lib (T V : Type) where
  ok : CT → Bool
  set : CT → Ct T → V → Ct T

mutual
/-- `recursiveAssign`, istlvectorbackend.hh:235-249: the container is assigned if possible, otherwise all entries are. -/
def recursiveAssign (A : Lib T V) (v : V) : CT → Ct T → Ct T
  | .scalar, c => if A.ok .scalar then A.set .scalar c v else c
  | .vec t, c => if A.ok (.vec t) then A.set (.vec t) c v else match c with
    | .vec l => .vec (l.map (recursiveAssign A v t))
    | c => c
  | .arr n t, c => if A.ok (.arr n t) then A.set (.arr n t) c v else match c with
    | .arr l => .arr (l.map (recursiveAssign A v t))
    | c => c
  | .tup ts, c => if A.ok (.tup ts) then A.set (.tup ts) c v else match c with
    | .tup l => .tup (recursiveAssigns A v ts l)
    | c => c
def recursiveAssigns (A : Lib T V) (v : V) : List CT → List (Ct T) → List (Ct T)
  | t :: ts, c :: l => recursiveAssign A v t c :: recursiveAssigns A v ts l
  | _, l => l
end

mutual
/-- The recursion ends for all entries, otherwise `Hybrid::forEach` is instantiated for a number. -/
def compiles (A : Lib T V) : CT → Bool
  | .scalar => A.ok .scalar
  | .vec t => A.ok (.vec t) || compiles A t
  | .arr n t => A.ok (.arr n t) || compiles A t
  | .tup ts => A.ok (.tup ts) || compilesAll A ts
def compilesAll (A : Lib T V) : List CT → Bool
  | [] => true
  | t :: ts => compiles A t && compilesAll A ts
end

/-- `operator=(const T&)`, istlvectorbackend.hh:287-291. `none`: does not compile. -/
def assignValue (A : Lib T V) (ty : CT) (c : Ct T) (v : V) : Option (Ct T) :=
  if compiles A ty then some (recursiveAssign A v ty c) else none

/-- `ISTLVectorBackend<V>` with `V` possibly const, istlvectorbackend.hh:104-312: a pointer to a vector. -/
structure Backend where
  ptr : Nat
  isConst : Bool
deriving DecidableEq

/-- A vector: number of its C++ type, nesting, entries. -/
structure Var (T : Type) where
  type : Nat
  ty : CT
  c : Ct T

/-- Vectors, and variables for backends. -/
structure World (T : Type) where
  vecs : List (Var T)
  backs : List Backend

/-- Statements of the user. -/
inductive Op (T V : Type) where
  /-- `auto b = istlVectorBackend(x_i);` -/
  | wrap (i : Nat) (isConst : Bool)
  /-- `b = v;` -/
  | value (b : Nat) (v : V)
  /-- `b = b';` -/
  | backend (b b' : Nat)
  /-- `b[m] = x;` -/
  | write (b : Nat) (m : MI) (x : T)

/-- `conv s t c`: assignment of a vector of type `s` to one of type `t` (`none`: does not compile). Backends of the same type: the template `operator=` (293-297) is never a copy
assignment operator, overload resolution prefers the implicit one, which copies the pointer. -/
def step (A : Lib T V) (conv : Nat → Nat → Ct T → Option (Ct T)) (W : World T) : Op T V → Option (World T)
  | .wrap i k => (W.vecs[i]?).bind fun _ => some { W with backs := W.backs ++ [⟨i, k⟩] }
  | .value b v => (W.backs[b]?).bind fun B => if B.isConst then none else
      (W.vecs[B.ptr]?).bind fun x => (assignValue A x.ty x.c v).bind fun c => some { W with vecs := W.vecs.set B.ptr { x with c } }
  | .backend b b' => (W.backs[b]?).bind fun B => (W.backs[b']?).bind fun B' =>
      (W.vecs[B.ptr]?).bind fun x => (W.vecs[B'.ptr]?).bind fun x' =>
        if B.isConst = B'.isConst ∧ x.type = x'.type then some { W with backs := W.backs.set b B' }
        else if B.isConst then none
        else (conv x'.type x.type x'.c).bind fun c => some { W with vecs := W.vecs.set B.ptr { x with c } }
  | .write b m y => (W.backs[b]?).bind fun B => if B.isConst then none else
      (W.vecs[B.ptr]?).bind fun x => (assign y x.c ⟨m, 0⟩).bind fun c => some { W with vecs := W.vecs.set B.ptr { x with c } }

def run (A : Lib T V) (conv : Nat → Nat → Ct T → Option (Ct T)) : World T → List (Op T V) → Option (World T)
  | W, [] => some W
  | W, op :: ops => (step A conv W op).bind fun W' => run A conv W' ops

/-! ## Specification -/

/-- `c'` has the entries of `c`, and all numbers in it are `v`. -/
def Filled (c c' : Ct T) (v : T) : Prop := ∀ p, match Ct.at p c with
  | none => Ct.at p c' = none
  | some (.scalar _) => Ct.at p c' = some (.scalar v)
  | some d => ∃ d', Ct.at p c' = some d' ∧ d'.kids.length = d.kids.length ∧ isScalar d' = false

/-- Contract of the libraries for assigning numbers: numbers can be assigned to numbers; containers that can be assigned a number keep their size and set all entries. -/
structure Lib.Numbers (A : Lib T T) : Prop where
  scalar : A.ok .scalar = true
  typed : ∀ ty c v, A.ok ty = true → HasType ty c → HasType ty (A.set ty c v)
  filled : ∀ ty c v, A.ok ty = true → HasType ty c → Filled c (A.set ty c v) v

/-- What the user expects, with backends as names of vectors: `names[b]` is the vector variable `b` was created for (and whether it is const). `b = v` fills this vector, `b = b'` copies the entries of the
vector of `b'`, `b[m] = x` changes one entry; no assignment changes which vector a variable stands for. -/
def Expected (A : Lib T V) (conv : Nat → Nat → Ct T → Option (Ct T)) (names : List Backend) (vecs : List (Var T)) :
    Op T V → List Backend × List (Var T) → Prop
  | .wrap i k, r => r = (names ++ [⟨i, k⟩], vecs)
  | .value b v, r => r.1 = names ∧ ∃ B x c, names[b]? = some B ∧ vecs[B.ptr]? = some x ∧ assignValue A x.ty x.c v = some c ∧
      r.2 = vecs.set B.ptr { x with c }
  | .backend b b', r => r.1 = names ∧ ∃ B B' x x' c, names[b]? = some B ∧ names[b']? = some B' ∧ vecs[B.ptr]? = some x ∧ vecs[B'.ptr]? = some x' ∧
      conv x'.type x.type x'.c = some c ∧ r.2 = vecs.set B.ptr { x with c }
  | .write b m y, r => r.1 = names ∧ ∃ B x c, names[b]? = some B ∧ vecs[B.ptr]? = some x ∧ assign y x.c ⟨m, 0⟩ = some c ∧
      r.2 = vecs.set B.ptr { x with c }

/-- The statement assigns a backend to another one of the same type. -/
def SameType (W : World T) : Op T V → Prop
  | .backend b b' => ∃ B B' x x', W.backs[b]? = some B ∧ W.backs[b']? = some B' ∧ W.vecs[B.ptr]? = some x ∧ W.vecs[B'.ptr]? = some x' ∧
      B.isConst = B'.isConst ∧ x.type = x'.type
  | _ => False

/-! ## Proof -/

theorem recursiveAssigns_get (A : Lib T V) (v : V) : ∀ (ts : List CT) (l : List (Ct T)) (i : Nat), ts.length = l.length →
    (recursiveAssigns A v ts l)[i]? = (ts[i]?).bind fun t => (l[i]?).map (recursiveAssign A v t)
  | [], [], i, _ => by simp [recursiveAssigns]
  | [], _ :: _, i, h => by simp at h
  | _ :: _, [], i, h => by simp at h
  | t :: ts, c :: l, i, h => by
    rw [recursiveAssigns]
    cases i with
    | zero => simp
    | succ i => simpa using recursiveAssigns_get A v ts l i (by simpa using h)

theorem recursiveAssigns_length (A : Lib T V) (v : V) : ∀ (ts : List CT) (l : List (Ct T)), (recursiveAssigns A v ts l).length = l.length
  | [], l => by simp [recursiveAssigns]
  | _ :: _, [] => by simp [recursiveAssigns]
  | t :: ts, c :: l => by simp [recursiveAssigns, recursiveAssigns_length A v ts l]

/-- The result entry by entry. -/
theorem recursiveAssign_kid (A : Lib T V) (v : V) {ty : CT} {c : Ct T} (hc : HasType ty c) (hn : A.ok ty = false) :
    (recursiveAssign A v ty c).kids.length = c.kids.length ∧ (isScalar (recursiveAssign A v ty c) = isScalar c) ∧
    ∀ i d, c.kids[i]? = some d → ∃ t, ty.kid i = some t ∧ HasType t d ∧ (recursiveAssign A v ty c).kids[i]? = some (recursiveAssign A v t d) := by
  cases ty with
  | scalar => cases c <;> simp_all [HasType, Ct.kids, recursiveAssign]
  | vec t =>
    cases c with
    | vec l =>
      have e : recursiveAssign A v (.vec t) (.vec l) = .vec (l.map (recursiveAssign A v t)) := by simp [recursiveAssign, hn]
      rw [e]
      refine ⟨by simp [Ct.kids], rfl, ?_⟩
      intro i d hd
      obtain ⟨t', h1, h2⟩ := typed_kid hc hd
      simp only [CT.kid, Option.some.injEq] at h1
      subst h1
      exact ⟨t, rfl, h2, by simp only [Ct.kids] at hd; simp [Ct.kids, hd]⟩
    | _ => simp [HasType] at hc
  | arr n t =>
    cases c with
    | arr l =>
      have e : recursiveAssign A v (.arr n t) (.arr l) = .arr (l.map (recursiveAssign A v t)) := by simp [recursiveAssign, hn]
      rw [e]
      refine ⟨by simp [Ct.kids], rfl, ?_⟩
      intro i d hd
      obtain ⟨t', h1, h2⟩ := typed_kid hc hd
      simp only [CT.kid, Option.some.injEq] at h1
      subst h1
      exact ⟨t, rfl, h2, by simp only [Ct.kids] at hd; simp [Ct.kids, hd]⟩
    | _ => simp [HasType] at hc
  | tup ts =>
    cases c with
    | tup l =>
      have e : recursiveAssign A v (.tup ts) (.tup l) = .tup (recursiveAssigns A v ts l) := by simp [recursiveAssign, hn]
      rw [e]
      have hl := ((hasTypes_iff ts l).1 (by simpa [HasType] using hc)).1
      refine ⟨by simp [Ct.kids, recursiveAssigns_length], rfl, ?_⟩
      intro i d hd
      obtain ⟨t', h1, h2⟩ := typed_kid hc hd
      refine ⟨t', h1, h2, ?_⟩
      simp only [CT.kid] at h1
      simp only [Ct.kids] at hd
      simp only [Ct.kids]
      rw [recursiveAssigns_get A v ts l i hl, h1, hd]
      rfl
    | _ => simp [HasType] at hc

theorem recursiveAssign_ok (A : Lib T V) (v : V) {ty : CT} (c : Ct T) (h : A.ok ty = true) : recursiveAssign A v ty c = A.set ty c v := by
  cases ty <;> simp [recursiveAssign, h]

/-- The type is kept. -/
theorem recursiveAssign_typed {A : Lib T V} (hA : ∀ ty c v, A.ok ty = true → HasType ty c → HasType ty (A.set ty c v)) (v : V) :
    (ty : CT) → (c : Ct T) → HasType ty c → HasType ty (recursiveAssign A v ty c)
  | ty, c, hc => by
    by_cases hok : A.ok ty = true
    · rw [recursiveAssign_ok A v c hok]; exact hA _ _ _ hok hc
    · have hok : A.ok ty = false := by simpa using hok
      obtain ⟨h1, h2, h3⟩ := recursiveAssign_kid A v hc hok
      have ih : ∀ i d t, c.kids[i]? = some d → ty.kid i = some t → HasType t d → HasType t (recursiveAssign A v t d) :=
        fun i d t _ ht hd => recursiveAssign_typed hA v t d hd
      cases ty with
      | scalar => cases c <;> simp_all [HasType, recursiveAssign]
      | vec t =>
        cases c with
        | vec l =>
          have e : recursiveAssign A v (.vec t) (.vec l) = .vec (l.map (recursiveAssign A v t)) := by simp [recursiveAssign, hok]
          rw [e]
          intro c hc'
          obtain ⟨d, hd, rfl⟩ := List.mem_map.1 hc'
          obtain ⟨i, hi⟩ := List.getElem?_of_mem hd
          exact ih i d t hi rfl (hc d hd)
        | _ => simp [HasType] at hc
      | arr n t =>
        cases c with
        | arr l =>
          have e : recursiveAssign A v (.arr n t) (.arr l) = .arr (l.map (recursiveAssign A v t)) := by simp [recursiveAssign, hok]
          rw [e]
          refine ⟨by rw [List.length_map]; exact hc.1, ?_⟩
          intro c hc'
          obtain ⟨d, hd, rfl⟩ := List.mem_map.1 hc'
          obtain ⟨i, hi⟩ := List.getElem?_of_mem hd
          exact ih i d t hi rfl (hc.2 d hd)
        | _ => simp [HasType] at hc
      | tup ts =>
        cases c with
        | tup l =>
          have e : recursiveAssign A v (.tup ts) (.tup l) = .tup (recursiveAssigns A v ts l) := by simp [recursiveAssign, hok]
          rw [e]
          simp only [HasType] at hc ⊢
          obtain ⟨g1, g2⟩ := (hasTypes_iff ts l).1 hc
          refine (hasTypes_iff _ _).2 ⟨by rw [recursiveAssigns_length, g1], ?_⟩
          intro i t c ht hc'
          rw [recursiveAssigns_get A v ts l i g1, ht, Option.bind_some] at hc'
          obtain ⟨d, hd, rfl⟩ := Option.map_eq_some_iff.1 hc'
          exact ih i d t hd ht (g2 i t d ht hd)
        | _ => simp [HasType] at hc
termination_by ty => sizeOf ty
decreasing_by exact kid_lt ht

theorem at_scalar (p : MI) (x : T) : Ct.at p (.scalar x) = if p = [] then some (.scalar x) else none := by
  cases p <;> simp [Ct.at, Ct.kids]

theorem recursiveAssign_filled {A : Lib T T} (hA : A.Numbers) (v : T) :
    (ty : CT) → (c : Ct T) → HasType ty c → Filled c (recursiveAssign A v ty c) v
  | ty, c, hc => by
    by_cases hok : A.ok ty = true
    · rw [recursiveAssign_ok A v c hok]; exact hA.filled _ _ _ hok hc
    · have hok : A.ok ty = false := by simpa using hok
      have hns : isScalar c = false := by
        cases ty with
        | scalar => rw [hA.scalar] at hok; cases hok
        | vec t => cases c <;> simp_all [HasType, isScalar]
        | arr n t => cases c <;> simp_all [HasType, isScalar]
        | tup ts => cases c <;> simp_all [HasType, isScalar]
      obtain ⟨h1, h2, h3⟩ := recursiveAssign_kid A v hc hok
      have ih : ∀ i d t, c.kids[i]? = some d → ty.kid i = some t → HasType t d → Filled d (recursiveAssign A v t d) v :=
        fun i d t _ ht hd => recursiveAssign_filled hA v t d hd
      intro p
      cases p with
      | nil =>
        simp only [Ct.at]
        cases c with
        | scalar x => simp [isScalar] at hns
        | _ => exact ⟨_, rfl, h1, h2.trans hns⟩
      | cons i p =>
        simp only [Ct.at]
        cases hd : c.kids[i]? with
        | none =>
          have : (recursiveAssign A v ty c).kids[i]? = none := by
            rw [List.getElem?_eq_none_iff] at hd ⊢; omega
          simp [this]
        | some d =>
          obtain ⟨t, ht, htd, hk⟩ := h3 i d hd
          have := ih i d t hd ht htd p
          rw [hk]
          exact this
termination_by ty => sizeOf ty
decreasing_by exact kid_lt ht

/-! ## Theorems -/

/-- **C77, numbers.** `istlVectorBackend(x) = v` compiles for all containers whose numbers can be assigned; it keeps all sizes and sets all numbers to `v`, for all nestings, whatever level of
containers supports the assignment of numbers. -/
theorem C77_number {A : Lib T T} (hA : A.Numbers) (ty : CT) (c : Ct T) (hc : HasType ty c) (v : T) :
    ∃ c', assignValue A ty c v = some c' ∧ HasType ty c' ∧ Filled c c' v := by
  have hcomp : compiles A ty = true := by
    have : (∀ ty : CT, compiles A ty = true) := by
      intro ty
      refine CT.rec (motive_1 := fun ty => compiles A ty = true) (motive_2 := fun ts => compilesAll A ts = true) ?_ ?_ ?_ ?_ ?_ ?_ ty
      · simp [compiles, hA.scalar]
      · intro t h; simp [compiles, h]
      · intro n t h; simp [compiles, h]
      · intro ts h; simp [compiles, h]
      · rfl
      · intro t ts h1 h2; simp [compilesAll, h1, h2]
    exact this ty
  exact ⟨_, by rw [assignValue, if_pos hcomp], recursiveAssign_typed hA.typed v ty c hc, recursiveAssign_filled hA v ty c hc⟩

/-- **C77, bases.** After `backend.resize(basis); backend = v;` the coefficient of each multi-index of the basis is `v`. -/
theorem C77_basis {E : Type} {A : Lib T T} (hA : A.Numbers) {rs : CT → List (Ct T) → Nat → List (Ct T)} (hrs : ResizeOK rs) (b : PB E) (hb : b.WF)
    (ty : CT) (c c1 : Ct T) (hc : HasType ty c) (h : Container.resize rs b.model.size ty c = .ok c1)
    (hp : ∀ m ∈ IndexSet b.model, ∀ t, CT.at m ty = some t → t.Padded) (v : T) :
    ∃ c', assignValue A ty c1 v = some c' ∧ ∀ m ∈ IndexSet b.model, access isScalar c' m = some (.scalar v) := by
  obtain ⟨c', h1, -, h3⟩ := C77_number hA ty c1 (C33_shape hrs ty c c1 hc h).1 v
  refine ⟨c', h1, fun m hm => ?_⟩
  obtain ⟨x, k, hk⟩ := C33_entry hrs b hb ty c c1 hc h m hm (hp m hm)
  have := h3 (m ++ List.replicate k 0)
  rw [hk] at this
  exact C35_access c' m v ⟨k, this⟩

/-- **C77, blocks.** For values of any type the recursion stops at the first nested entry type which is assignable, as documented: these entries are assigned and nothing else is changed. -/
theorem C77_first (A : Lib T V) (v : V) : ∀ (p : MI) (ty : CT) (c : Ct T), HasType ty c →
    (∀ q, q <+: p → q ≠ p → ∀ t, CT.at q ty = some t → A.ok t = false) →
    ∀ d, Ct.at p c = some d → ∃ t, CT.at p ty = some t ∧ ∃ d', Ct.at p (recursiveAssign A v ty c) = some d' ∧
      (A.ok t = true → d' = A.set t d v) ∧ (A.ok t = false → d'.kids.length = d.kids.length)
  | [], ty, c, hc, _, d, hd => by
    simp only [Ct.at, Option.some.injEq] at hd
    subst hd
    exact ⟨ty, rfl, _, rfl, fun h => recursiveAssign_ok A v c h, fun h => (recursiveAssign_kid A v hc h).1⟩
  | i :: p, ty, c, hc, hq, d, hd => by
    simp only [Ct.at, Option.bind_eq_some_iff] at hd
    obtain ⟨d1, hd1, hd⟩ := hd
    obtain ⟨-, -, h3⟩ := recursiveAssign_kid A v hc (hq [] List.nil_prefix (by simp) ty rfl)
    obtain ⟨t, ht, htd, hk⟩ := h3 i d1 hd1
    obtain ⟨t', g1, d', g2, g3⟩ := C77_first A v p t d1 htd
      (fun q hqp hne t' ht' => hq (i :: q) (by simpa [List.cons_prefix_cons] using hqp) (by simpa using hne) t' (by simp [CT.at, ht, ht'])) d hd
    exact ⟨t', by simp [CT.at, ht, g1], d', by simp [Ct.at, hk, g2], g3⟩

/-- **C77, backends (partial).** Every statement that compiles has the expected effect, except assignments between backends of the same type.
What is missing: these copy the pointer, see `C77_backend_false`. -/
theorem C77_backend_partial (A : Lib T V) (conv : Nat → Nat → Ct T → Option (Ct T)) (W W' : World T) (op : Op T V) (h : step A conv W op = some W')
    (hn : ¬ SameType W op) : Expected A conv W.backs W.vecs op (W'.backs, W'.vecs) := by
  cases op with
  | wrap i k =>
    simp only [step, Option.bind_eq_some_iff, Option.some.injEq] at h
    obtain ⟨x, hx, rfl⟩ := h
    rfl
  | value b v =>
    simp only [step, Option.bind_eq_some_iff] at h
    obtain ⟨B, hB, h⟩ := h
    split at h
    · cases h
    · simp only [Option.bind_eq_some_iff, Option.some.injEq] at h
      obtain ⟨x, hx, c, hc, rfl⟩ := h
      exact ⟨rfl, B, x, c, hB, hx, hc, rfl⟩
  | backend b b' =>
    simp only [step, Option.bind_eq_some_iff] at h
    obtain ⟨B, hB, B', hB', x, hx, x', hx', h⟩ := h
    split at h
    · next hs => exact absurd ⟨B, B', x, x', hB, hB', hx, hx', hs⟩ hn
    · split at h
      · cases h
      · simp only [Option.bind_eq_some_iff, Option.some.injEq] at h
        obtain ⟨c, hc, rfl⟩ := h
        exact ⟨rfl, B, B', x, x', c, hB, hB', hx, hx', hc, rfl⟩
  | write b m y =>
    simp only [step, Option.bind_eq_some_iff] at h
    obtain ⟨B, hB, h⟩ := h
    split at h
    · cases h
    · simp only [Option.bind_eq_some_iff, Option.some.injEq] at h
      obtain ⟨x, hx, c, hc, rfl⟩ := h
      exact ⟨rfl, B, x, c, hB, hx, hc, rfl⟩

/-! ## Examples and counterexamples -/

/-- Numbers and `FieldVector`s can be assigned a number; tuples and `std::vector` cannot. -/
def exLib : Lib Int Int where
  ok
    | .scalar => true
    | .arr _ .scalar => true
    | _ => false
  set
    | .scalar, _, v => .scalar v
    | _, .arr l, v => .arr (l.map fun _ => .scalar v)
    | _, c, _ => c

theorem exLib_numbers : exLib.Numbers where
  scalar := rfl
  typed := by
    intro ty c v h hc
    match ty, c, h, hc with
    | .scalar, .scalar x, _, _ => trivial
    | .arr n .scalar, .arr l, _, hc =>
      refine ⟨by rw [List.length_map]; exact hc.1, ?_⟩
      intro d hd
      obtain ⟨_, _, rfl⟩ := List.mem_map.1 hd
      trivial
  filled := by
    intro ty c v h hc
    match ty, c, h, hc with
    | .scalar, .scalar x, _, _ =>
      intro p
      rw [at_scalar]
      by_cases hp : p = []
      · simp [hp, exLib, Ct.at]
      · simp only [hp, if_false]
        rw [show exLib.set .scalar (.scalar x) v = .scalar v from rfl, at_scalar, if_neg hp]
    | .arr n .scalar, .arr l, _, hc =>
      intro p
      cases p with
      | nil => exact ⟨_, rfl, by simp [Ct.kids, exLib], rfl⟩
      | cons i p =>
        simp only [Ct.at, Ct.kids, exLib, List.getElem?_map]
        cases hi : l[i]? with
        | none => simp
        | some d =>
          have := hc.2 d (List.mem_of_getElem? hi)
          cases d with
          | scalar y => simp only [Option.bind_some, Option.map_some, at_scalar]; by_cases hp : p = [] <;> simp [hp]
          | _ => simp [HasType] at this

/-- `MultiTypeBlockVector<std::vector<FieldVector<2>>, std::vector<std::vector<double>>>`. -/
def exTy : CT := .tup [.vec (.arr 2 .scalar), .vec (.vec .scalar)]
def exC : Ct Int := .tup [.vec [.arr [.scalar 1, .scalar 2], .arr [.scalar 3, .scalar 4]], .vec [.vec [.scalar 5], .vec []]]
theorem exC_typed : HasType exTy exC := by simp [exTy, exC, HasType, HasTypes]

example : ∃ c', assignValue exLib exTy exC 9 = some c' ∧ HasType exTy c' ∧ Filled exC c' 9 := C77_number exLib_numbers exTy exC exC_typed 9
example : assignValue exLib exTy exC 9
    = some (.tup [.vec [.arr [.scalar 9, .scalar 9], .arr [.scalar 9, .scalar 9]], .vec [.vec [.scalar 9], .vec []]]) := by
  simp [assignValue, compiles, compilesAll, exLib, exTy, exC, recursiveAssign, recursiveAssigns]

example := C77_first exLib 9 [0, 1] exTy exC exC_typed (by
  intro q hq hne t ht
  have : q = [] ∨ q = [0] := by
    match q, hq, hne with
    | [], _, _ => exact .inl rfl
    | [a], hq, _ => simp [List.cons_prefix_cons] at hq; subst hq; exact .inr rfl
    | [a, b], hq, hne => simp [List.cons_prefix_cons] at hq; obtain ⟨rfl, rfl⟩ := hq; exact absurd rfl hne
    | _ :: _ :: _ :: _, hq, _ => simp [List.cons_prefix_cons] at hq
  rcases this with rfl | rfl <;> (simp [CT.at, CT.kid, exTy] at ht; subst ht; rfl)) _ rfl
example : ∃ c', assignValue exLib (.vec (.arr 2 .scalar)) (.vec [.arr [.scalar 0, .scalar 0], .arr [.scalar 0, .scalar 0], .arr [.scalar 0, .scalar 0]]) 4 = some c' ∧
    ∀ m ∈ IndexSet (PB.power .blockedInt 2 (.leaf exLeaf)).model, access isScalar c' m = some (.scalar 4) :=
  C77_basis exLib_numbers (stdResize_OK 0) (.power .blockedInt 2 (.leaf exLeaf)) (by simp [PB.WF, exLeaf]) (.vec (.arr 2 .scalar)) (.vec []) _
    (by simp [HasType]) rfl (by
      intro m _ t h
      match m, h with
      | [], h => simp only [CT.at, Option.some.injEq] at h; subst h; exact .inr ⟨_, rfl, by decide, trivial⟩
      | [_], h => simp only [CT.at, CT.kid, Option.bind_some, Option.some.injEq] at h; subst h; exact .inl ⟨by decide, trivial⟩
      | [_, _], h => simp only [CT.at, CT.kid, Option.bind_some, Option.some.injEq] at h; subst h; exact .inl trivial
      | _ :: _ :: _ :: _, h => simp [CT.at, CT.kid] at h) 4

/-- Two vectors of the same type and one of another type. -/
def exW : World Int := ⟨[⟨0, .vec .scalar, .vec [.scalar 1]⟩, ⟨0, .vec .scalar, .vec [.scalar 2]⟩, ⟨1, .vec .scalar, .vec [.scalar 3]⟩], []⟩
def exConv (_ _ : Nat) (c : Ct Int) : Option (Ct Int) := some c
def exRun (ops : List (Op Int Int)) : Option (List (Option (List Int)) × List Nat) :=
  (run exLib exConv exW ops).map fun W => (W.vecs.map fun x => match x.c with
    | .vec l => l.mapM fun y => match y with | .scalar z => some z | _ => none
    | _ => none, W.backs.map (·.ptr))

/-- Copies between backends of different types. -/
example : exRun [.wrap 0 false, .wrap 1 true, .wrap 2 false, .backend 0 1, .write 0 [0] 7, .backend 2 0, .value 0 5]
    = some ([some [5], some [2], some [7]], [0, 1, 2]) := by decide +kernel

example := C77_backend_partial exLib exConv ⟨exW.vecs, [⟨0, false⟩, ⟨1, true⟩]⟩ _ (.backend 0 1) rfl (by
  rintro ⟨B, B', x, x', h1, h2, -, -, h, -⟩
  simp at h1 h2
  subst h1 h2
  simp at h)

/-- **C77, counterexample.** Let `a` and `b` be the backends of two vectors of the same type with entries 1 and 2. After `a = b; a[0] = 7;` the first vector still has the entry 1, and the
second one has the entry 7: `a` was changed to refer to the second vector. -/
theorem C77_backend_false :
    exRun [.wrap 0 false, .wrap 1 false, .backend 0 1, .write 0 [0] 7] = some ([some [1], some [7], some [3]], [1, 1]) ∧
    ¬ ∀ (W W' : World Int) (op : Op Int Int), step exLib exConv W op = some W' → Expected exLib exConv W.backs W.vecs op (W'.backs, W'.vecs) := by
  refine ⟨by decide +kernel, ?_⟩
  intro h
  have := h ⟨exW.vecs, [⟨0, false⟩, ⟨1, false⟩]⟩ ⟨exW.vecs, [⟨1, false⟩, ⟨1, false⟩]⟩ (.backend 0 1) rfl
  exact absurd this.1 (by simp)

end Verif.Assign
