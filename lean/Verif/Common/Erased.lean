import Verif.Common.SmallObject

/-!
# Type-erased functions

Model of `dune/functions/common/typeerasure.hh` and of the wrappers built on it: `DifferentiableFunction`, `LocalFunction` and
`GridFunction` (common/differentiablefunction.hh, differentiablefunction_imp.hh, localfunction.hh, localfunction_imp.hh,
gridfunctions/gridfunction.hh, gridfunction_imp.hh, gridviewfunction.hh). The storage is the one of `SmallObject.lean`.
-/

namespace Verif.Erased

open Verif.SmallObject

/-! ## Model -/

/-- Exceptions: `Dune::NotImplemented` or something thrown by the wrapped function. -/
inductive Err where
  | notImplemented
  | other (n : Nat)
  deriving DecidableEq

/-- Size and alignment of a function type `T`. -/
structure FTy where
  size : Nat
  align : Nat
  deriving DecidableEq

/-- What the wrapped functions do. `V` are the objects of all types that are wrapped, with their state. All members may throw, and
`operator()` may change `mutable` members. `derivative` is `none` if there is no free function `derivative` for the type. A new
object comes with its type. -/
structure Iface (V X Y C E : Type) where
  call : V → X → Except Err Y × V
  derivative : V → Option (Except Err (V × FTy))
  localFunction : V → Except Err (V × FTy)
  bind : V → C → Except Err Unit × V
  unbind : V → V
  bound : V → Bool
  localContext : V → C
  entitySet : V → E
  typeId : V → Nat
  movedFrom : V → V

variable {V X Y C E : Type}

/-- `derivativeIfImplemented`, differentiablefunction_imp.hh:33-49. -/
def Iface.derivativeIfImplemented (I : Iface V X Y C E) (v : V) : Except Err (V × FTy) :=
  match I.derivative v with
  | some r => r
  | none => .error .notImplemented

/-- Size of `TypeErasureWrapperInterface<Interface>`, typeerasure.hh:37-44: two base classes with virtual functions, i.e. two pointers. -/
def header : Nat := 16

/-- Layout of `TypeErasureWrapperImplementation<Interface, Implementation, T>`, typeerasure.hh:64-89 and 116-151: pointers to the
virtual function tables followed by `wrapped_`. The type `TypeErasureWrapperInterface` is the first base class. -/
def wrapperTy (t : FTy) : Ty :=
  let a := max 8 t.align
  let up n m := (n + m - 1) / m * m
  ⟨up (up header t.align + t.size) a, a, 0⟩

/-- `TypeErasureBase<Concept, Model>`: the base class of `DifferentiableFunction<Signature, Traits, bufferSize>`
(differentiablefunction.hh:85-92), `LocalFunction` (localfunction.hh:91-98) and `GridFunction` (gridfunction.hh:100-107). The parameter
`bufferSize` is not passed on, so that the default 56 of typeerasure.hh:167 is used. -/
def par (I : Iface V X Y C E) (_bufferSize : Nat) : Par V := ⟨56, 16, I.movedFrom⟩

/-- Statements of a user's program about the wrapper variables `i`, `j`, ... -/
inductive Cmd (V X C : Type) where
  /-- default constructor -/
  | default (i : Nat)
  /-- construction from a function, typeerasure.hh:173-176 -/
  | wrap (i : Nat) (v : V) (t : FTy)
  | copy (i j : Nat)
  | move (i j : Nat)
  | assign (i j : Nat)
  | moveAssign (i j : Nat)
  | destroy (i : Nat)
  | call (i : Nat) (x : X)
  /-- construction of `i` from `derivative(j)` -/
  | derivative (i j : Nat)
  /-- construction of `i` from `localFunction(j)` -/
  | localFunction (i j : Nat)
  | bind (i : Nat) (c : C)
  | unbind (i : Nat)
  | bound (i : Nat)
  | localContext (i : Nat)
  | entitySet (i : Nat)
  /-- `operator bool` -/
  | test (i : Nat)
  | targetType (i : Nat)

/-- What the user observes. -/
inductive Obs (Y C E : Type) where
  | value (y : Y)
  | threw (e : Err)
  | flag (b : Bool)
  | context (c : C)
  | entities (e : E)
  | type (n : Nat)
  deriving DecidableEq

/-- A member that changes the wrapped object of `i` in place. -/
def _root_.Verif.SmallObject.Mem.through (P : Par V) (S : Mem V) (i : Nat) (f : V → V × List (Obs Y C E)) :
    Option (Mem V × List (Obs Y C E)) :=
  (S.get i).bind fun v => (step P S (.set i (f v).1)).map fun S' => (S', (f v).2)

/-- A new wrapper `i` for the function returned by a member of the object in `j`, typeerasure.hh:173-176. -/
def _root_.Verif.SmallObject.Mem.create (P : Par V) (S : Mem V) (i j : Nat) (f : V → Except Err (V × FTy)) :
    Option (Mem V × List (Obs Y C E)) :=
  (S.get j).bind fun v => match f v with
    | .ok r => (step P S (.make i r.1 (wrapperTy r.2) false)).map fun S' => (S', [])
    | .error e => some (S, [.threw e])

def ofExcept : Except Err Y → List (Obs Y C E)
  | .ok y => [.value y]
  | .error e => [.threw e]

def ofUnit : Except Err Unit → List (Obs Y C E)
  | .ok _ => []
  | .error e => [.threw e]

/-- The wrappers: differentiablefunction.hh:122-137, localfunction.hh:127-176, gridfunction.hh:142-183 and the virtual members behind
them, differentiablefunction_imp.hh:86-94, localfunction_imp.hh:47-65, gridfunction_imp.hh:57-65; typeerasure.hh:182-204. `none` is
undefined behaviour. -/
def exec (I : Iface V X Y C E) (b : Nat) (S : Mem V) : Cmd V X C → Option (Mem V × List (Obs Y C E))
  | .default i => (step (par I b) S (.default i)).map fun S' => (S', [])
  | .wrap i v t => (step (par I b) S (.make i v (wrapperTy t) false)).map fun S' => (S', [])
  | .copy i j => (step (par I b) S (.copyCtor i j false)).map fun S' => (S', [])
  | .move i j => (step (par I b) S (.moveCtor i j)).map fun S' => (S', [])
  | .assign i j => (step (par I b) S (.copyAssign i j false)).map fun S' => (S', [])
  | .moveAssign i j => (step (par I b) S (.moveAssign i j)).map fun S' => (S', [])
  | .destroy i => (step (par I b) S (.destroy i)).map fun S' => (S', [])
  | .call i x => S.through (par I b) i fun v => ((I.call v x).2, ofExcept (I.call v x).1)
  | .derivative i j => S.create (par I b) i j I.derivativeIfImplemented
  | .localFunction i j => S.create (par I b) i j I.localFunction
  | .bind i c => S.through (par I b) i fun v => ((I.bind v c).2, ofUnit (I.bind v c).1)
  | .unbind i => S.through (par I b) i fun v => (I.unbind v, [])
  | .bound i => (S.get i).map fun v => (S, [.flag (I.bound v)])
  | .localContext i => (S.get i).map fun v => (S, [.context (I.localContext v)])
  | .entitySet i => (S.get i).map fun v => (S, [.entities (I.entitySet v)])
  | .test i => (S.wr i).map fun p => (S, [.flag (decide (p ≠ .null))])
  | .targetType i => (S.get i).map fun v => (S, [.type (I.typeId v)])

def execs (I : Iface V X Y C E) (b : Nat) : Mem V → List (Cmd V X C) → Option (Mem V × List (Obs Y C E))
  | S, [] => some (S, [])
  | S, c :: cs => (exec I b S c).bind fun r => (execs I b r.1 cs).map fun r' => (r'.1, r.2 ++ r'.2)

/-! ## Specification: variables holding the functions themselves -/

/-- Variables: not existing, empty, or a function with its type. There is no memory and there are no pointers. -/
abbrev Vars (V : Type) := Nat → Option (Option (V × FTy))

/-- Types for which the wrapper is moved by moving the function. Otherwise ownership is handed over and the source is empty. -/
def FTy.small (t : FTy) : Bool := decide ((wrapperTy t).size ≤ 56 ∧ 16 % (wrapperTy t).align = 0)

def moved (I : Iface V X Y C E) : Option (V × FTy) → Option (V × FTy)
  | none => none
  | some (v, t) => if t.small then some (I.movedFrom v, t) else none

/-- Use of the function in a variable. -/
def use (A : Vars V) (i : Nat) (f : V → FTy → Vars V × List (Obs Y C E)) : Option (Vars V × List (Obs Y C E)) := match A i with
  | some (some (v, t)) => some (f v t)
  | _ => none

open Function in
/-- What the program does if the functions are used directly. `none` if it is not valid: variables are created once and used
while they exist, functions are not called in empty variables, which are not copied either, and no variable is moved to itself. -/
def direct (I : Iface V X Y C E) (A : Vars V) : Cmd V X C → Option (Vars V × List (Obs Y C E))
  | .default i => if A i = none then some (update A i (some none), []) else none
  | .wrap i v t => if A i = none then some (update A i (some (some (v, t))), []) else none
  | .copy i j => if A i = none then match A j with
      | some (some o) => some (update A i (some (some o)), [])
      | _ => none
    else none
  | .move i j => if A i = none then match A j with
      | some o => some (update (update A i (some o)) j (some (moved I o)), [])
      | _ => none
    else none
  | .assign i j => match A i, A j with
      | some _, some o => if j = i then some (A, []) else match o with
        | some o => some (update A i (some (some o)), [])
        | none => none
      | _, _ => none
  | .moveAssign i j => if j = i then none else match A i, A j with
      | some _, some o => some (update (update A i (some o)) j (some (moved I o)), [])
      | _, _ => none
  | .destroy i => (A i).map fun _ => (update A i none, [])
  | .call i x => use A i fun v t => (update A i (some (some ((I.call v x).2, t))), ofExcept (I.call v x).1)
  | .derivative i j => if A i = none then use A j fun v _ => match I.derivative v with
      | some (.ok r) => (update A i (some (some r)), [])
      | some (.error e) => (A, [.threw e])
      | none => (A, [.threw .notImplemented])
    else none
  | .localFunction i j => if A i = none then use A j fun v _ => match I.localFunction v with
      | .ok r => (update A i (some (some r)), [])
      | .error e => (A, [.threw e])
    else none
  | .bind i c => use A i fun v t => (update A i (some (some ((I.bind v c).2, t))), ofUnit (I.bind v c).1)
  | .unbind i => use A i fun v t => (update A i (some (some (I.unbind v, t))), [])
  | .bound i => use A i fun v _ => (A, [.flag (I.bound v)])
  | .localContext i => use A i fun v _ => (A, [.context (I.localContext v)])
  | .entitySet i => use A i fun v _ => (A, [.entities (I.entitySet v)])
  | .test i => (A i).map fun o => (A, [.flag o.isSome])
  | .targetType i => use A i fun v _ => (A, [.type (I.typeId v)])

def directs (I : Iface V X Y C E) : Vars V → List (Cmd V X C) → Option (Vars V × List (Obs Y C E))
  | A, [] => some (A, [])
  | A, c :: cs => (direct I A c).bind fun r => (directs I r.1 cs).map fun r' => (r'.1, r.2 ++ r'.2)

/-! ## Proof -/

open Function

def absOf (A : Vars V) : Abs V := fun i => (A i).map fun o => o.map fun r => (r.1, wrapperTy r.2)

theorem absOf_update (A : Vars V) (i : Nat) (x : Option (Option (V × FTy))) :
    absOf (update A i x) = update (absOf A) i (x.map fun o => o.map fun r => (r.1, wrapperTy r.2)) := by
  funext j
  by_cases h : j = i
  · subst h; simp [absOf]
  · simp [absOf, h]

theorem absOf_none {A : Vars V} {i : Nat} : absOf A i = none ↔ A i = none := by
  simp [absOf]

theorem useBuffer_wrapper (I : Iface V X Y C E) (b : Nat) (t : FTy) : (par I b).useBuffer (wrapperTy t) = t.small := rfl

theorem moved_abs (I : Iface V X Y C E) (b : Nat) (o : Option (V × FTy)) :
    (moved I o).map (fun r => (r.1, wrapperTy r.2)) = spec.moved (par I b) (o.map fun r => (r.1, wrapperTy r.2)) := by
  rcases o with _ | ⟨v, t⟩
  · rfl
  · have hu := useBuffer_wrapper I b t
    simp only [moved, Option.map_some, spec.moved]
    by_cases hs : t.small = true
    · rw [if_pos hs, if_pos (hu.trans hs)]; rfl
    · rw [if_neg hs, if_neg (by rw [hu]; exact hs)]; rfl

theorem through_inv {I : Iface V X Y C E} {b : Nat} {S : Mem V} {A : Vars V} {o : Nat → Option Nat} (h : Inv (par I b) S (absOf A) o)
    {i : Nat} {v : V} {t : FTy} (hi : A i = some (some (v, t))) (f : V → V × List (Obs Y C E)) :
    ∃ S' o', S.through (par I b) i f = some (S', (f v).2) ∧ Inv (par I b) S' (absOf (update A i (some (some ((f v).1, t))))) o' := by
  have hA : absOf A i = some (some (v, wrapperTy t)) := by simp [absOf, hi]
  obtain ⟨S', o', h1, h2⟩ := step_inv h (.set i (f v).1) (A' := update (absOf A) i (some (some ((f v).1, wrapperTy t))))
    (by simp [spec, hA])
  obtain ⟨q, n, h3, h4, h5, -⟩ := deref_wr h hA
  have hg : S.get i = some v := by simp [Mem.get, h3, h5]
  refine ⟨S', o', by simp [Mem.through, hg, h1], ?_⟩
  rw [absOf_update]
  exact h2

theorem get_inv {I : Iface V X Y C E} {b : Nat} {S : Mem V} {A : Vars V} {o : Nat → Option Nat} (h : Inv (par I b) S (absOf A) o)
    {i : Nat} {v : V} {t : FTy} (hi : A i = some (some (v, t))) : S.get i = some v := by
  have hA : absOf A i = some (some (v, wrapperTy t)) := by simp [absOf, hi]
  obtain ⟨q, n, h3, h4, h5, -⟩ := deref_wr h hA
  simp [Mem.get, h3, h5]

theorem wrap_inv {I : Iface V X Y C E} {b : Nat} {S : Mem V} {A : Vars V} {o : Nat → Option Nat} (h : Inv (par I b) S (absOf A) o)
    {i : Nat} (hi : A i = none) (v : V) (t : FTy) : ∃ S' o', step (par I b) S (.make i v (wrapperTy t) false) = some S' ∧
      Inv (par I b) S' (absOf (update A i (some (some (v, t))))) o' := by
  obtain ⟨S', o', h1, h2⟩ := step_inv h (.make i v (wrapperTy t) false)
    (A' := update (absOf A) i (some (some (v, wrapperTy t)))) (by simp [spec, absOf_none.mpr hi, wrapperTy])
  exact ⟨S', o', h1, by rw [absOf_update]; exact h2⟩

theorem use_some {A : Vars V} {i : Nat} {f : V → FTy → Vars V × List (Obs Y C E)} {r : Vars V × List (Obs Y C E)}
    (h : use A i f = some r) : ∃ v t, A i = some (some (v, t)) ∧ r = f v t := by
  unfold use at h
  split at h
  · rename_i v t hi
    exact ⟨v, t, hi, by injection h with h; exact h.symm⟩
  · simp at h

theorem exec_inv {I : Iface V X Y C E} {b : Nat} {S : Mem V} {A : Vars V} {o : Nat → Option Nat} (h : Inv (par I b) S (absOf A) o)
    (c : Cmd V X C) {r : Vars V × List (Obs Y C E)} (hr : direct I A c = some r) :
    ∃ S' o', exec I b S c = some (S', r.2) ∧ Inv (par I b) S' (absOf r.1) o' := by
  have storage : ∀ (op : Op V) (A' : Vars V), spec (par I b) (absOf A) op = some (absOf A') →
      ∃ S' o', ((step (par I b) S op).map fun S' => (S', ([] : List (Obs Y C E)))) = some (S', []) ∧ Inv (par I b) S' (absOf A') o' := by
    intro op A' hs
    obtain ⟨S', o', h1, h2⟩ := step_inv h op hs
    exact ⟨S', o', by rw [h1]; rfl, h2⟩
  cases c with
  | default i =>
    simp only [direct] at hr
    split at hr
    · rename_i hi
      injection hr with hr; subst hr
      exact storage (.default i) _ (by simp [spec, absOf_none.mpr hi, absOf_update])
    · simp at hr
  | wrap i v t =>
    simp only [direct] at hr
    split at hr
    · rename_i hi
      injection hr with hr; subst hr
      exact storage (.make i v (wrapperTy t) false) _ (by simp [spec, absOf_none.mpr hi, absOf_update, wrapperTy])
    · simp at hr
  | copy i j =>
    simp only [direct] at hr
    split at hr
    · rename_i hi
      split at hr
      · rename_i x hj
        injection hr with hr; subst hr
        exact storage _ _ (by
          have : absOf A j = some (some (x.1, wrapperTy x.2)) := by simp [absOf, hj]
          simp [spec, absOf_none.mpr hi, this, absOf_update])
      · simp at hr
    · simp at hr
  | move i j =>
    simp only [direct] at hr
    split at hr
    · rename_i hi
      split at hr
      · rename_i x hj
        injection hr with hr; subst hr
        exact storage _ _ (by
          have : absOf A j = some (x.map fun r => (r.1, wrapperTy r.2)) := by simp [absOf, hj]
          simp [spec, absOf_none.mpr hi, this, absOf_update, moved_abs I b])
      · simp at hr
    · simp at hr
  | assign i j =>
    simp only [direct] at hr
    split at hr
    · rename_i x y hi hj
      have h1 : absOf A i = some (x.map fun r => (r.1, wrapperTy r.2)) := by simp [absOf, hi]
      have h2 : absOf A j = some (y.map fun r => (r.1, wrapperTy r.2)) := by simp [absOf, hj]
      split at hr
      · rename_i hij
        injection hr with hr; subst hr
        exact storage _ _ (by simp only [spec, h1, h2, Option.bind_some]; rw [if_pos hij])
      · rename_i hij
        split at hr
        · rename_i z
          injection hr with hr; subst hr
          exact storage _ _ (by simp [spec, h1, h2, hij, absOf_update])
        · simp at hr
    · simp at hr
  | moveAssign i j =>
    simp only [direct] at hr
    split at hr
    · simp at hr
    · rename_i hij
      split at hr
      · rename_i x y hi hj
        have h1 : absOf A i = some (x.map fun r => (r.1, wrapperTy r.2)) := by simp [absOf, hi]
        have h2 : absOf A j = some (y.map fun r => (r.1, wrapperTy r.2)) := by simp [absOf, hj]
        injection hr with hr; subst hr
        exact storage _ _ (by simp [spec, h1, h2, hij, absOf_update, moved_abs I b])
      · simp at hr
  | destroy i =>
    simp only [direct] at hr
    rcases hi : A i with _ | x
    · rw [hi] at hr; simp at hr
    · rw [hi] at hr
      injection hr with hr; subst hr
      have h1 : absOf A i = some (x.map fun r => (r.1, wrapperTy r.2)) := by simp [absOf, hi]
      exact storage _ _ (by simp [spec, h1, absOf_update])
  | call i x =>
    obtain ⟨v, t, hi, rfl⟩ := use_some hr
    exact through_inv h hi _
  | derivative i j =>
    simp only [direct] at hr
    split at hr
    · rename_i hi
      obtain ⟨v, t, hj, rfl⟩ := use_some hr
      have hg := get_inv h hj
      rcases hd : I.derivative v with _ | e | w
      · exact ⟨S, o, by simp [exec, Mem.create, hg, Iface.derivativeIfImplemented, hd], h⟩
      · exact ⟨S, o, by simp [exec, Mem.create, hg, Iface.derivativeIfImplemented, hd], h⟩
      · obtain ⟨S', o', h1, h2⟩ := wrap_inv h hi w.1 w.2
        exact ⟨S', o', by simp [exec, Mem.create, hg, Iface.derivativeIfImplemented, hd, h1], h2⟩
    · simp at hr
  | localFunction i j =>
    simp only [direct] at hr
    split at hr
    · rename_i hi
      obtain ⟨v, t, hj, rfl⟩ := use_some hr
      have hg := get_inv h hj
      rcases hd : I.localFunction v with e | w
      · exact ⟨S, o, by simp [exec, Mem.create, hg, hd], h⟩
      · obtain ⟨S', o', h1, h2⟩ := wrap_inv h hi w.1 w.2
        exact ⟨S', o', by simp [exec, Mem.create, hg, hd, h1], h2⟩
    · simp at hr
  | bind i c =>
    obtain ⟨v, t, hi, rfl⟩ := use_some hr
    exact through_inv h hi _
  | unbind i =>
    obtain ⟨v, t, hi, rfl⟩ := use_some hr
    exact through_inv h hi _
  | bound i =>
    obtain ⟨v, t, hi, rfl⟩ := use_some hr
    exact ⟨S, o, by simp [exec, get_inv h hi], h⟩
  | localContext i =>
    obtain ⟨v, t, hi, rfl⟩ := use_some hr
    exact ⟨S, o, by simp [exec, get_inv h hi], h⟩
  | entitySet i =>
    obtain ⟨v, t, hi, rfl⟩ := use_some hr
    exact ⟨S, o, by simp [exec, get_inv h hi], h⟩
  | test i =>
    simp only [direct] at hr
    rcases hi : A i with _ | x
    · rw [hi] at hr; simp at hr
    · rw [hi] at hr
      injection hr with hr; subst hr
      rcases x with _ | x
      · have h1 := h.holds i
        rw [show absOf A i = some none by simp [absOf, hi]] at h1
        exact ⟨S, o, by simp [exec, h1.2.1], h⟩
      · obtain ⟨q, n, h3, h4, h5, h6, h7, -⟩ := deref_wr h (show absOf A i = some (some (x.1, wrapperTy x.2)) by simp [absOf, hi])
        exact ⟨S, o, by simp [exec, h3, h7], h⟩
  | targetType i =>
    obtain ⟨v, t, hi, rfl⟩ := use_some hr
    exact ⟨S, o, by simp [exec, get_inv h hi], h⟩

theorem execs_inv {I : Iface V X Y C E} {b : Nat} : ∀ (cs : List (Cmd V X C)) {S : Mem V} {A : Vars V} {o : Nat → Option Nat},
    Inv (par I b) S (absOf A) o → ∀ {r : Vars V × List (Obs Y C E)}, directs I A cs = some r →
    ∃ S' o', execs I b S cs = some (S', r.2) ∧ Inv (par I b) S' (absOf r.1) o'
  | [], S, A, o, h, r, hr => by
    injection hr with hr; subst hr
    exact ⟨S, o, rfl, h⟩
  | c :: cs, S, A, o, h, r, hr => by
    rw [directs] at hr
    rcases h1 : direct I A c with _ | r1
    · rw [h1] at hr; simp at hr
    · rw [h1, Option.bind_some] at hr
      obtain ⟨S1, o1, h2, h3⟩ := exec_inv h c h1
      rcases h4 : directs I r1.1 cs with _ | r2
      · rw [h4] at hr; simp at hr
      · rw [h4] at hr
        injection hr with hr; subst hr
        obtain ⟨S2, o2, h5, h6⟩ := execs_inv cs h3 h4
        exact ⟨S2, o2, by simp [execs, h2, h5], h6⟩

theorem inv_start (I : Iface V X Y C E) (b : Nat) : Inv (par I b) Mem.init (absOf fun _ => none) (fun _ => none) := inv_init _

/-- Variables that may change by a command. A call may change `mutable` members. -/
def Cmd.writes : Cmd V X C → List Nat
  | .default i => [i]
  | .wrap i _ _ => [i]
  | .copy i _ => [i]
  | .move i j => [i, j]
  | .assign i _ => [i]
  | .moveAssign i j => [i, j]
  | .destroy i => [i]
  | .call i _ => [i]
  | .derivative i _ => [i]
  | .localFunction i _ => [i]
  | .bind i _ => [i]
  | .unbind i => [i]
  | _ => []

/-- Commands that ask the function in variable `i` for something. -/
def Cmd.asks (i : Nat) : Cmd V X C → Prop
  | .call j _ => j = i
  | .bound j => j = i
  | .localContext j => j = i
  | .entitySet j => j = i
  | .test j => j = i
  | .targetType j => j = i
  | _ => False

theorem direct_frame {I : Iface V X Y C E} {A : Vars V} {c : Cmd V X C} {r : Vars V × List (Obs Y C E)} (hr : direct I A c = some r)
    {i : Nat} (hi : i ∉ c.writes) : r.1 i = A i := by
  cases c <;> simp only [Cmd.writes, List.mem_cons, List.not_mem_nil, or_false, not_or] at hi <;> simp only [direct] at hr
  case default => split at hr <;> simp at hr; subst hr; simp [hi]
  case wrap => split at hr <;> simp at hr; subst hr; simp [hi]
  case copy => split at hr; · split at hr <;> simp at hr; subst hr; simp [hi]
               · simp at hr
  case move => split at hr; · split at hr <;> simp at hr; subst hr; simp [hi]
               · simp at hr
  case assign =>
    split at hr
    · split at hr
      · injection hr with hr; subst hr; rfl
      · split at hr <;> simp at hr; subst hr; simp [hi]
    · simp at hr
  case moveAssign =>
    split at hr
    · simp at hr
    · split at hr <;> simp at hr; subst hr; simp [hi]
  case destroy j => rcases hj : A j with _ | x <;> rw [hj] at hr <;> simp at hr; subst hr; simp [hi]
  case call => obtain ⟨v, t, -, rfl⟩ := use_some hr; simp [hi]
  case derivative =>
    split at hr
    · obtain ⟨v, t, -, rfl⟩ := use_some hr
      split <;> simp [hi]
    · simp at hr
  case localFunction =>
    split at hr
    · obtain ⟨v, t, -, rfl⟩ := use_some hr
      split <;> simp [hi]
    · simp at hr
  case bind => obtain ⟨v, t, -, rfl⟩ := use_some hr; simp [hi]
  case unbind => obtain ⟨v, t, -, rfl⟩ := use_some hr; simp [hi]
  case test j => rcases hj : A j with _ | x <;> rw [hj] at hr <;> simp at hr; subst hr; rfl
  all_goals obtain ⟨v, t, -, rfl⟩ := use_some hr; rfl

theorem directs_frame {I : Iface V X Y C E} {i : Nat} : ∀ (cs : List (Cmd V X C)) {A : Vars V} {r : Vars V × List (Obs Y C E)},
    directs I A cs = some r → (∀ c ∈ cs, i ∉ c.writes) → r.1 i = A i
  | [], A, r, hr, _ => by injection hr with hr; subst hr; rfl
  | c :: cs, A, r, hr, hc => by
    rw [directs] at hr
    rcases h1 : direct I A c with _ | r1
    · rw [h1] at hr; simp at hr
    · rw [h1, Option.bind_some] at hr
      rcases h4 : directs I r1.1 cs with _ | r2
      · rw [h4] at hr; simp at hr
      · rw [h4] at hr
        injection hr with hr; subst hr
        rw [directs_frame cs h4 fun c hc' => hc c (List.mem_cons_of_mem _ hc'), direct_frame h1 (hc c List.mem_cons_self)]

theorem directs_append {I : Iface V X Y C E} : ∀ (p q : List (Cmd V X C)) (A : Vars V), directs I A (p ++ q) =
    (directs I A p).bind fun r => (directs I r.1 q).map fun r' => (r'.1, r.2 ++ r'.2)
  | [], q, A => by rcases h : directs I A q with _ | r <;> simp [directs, h]
  | c :: p, q, A => by
    rw [List.cons_append, directs, directs]
    rcases h1 : direct I A c with _ | r1
    · rfl
    · rw [Option.bind_some, Option.bind_some, directs_append p q]
      rcases h2 : directs I r1.1 p with _ | r2
      · rfl
      · rcases h3 : directs I r2.1 q with _ | r3 <;> simp [h3]

theorem direct_asks {I : Iface V X Y C E} {A B : Vars V} {i : Nat} (h : A i = B i) {c : Cmd V X C} (hc : c.asks i) :
    (direct I A c).map (fun r => r.2) = (direct I B c).map fun r => r.2 := by
  cases c <;> simp only [Cmd.asks] at hc <;> try contradiction
  all_goals subst hc; simp only [direct, use, h]
  case test => rcases B _ with _ | x <;> rfl
  all_goals split <;> rfl

/-! ## Theorems -/

/-- C70: every valid program that uses `DifferentiableFunction`, `LocalFunction`, `GridFunction` is executed without undefined behaviour and
observes exactly what it would observe if variables held the functions themselves: values, exceptions, binding state, local contexts,
entity sets, derivatives, local functions. The stored functions are the expected ones. A function is stored in the wrapper if and only if its
wrapper has at most 56 bytes, whatever `bufferSize` is. -/
theorem C70_partial (I : Iface V X Y C E) (b : Nat) (cs : List (Cmd V X C)) {A : Vars V} {obs : List (Obs Y C E)}
    (hv : directs I (fun _ => none) cs = some (A, obs)) :
    ∃ S, execs I b Mem.init cs = some (S, obs) ∧ ∀ i v t, A i = some (some (v, t)) → S.get i = some v ∧
      ∃ p, S.wr i = some p ∧ bufferUsed i p = decide ((wrapperTy t).size ≤ 56 ∧ 16 % (wrapperTy t).align = 0) := by
  obtain ⟨S, o, h1, h2⟩ := execs_inv cs (inv_start I b) hv
  refine ⟨S, h1, ?_⟩
  intro i v t hi
  obtain ⟨q, n, h3, h4, h5, h6, -⟩ := deref_wr h2 (show absOf A i = some (some (v, wrapperTy t)) by simp [absOf, hi])
  exact ⟨get_inv h2 hi, q, h3, h6⟩

/-- C70, independence: what happens to other variables, e.g. binding a copy or assigning to it, destroying the original of a copy, does
not change what variable `i` answers. -/
theorem C70_independent (I : Iface V X Y C E) (b i : Nat) (p q : List (Cmd V X C)) (c : Cmd V X C) (hc : c.asks i)
    (hq : ∀ d ∈ q, i ∉ d.writes) {A B : Vars V} {obs obs' : List (Obs Y C E)}
    (hv : directs I (fun _ => none) (p ++ [c]) = some (A, obs)) (hv' : directs I (fun _ => none) (p ++ q ++ [c]) = some (B, obs')) :
    ∃ S S' o1 o2 w, execs I b Mem.init (p ++ [c]) = some (S, o1 ++ w) ∧ execs I b Mem.init (p ++ q ++ [c]) = some (S', o1 ++ o2 ++ w) := by
  obtain ⟨S, h1, -⟩ := C70_partial I b _ hv
  obtain ⟨S', h2, -⟩ := C70_partial I b _ hv'
  rw [directs_append] at hv
  rw [directs_append, directs_append] at hv'
  rcases h3 : directs I (fun _ => none) p with _ | rp
  · rw [h3] at hv; simp at hv
  · rw [h3, Option.bind_some] at hv hv'
    rcases h4 : directs I rp.1 q with _ | rq
    · rw [h4] at hv'; simp at hv'
    · rw [h4, Option.map_some, Option.bind_some] at hv'
      have hf := directs_frame q h4 hq
      have ha := direct_asks (I := I) hf hc
      simp only [directs] at hv hv'
      rcases h5 : direct I rp.1 c with _ | r5
      · rw [h5] at hv; simp at hv
      · rcases h6 : direct I rq.1 c with _ | r6
        · rw [h6] at hv'; simp at hv'
        · rw [h5, h6] at ha
          simp only [Option.map_some, Option.some.injEq] at ha
          simp only [h5, Option.bind_some, Option.map_some, List.append_nil, Option.some.injEq, Prod.mk.injEq] at hv
          simp only [h6, Option.bind_some, Option.map_some, List.append_nil, Option.some.injEq, Prod.mk.injEq] at hv'
          exact ⟨S, S', rp.2, rq.2, r5.2, by rw [h1, ← hv.2], by rw [h2, ← hv'.2, ha]⟩

/-- `DifferentiableFunction f0 = f; auto f1 = derivative(f0); ...; auto fn = derivative(f(n-1));` -/
def chain (v : V) (t : FTy) (n : Nat) : List (Cmd V X C) := .wrap 0 v t :: (List.range n).map fun k => .derivative (k + 1) k

theorem chain_direct (I : Iface V X Y C E) (v : Nat → V) (t : Nat → FTy) : ∀ n, (∀ k < n, I.derivative (v k) = some (.ok (v (k + 1), t (k + 1)))) →
    directs (X := X) (Y := Y) (C := C) (E := E) I (fun _ => none) (chain (v 0) (t 0) n) =
      some (fun i => if i ≤ n then some (some (v i, t i)) else none, [])
  | 0, _ => by
    simp only [chain, List.range_zero, List.map_nil, directs, direct, if_true, Option.bind_some, Option.map_some, List.append_nil]
    congr 2
    funext i
    by_cases h : i = 0
    · subst h; simp
    · simp [h]
  | n + 1, h => by
    have ih := chain_direct I v t n fun k hk => h k (by omega)
    have : chain (X := X) (C := C) (v 0) (t 0) (n + 1) = chain (v 0) (t 0) n ++ [.derivative (n + 1) n] := by
      simp [chain, List.range_succ]
    rw [this, directs_append, ih]
    simp only [Option.bind_some, directs, direct, use]
    rw [if_pos (by simp), if_pos (Nat.le_refl n)]
    dsimp only
    rw [h n (by omega)]
    simp only [Option.bind_some, Option.map_some, List.append_nil]
    congr 2
    funext i
    by_cases h1 : i = n + 1
    · subst h1; simp
    · by_cases h2 : i ≤ n
      · simp [h1, h2, show i ≤ n + 1 by omega]
      · simp [h1, h2, show ¬ i ≤ n + 1 by omega]

/-- C70, derivatives: the `n`-th derivative of a wrapped function gives the values of the `n`-th derivative of the function. If that has no
derivative, then `derivative` throws `NotImplemented`, and the wrapper can still be evaluated. -/
theorem C70_derivative (I : Iface V X Y C E) (b : Nat) (v : Nat → V) (t : Nat → FTy) (n : Nat)
    (h : ∀ k < n, I.derivative (v k) = some (.ok (v (k + 1), t (k + 1)))) (x : X) :
    (∃ S, execs I b Mem.init (chain (v 0) (t 0) n ++ [.call n x]) = some (S, ofExcept (I.call (v n) x).1)) ∧
    (I.derivative (v n) = none → ∃ S, execs I b Mem.init (chain (v 0) (t 0) n ++ [.derivative (n + 1) n, .call n x]) =
      some (S, .threw .notImplemented :: ofExcept (I.call (v n) x).1)) := by
  have hc := chain_direct I v t n h
  constructor
  · obtain ⟨S, h1, -⟩ := C70_partial I b (chain (v 0) (t 0) n ++ [.call n x]) (obs := ofExcept (I.call (v n) x).1) (by
      rw [directs_append, hc]
      simp only [Option.bind_some, directs, direct, use]
      rw [if_pos (Nat.le_refl n)]
      simp only [Option.bind_some, Option.map_some, List.append_nil, List.nil_append]
      rfl)
    exact ⟨S, h1⟩
  · intro hn
    obtain ⟨S, h1, -⟩ := C70_partial I b (chain (v 0) (t 0) n ++ [.derivative (n + 1) n, .call n x])
      (obs := .threw .notImplemented :: ofExcept (I.call (v n) x).1) (by
      rw [directs_append, hc]
      simp only [Option.bind_some, directs, direct, use]
      rw [if_pos (by simp), if_pos (Nat.le_refl n)]
      dsimp only
      rw [hn]
      simp only [Option.bind_some]
      rw [if_pos (Nat.le_refl n)]
      simp only [Option.bind_some, Option.map_some, List.append_nil, List.nil_append, List.singleton_append]
      rfl)
    exact ⟨S, h1⟩

/-! ## Counterexamples and examples -/

/-- Polynomials with integer coefficients as functions with a derivative; `lambda` has none. Local functions are shifted by the bound
element. The moved-from polynomial is empty. -/
inductive Fn where
  | poly (c : List Int)
  | lambda (a : Int)
  | loc (c : List Int) (e : Option Int)
  deriving DecidableEq

def horner : List Int → Int → Int
  | [], _ => 0
  | a :: c, x => a + x * horner c x

def exI : Iface Fn Int Int Int Nat where
  call v x := (match v with
    | .poly c => .ok (horner c x)
    | .lambda a => .ok (a * x)
    | .loc c (some e) => .ok (horner c (x + e))
    | .loc _ none => .error (.other 1), v)
  derivative v := match v with
    | .poly c => some (.ok (.poly (((c.zipIdx).map fun r => r.1 * (r.2 : Int)).tail), ⟨24, 8⟩))
    | .lambda _ => none
    | .loc c e => some (.ok (.loc (((c.zipIdx).map fun r => r.1 * (r.2 : Int)).tail) e, ⟨48, 8⟩))
  localFunction v := match v with
    | .poly c => .ok (.loc c none, ⟨48, 8⟩)
    | _ => .error .notImplemented
  bind v e := (.ok (), match v with
    | .loc c _ => .loc c (some e)
    | w => w)
  unbind v := match v with
    | .loc c _ => .loc c none
    | w => w
  bound v := match v with
    | .loc _ e => e.isSome
    | _ => false
  localContext v := match v with
    | .loc _ (some e) => e
    | _ => 0
  entitySet _ := 7
  typeId v := match v with
    | .poly _ => 0
    | .lambda _ => 1
    | .loc _ _ => 2
  movedFrom v := match v with
    | .poly _ => .poly []
    | w => w

/-- A small and a large function, local functions, their copies, derivatives, assignment as in the manual. -/
def exProg : List (Cmd Fn Int Int) := [.wrap 0 (.poly [1, 2, 3]) ⟨24, 8⟩, .call 0 2, .derivative 1 0, .call 1 2, .localFunction 2 0,
  .bound 2, .bind 2 10, .copy 3 2, .bind 3 20, .call 2 1, .call 3 1, .localContext 2, .derivative 4 2, .call 4 1, .unbind 2, .call 2 1, .call 3 1,
  .default 5, .test 5, .wrap 6 (.lambda 5) ⟨8, 8⟩, .moveAssign 5 6, .destroy 6, .call 5 3, .derivative 7 5, .targetType 5, .assign 5 1, .call 5 2,
  .entitySet 5, .move 7 2, .test 2, .move 8 0, .test 0, .call 0 1]

example : (directs exI (fun _ => none) exProg).map (fun r => r.2) = some [.value 17, .value 14, .flag false, .value 386,
    .value 1366, .context 10, .value 68, .threw (.other 1), .value 1366, .flag false, .value 15, .threw .notImplemented, .type 1, .value 14,
    .entities 7, .flag false, .flag true, .value 0] := by decide

example := C70_partial exI 56 exProg rfl

example : ((execs exI 56 Mem.init exProg).map fun r => r.2) = (directs exI (fun _ => none) exProg).map fun r => r.2 := by decide

/-- Binding a copy does not change the original. -/
example := C70_independent exI 56 2 (exProg.take 7) [.copy 3 2, .bind 3 20, .unbind 3, .destroy 3, .destroy 0] (.call 2 1) rfl
  (by decide) rfl rfl

example : ((execs exI 56 Mem.init (chain (.poly [1, 2, 3, 4]) ⟨24, 8⟩ 3 ++ [.call 3 5])).map fun r => r.2) = some [.value 24] := by decide

example (x : Int) := C70_derivative exI 56 (fun k => [Fn.poly [1, 2, 3], .poly [2, 6], .poly [6]].getD k (.poly [])) (fun _ => ⟨24, 8⟩) 2 (by decide) x

/-- No derivative: the exception is observable, the function still works. -/
example (x : Int) := (C70_derivative exI 56 (fun _ => .lambda 4) (fun _ => ⟨8, 8⟩) 0 (by omega) x).2 rfl

/-- The full claim is false: the parameter `bufferSize` of the wrappers has no effect. With `bufferSize` 16 a function of 40 bytes is stored in
the wrapper, with `bufferSize` 1024 a function of 48 bytes is allocated dynamically. -/
theorem C70_buffer_size_false :
    ((execs exI 16 Mem.init [.wrap 0 (.lambda 1) ⟨40, 8⟩]).map fun r => r.1.wr 0) = some (some (.buf 0 0)) ∧
    ((execs exI 1024 Mem.init [.wrap 0 (.lambda 1) ⟨48, 8⟩]).map fun r => r.1.wr 0) = some (some (.heap 0)) := by decide

/-- As for all wrappers with this storage (C42): an empty wrapper cannot be copied, also not after a large function was moved from it, and must not be
called. -/
theorem C70_empty_false : execs exI 56 Mem.init [.default 0, .copy 1 0] = none ∧ execs exI 56 Mem.init [.default 0, .call 0 1] = none ∧
    execs exI 56 Mem.init [.wrap 0 (.loc [1] none) ⟨48, 8⟩, .move 1 0, .copy 2 0] = none := ⟨rfl, rfl, rfl⟩

end Verif.Erased
