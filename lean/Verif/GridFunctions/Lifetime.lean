import Mathlib.Logic.Function.Basic
import Mathlib.Data.List.Basic

/-!
# Lifetimes of grid functions and local functions

Which local functions can be used after the grid function they were obtained from has been destroyed. Model of the members and
references of `AnalyticGridViewFunction`, `FaceNormalGridFunction`, `DiscreteGlobalBasisFunction`, `ComposedGridFunction`,
`CoarseFunctionOnFineGridView`, `FineFunctionOnCoarseGridView` and of their local functions in `dune/functions/gridfunctions`.
-/

namespace Verif.Lifetime

/-! ## Model -/

/-- Grid functions with their members. Numbers stand for functions, outer functions and entity sets. Grid functions are not changed by
their members, which are all `const`. -/
inductive GF where
  /-- `AnalyticGridViewFunction` (analyticgridviewfunction.hh:207-210) and `FaceNormalGridFunction` (facenormalgridfunction.hh:162-164 and 191):
  function and entity set are members -/
  | own (f s : Nat)
  /-- `DiscreteGlobalBasisFunction` and its derivatives: everything is in shared data, discreteglobalbasisfunction.hh:57-66 and 224-225 -/
  | shared (f s : Nat)
  /-- `ComposedGridFunction` with at least one inner function, composedgridfunction.hh:225-226 -/
  | composed (outer : Nat) (g : GF) (gs : List GF)
  /-- `CoarseFunctionOnFineGridView`, coarsefunctiononfinegridview.hh:208-209; `s` is the entity set of the grid view -/
  | coarse (g : GF) (s : Nat)
  /-- `FineFunctionOnCoarseGridView`, finefunctiononcoarsegridview.hh:304-305 -/
  | fine (g : GF) (s : Nat)
  /-- `std::reference_wrapper` to variable `a`, which holds the function `g`. Only as inner function. -/
  | ref (a : Nat) (g : GF)

/-- A reference to something of type `T` that is part of variable `owner`, or of data which is shared with the holder of the reference. -/
structure Ref (T : Type) where
  owner : Option Nat
  content : T

variable {E X Y : Type}

/-- Local functions with their members. -/
inductive LF (E : Type) where
  /-- local functions of analytic, face normal and discrete functions: they copy the function or share the data
  (analyticgridviewfunction.hh:55-58 and 133, facenormalgridfunction.hh:155-157, discreteglobalbasisfunction.hh:79-84 and 186) -/
  | leaf (f : Nat) (e : Option E)
  /-- composedgridfunction.hh:153-154: a reference to the grid function and the inner local functions -/
  | composed (outer : Ref Nat) (l : LF E) (ls : List (LF E))
  /-- coarsefunctiononfinegridview.hh:144-147: the local function, a reference to the entity set, the geometry in the ancestor, which is
  known by the set and the element to which it was bound -/
  | coarse (set : Ref Nat) (l : LF E) (e : Option (Nat × E))
  /-- finefunctiononcoarsegridview.hh:240-243; the flag is `forwardToFineFunction_` -/
  | fine (set : Ref Nat) (l : LF E) (e : Option (Bool × E))

/-- What functions and grids do: values of functions in an element, numbers of derivatives
(`none` if there is none), outer functions; ancestors and
descendants belonging to an entity set with the coordinates there. -/
structure World (E X Y : Type) where
  leaf : Nat → E → X → Y
  d : Nat → Option Nat
  outer : Nat → List Y → Y
  mem : Nat → E → Bool
  up : Nat → E → E
  mapUp : Nat → E → X → X
  down : Nat → E → X → E × X

/-- `entitySet()`: analyticgridviewfunction.hh:202-205, facenormalgridfunction.hh:185-188, discreteglobalbasisfunction.hh:219-222,
composedgridfunction.hh:211-214, coarsefunctiononfinegridview.hh:201-204, finefunctiononcoarsegridview.hh:297-300. The function is part of variable
`a`. -/
def GF.entitySet (a : Nat) : GF → Ref Nat
  | .own _ s => ⟨some a, s⟩
  | .shared _ s => ⟨none, s⟩
  | .composed _ g _ => g.entitySet a
  | .coarse _ s => ⟨some a, s⟩
  | .fine _ s => ⟨some a, s⟩
  | .ref b g => g.entitySet b

mutual
/-- `localFunction()`: analyticgridviewfunction.hh:196-199, facenormalgridfunction.hh:179-182,
discreteglobalbasisfunction.hh:79-84 and 320-325, composedgridfunction.hh:78-81 and 196-199 and 218-223,
coarsefunctiononfinegridview.hh:78-83 and 195-198, finefunctiononcoarsegridview.hh:141-146 and 291-294. -/
def GF.localFunction (a : Nat) : GF → LF E
  | .own f _ => .leaf f none
  | .shared f _ => .leaf f none
  | .composed o g gs => .composed ⟨some a, o⟩ (g.localFunction a) (GF.localFunctions a gs)
  | .coarse g _ => .coarse (g.entitySet a) (g.localFunction a) none
  | .fine g _ => .fine (g.entitySet a) (g.localFunction a) none
  | .ref b g => g.localFunction b
def GF.localFunctions (a : Nat) : List GF → List (LF E)
  | [] => []
  | g :: gs => g.localFunction a :: GF.localFunctions a gs
end

/-- Following a reference; `none` is undefined behaviour. -/
def Ref.get (alive : Nat → Bool) (r : Ref Nat) : Option Nat := match r.owner with
  | none => some r.content
  | some a => if alive a then some r.content else none

mutual
/-- `bind`: analyticgridviewfunction.hh:77-81, composedgridfunction.hh:92-97, coarsefunctiononfinegridview.hh:103-108,
finefunctiononcoarsegridview.hh:166-172. -/
def LF.bind (W : World E X Y) (alive : Nat → Bool) : LF E → E → Option (LF E)
  | .leaf f _, e => some (.leaf f (some e))
  | .composed o l ls, e => (l.bind W alive e).bind fun l' => (LF.binds W alive ls e).map fun ls' => .composed o l' ls'
  | .coarse set l _, e => (set.get alive).bind fun s => (l.bind W alive (W.up s e)).map fun l' => .coarse set l' (some (s, e))
  | .fine set l _, e => (set.get alive).bind fun s =>
      if W.mem s e then (l.bind W alive e).map fun l' => .fine set l' (some (true, e))
      else some (.fine set l (some (false, e)))
def LF.binds (W : World E X Y) (alive : Nat → Bool) : List (LF E) → E → Option (List (LF E))
  | [], _ => some []
  | l :: ls, e => (l.bind W alive e).bind fun l' => (LF.binds W alive ls e).map fun ls' => l' :: ls'
end

mutual
/-- `operator()`: analyticgridviewfunction.hh:105-109, composedgridfunction.hh:125-130, coarsefunctiononfinegridview.hh:138-141,
finefunctiononcoarsegridview.hh:202-207 and 212-238. That `evaluateInDescendent` leaves the wrapped local function bound to a descendant
is not modelled: it is bound again before its next evaluation. -/
def LF.call (W : World E X Y) (alive : Nat → Bool) : LF E → X → Option Y
  | .leaf f e, x => e.map fun e => W.leaf f e x
  | .composed o l ls, x => (o.get alive).bind fun o => (l.call W alive x).bind fun y => (LF.calls W alive ls x).map fun ys =>
      W.outer o (y :: ys)
  | .coarse _ l e, x => e.bind fun p => l.call W alive (W.mapUp p.1 p.2 x)
  | .fine set l e, x => e.bind fun p =>
      if p.1 then l.call W alive x
      else (set.get alive).bind fun s => l.bindCall W alive (W.down s p.2 x).1 (W.down s p.2 x).2
def LF.calls (W : World E X Y) (alive : Nat → Bool) : List (LF E) → X → Option (List Y)
  | [], _ => some []
  | l :: ls, x => (l.call W alive x).bind fun y => (LF.calls W alive ls x).map fun ys => y :: ys
/-- `bind` followed by `operator()`, written as one function. -/
def LF.bindCall (W : World E X Y) (alive : Nat → Bool) : LF E → E → X → Option Y
  | .leaf f _, e, x => some (W.leaf f e x)
  | .composed o l ls, e, x => (o.get alive).bind fun o => (l.bindCall W alive e x).bind fun y => (LF.bindCalls W alive ls e x).map fun ys =>
      W.outer o (y :: ys)
  | .coarse set l _, e, x => (set.get alive).bind fun s => l.bindCall W alive (W.up s e) (W.mapUp s e x)
  | .fine set l _, e, x => (set.get alive).bind fun s =>
      if W.mem s e then l.bindCall W alive e x else l.bindCall W alive (W.down s e x).1 (W.down s e x).2
def LF.bindCalls (W : World E X Y) (alive : Nat → Bool) : List (LF E) → E → X → Option (List Y)
  | [], _, _ => some []
  | l :: ls, e, x => (l.bindCall W alive e x).bind fun y => (LF.bindCalls W alive ls e x).map fun ys => y :: ys
end

/-- `derivative` of grid functions. `none` is the exception `NotImplemented`. analyticgridviewfunction.hh:190-193,
facenormalgridfunction.hh:173-176, composedgridfunction.hh:185-188, coarsefunctiononfinegridview.hh:183-192,
finefunctiononcoarsegridview.hh:279-288. All these functions have a `derivative`, which may throw. -/
def GF.derivative (W : World E X Y) : GF → Option GF
  | .own f s => (W.d f).map fun f' => .own f' s
  | .shared f s => (W.d f).map fun f' => .shared f' s
  | .composed _ _ _ => none
  | .coarse g s => (g.derivative W).map fun g' => .coarse g' s
  | .fine g s => (g.derivative W).map fun g' => .fine g' s
  | .ref _ g => g.derivative W

/-- `derivative` of local functions: analyticgridviewfunction.hh:126-129, composedgridfunction.hh:147-150,
coarsefunctiononfinegridview.hh:90-100 (`*element_`) and 129-135, finefunctiononcoarsegridview.hh:153-163 and 193-199. `none` is undefined behaviour,
`some none` the exception `NotImplemented`. -/
def LF.derivative (W : World E X Y) : LF E → Option (Option (LF E))
  | .leaf f e => some ((W.d f).map fun f' => .leaf f' e)
  | .composed _ _ _ => some none
  | .coarse set l e => (l.derivative W).bind fun r => match r with
      | none => some none
      | some l' => if e.isSome then some (some (.coarse set l' e)) else none
  | .fine set l e => (l.derivative W).map fun r => r.map fun l' => .fine set l' e

mutual
/-- The variables behind `std::reference_wrapper`s, which `localFunction` reads. -/
def GF.refs : GF → List Nat
  | .own _ _ => []
  | .shared _ _ => []
  | .composed _ g gs => g.refs ++ GF.refss gs
  | .coarse g _ => g.refs
  | .fine g _ => g.refs
  | .ref b g => b :: g.refs
def GF.refss : List GF → List Nat
  | [] => []
  | g :: gs => g.refs ++ GF.refss gs
end

/-- The variables behind `std::reference_wrapper`s which `derivative` reads. -/
def GF.derivativeRefs : GF → List Nat
  | .own _ _ => []
  | .shared _ _ => []
  | .composed _ _ _ => []
  | .coarse g _ => g.derivativeRefs
  | .fine g _ => g.derivativeRefs
  | .ref b g => b :: g.derivativeRefs

/-- Statements of a user's program about variables `a`, `b` with grid functions and variables `l`, `m` with local functions. A temporary is a
variable that is destroyed at the end of the full expression. -/
inductive Cmd (E X : Type) where
  | new (a : Nat) (g : GF)
  | copy (b a : Nat)
  | move (b a : Nat)
  | destroy (a : Nat)
  /-- `auto b = derivative(a);` -/
  | derivative (b a : Nat)
  /-- `auto l = localFunction(a);` -/
  | localFunction (l a : Nat)
  /-- `auto m = l;` -/
  | copyLocal (m l : Nat)
  | destroyLocal (l : Nat)
  /-- `auto m = derivative(l);` -/
  | derivativeLocal (m l : Nat)
  | bind (l : Nat) (e : E)
  | call (l : Nat) (x : X)

inductive Obs (Y : Type) where
  | value (y : Y)
  | notImplemented
  deriving DecidableEq

/-- Memory: grid functions which are alive and have not been moved from, and local functions. -/
structure Mem (E : Type) where
  var : Nat → Option GF
  lf : Nat → Option (LF E)

def Mem.alive (S : Mem E) (a : Nat) : Bool := (S.var a).isSome

open Function

/-- One statement. `none` is undefined behaviour or a variable that does not exist. -/
def exec (W : World E X Y) (S : Mem E) : Cmd E X → Option (Mem E × List (Obs Y))
  | .new a g => some ({ S with var := update S.var a (some g) }, [])
  | .copy b a => (S.var a).map fun g => ({ S with var := update S.var b (some g) }, [])
  | .move b a => (S.var a).map fun g => ({ S with var := update (update S.var a none) b (some g) }, [])
  | .destroy a => some ({ S with var := update S.var a none }, [])
  | .derivative b a => (S.var a).bind fun g => if g.derivativeRefs.all S.alive then some (match g.derivative W with
      | some g' => ({ S with var := update S.var b (some g') }, [])
      | none => (S, [.notImplemented])) else none
  | .localFunction l a => (S.var a).bind fun g =>
      if g.refs.all S.alive then some ({ S with lf := update S.lf l (some (g.localFunction a)) }, []) else none
  | .copyLocal m l => (S.lf l).map fun k => ({ S with lf := update S.lf m (some k) }, [])
  | .destroyLocal l => some ({ S with lf := update S.lf l none }, [])
  | .derivativeLocal m l => (S.lf l).bind fun k => (k.derivative W).map fun r => match r with
      | some k' => ({ S with lf := update S.lf m (some k') }, [])
      | none => (S, [.notImplemented])
  | .bind l e => (S.lf l).bind fun k => (k.bind W S.alive e).map fun k' => ({ S with lf := update S.lf l (some k') }, [])
  | .call l x => (S.lf l).bind fun k => (k.call W S.alive x).map fun y => (S, [.value y])

def execs (W : World E X Y) : Mem E → List (Cmd E X) → Option (Mem E × List (Obs Y))
  | S, [] => some (S, [])
  | S, c :: cs => (exec W S c).bind fun r => (execs W r.1 cs).map fun r' => (r'.1, r.2 ++ r'.2)

def Mem.init : Mem E := ⟨fun _ => none, fun _ => none⟩

/-! ## Specification -/

/-- The entity set of a function. -/
def GF.set : GF → Nat
  | .own _ s => s
  | .shared _ s => s
  | .composed _ g _ => g.set
  | .coarse _ s => s
  | .fine _ s => s
  | .ref _ g => g.set

mutual
/-- The value of a grid function in element `e` at `x`. -/
def GF.val (W : World E X Y) : GF → E → X → Y
  | .own f _, e, x => W.leaf f e x
  | .shared f _, e, x => W.leaf f e x
  | .composed o g gs, e, x => W.outer o (g.val W e x :: GF.vals W gs e x)
  | .coarse g _, e, x => g.val W (W.up g.set e) (W.mapUp g.set e x)
  | .fine g _, e, x => if W.mem g.set e then g.val W e x else g.val W (W.down g.set e x).1 (W.down g.set e x).2
  | .ref _ g, e, x => g.val W e x
def GF.vals (W : World E X Y) : List GF → E → X → List Y
  | [], _, _ => []
  | g :: gs, e, x => g.val W e x :: GF.vals W gs e x
end

mutual
/-- The variables that the local function of a function in variable `a` refers to: the variable of every composed function, and the variable
with the entity set of the wrapped function of every `CoarseFunctionOnFineGridView` and `FineFunctionOnCoarseGridView`, unless this
is a discrete function. -/
def GF.needs (a : Nat) : GF → List Nat
  | .own _ _ => []
  | .shared _ _ => []
  | .composed _ g gs => a :: (g.needs a ++ GF.needss a gs)
  | .coarse g _ => (g.entitySet a).owner.toList ++ g.needs a
  | .fine g _ => (g.entitySet a).owner.toList ++ g.needs a
  | .ref b g => g.needs b
def GF.needss (a : Nat) : List GF → List Nat
  | [] => []
  | g :: gs => g.needs a ++ GF.needss a gs
end

/-- No `CoarseFunctionOnFineGridView` is inside. -/
def GF.noCoarse : GF → Bool
  | .own _ _ => true
  | .shared _ _ => true
  | .composed _ _ _ => true
  | .coarse _ _ => false
  | .fine g _ => g.noCoarse
  | .ref _ g => g.noCoarse

/-- No `CoarseFunctionOnFineGridView` is wrapped as function on a coarser grid view. -/
def GF.oneWay : GF → Bool
  | .own _ _ => true
  | .shared _ _ => true
  | .composed _ _ _ => true
  | .coarse g _ => g.oneWay
  | .fine g _ => g.noCoarse
  | .ref _ g => g.oneWay

/-- What the user has in mind: variables with functions, and local functions of certain functions, bound to an element or not. `used` are
the variables that exist or have existed. For a local function the variables are recorded that must not be destroyed. -/
structure Abs (E : Type) where
  var : Nat → Option GF
  used : List Nat
  lf : Nat → Option (GF × List Nat × Option E)

def Abs.init : Abs E := ⟨fun _ => none, [], fun _ => none⟩

/-- Execution of a valid statement by a user's understanding. A local function is used only while the variables it needs exist; its values are
those of the function it was created from. -/
inductive Expected (W : World E X Y) : Abs E → Cmd E X → List (Obs Y) → Abs E → Prop
  | new {A : Abs E} {a : Nat} {g : GF} (h : a ∉ A.used) :
      Expected W A (.new a g) [] { A with var := update A.var a (some g), used := a :: A.used }
  | copy {A : Abs E} {a b : Nat} {g : GF} (h : b ∉ A.used) (ha : A.var a = some g) :
      Expected W A (.copy b a) [] { A with var := update A.var b (some g), used := b :: A.used }
  | move {A : Abs E} {a b : Nat} {g : GF} (h : b ∉ A.used) (ha : A.var a = some g) :
      Expected W A (.move b a) [] { A with var := update (update A.var a none) b (some g), used := b :: A.used }
  | destroy {A : Abs E} {a : Nat} : Expected W A (.destroy a) [] { A with var := update A.var a none }
  | derivative {A : Abs E} {a b : Nat} {g g' : GF} (h : b ∉ A.used) (ha : A.var a = some g)
      (hr : ∀ c ∈ g.derivativeRefs, A.var c ≠ none) (hd : g.derivative W = some g') :
      Expected W A (.derivative b a) [] { A with var := update A.var b (some g'), used := b :: A.used }
  | derivativeThrows {A : Abs E} {a b : Nat} {g : GF} (ha : A.var a = some g) (hr : ∀ c ∈ g.derivativeRefs, A.var c ≠ none)
      (hd : g.derivative W = none) :
      Expected W A (.derivative b a) [.notImplemented] A
  | localFunction {A : Abs E} {a l : Nat} {g : GF} (ha : A.var a = some g) (hr : ∀ c ∈ g.refs, A.var c ≠ none) :
      Expected W A (.localFunction l a) [] { A with lf := update A.lf l (some (g, g.needs a, none)) }
  | copyLocal {A : Abs E} {m l : Nat} {k : GF × List Nat × Option E} (hl : A.lf l = some k) :
      Expected W A (.copyLocal m l) [] { A with lf := update A.lf m (some k) }
  | destroyLocal {A : Abs E} {l : Nat} : Expected W A (.destroyLocal l) [] { A with lf := update A.lf l none }
  | derivativeLocal {A : Abs E} {m l : Nat} {g g' : GF} {N : List Nat} {e : E} (hl : A.lf l = some (g, N, some e))
      (ho : g.oneWay = true) (hd : g.derivative W = some g') : Expected W A (.derivativeLocal m l) [] { A with lf := update A.lf m (some (g', N, some e)) }
  | derivativeLocalThrows {A : Abs E} {m l : Nat} {g : GF} {N : List Nat} {e : E} (hl : A.lf l = some (g, N, some e))
      (ho : g.oneWay = true) (hd : g.derivative W = none) : Expected W A (.derivativeLocal m l) [.notImplemented] A
  | bind {A : Abs E} {l : Nat} {g : GF} {N : List Nat} {o : Option E} {e : E} (hl : A.lf l = some (g, N, o))
      (hN : ∀ a ∈ N, A.var a ≠ none) : Expected W A (.bind l e) [] { A with lf := update A.lf l (some (g, N, some e)) }
  | call {A : Abs E} {l : Nat} {g : GF} {N : List Nat} {e : E} {x : X} (hl : A.lf l = some (g, N, some e))
      (hN : ∀ a ∈ N, A.var a ≠ none) : Expected W A (.call l x) [.value (g.val W e x)] A

inductive Expecteds (W : World E X Y) : Abs E → List (Cmd E X) → List (Obs Y) → Abs E → Prop
  | nil {A : Abs E} : Expecteds W A [] [] A
  | cons {A B C : Abs E} {c : Cmd E X} {cs : List (Cmd E X)} {o os : List (Obs Y)} (h : Expected W A c o B) (hs : Expecteds W B cs os C) :
      Expecteds W A (c :: cs) (o ++ os) C

/-! ## Proofs -/

/-- `bind` followed by `operator()`. -/
theorem LF.bindCall_eq (W : World E X Y) (alive : Nat → Bool) (l : LF E) (e : E) (x : X) :
    l.bindCall W alive e x = (l.bind W alive e).bind fun l' => l'.call W alive x := by
  refine LF.rec (motive_1 := fun l => ∀ e x, l.bindCall W alive e x = (l.bind W alive e).bind fun l' => l'.call W alive x)
    (motive_2 := fun ls => ∀ e x, LF.bindCalls W alive ls e x = (LF.binds W alive ls e).bind fun ls' => LF.calls W alive ls' x)
    ?_ ?_ ?_ ?_ ?_ ?_ l e x
  · intro f e0 e x; simp [LF.bindCall, LF.bind, LF.call]
  · intro o l ls ih ihs e x
    simp only [LF.bindCall, LF.bind, ih, ihs]
    cases h1 : l.bind W alive e <;> cases h2 : LF.binds W alive ls e <;> cases h3 : o.get alive <;> simp [LF.call, h3]
  · intro set l e0 ih e x
    simp only [LF.bindCall, LF.bind, ih]
    cases h3 : set.get alive with
    | none => simp
    | some s => cases h1 : l.bind W alive (W.up s e) <;> simp [LF.call, h1]
  · intro set l e0 ih e x
    simp only [LF.bindCall, LF.bind, ih]
    cases h3 : set.get alive with
    | none => simp
    | some s =>
      by_cases hm : W.mem s e = true
      · cases h1 : l.bind W alive e <;> simp [LF.call, hm]
      · simp [LF.call, hm, h3, ih]
  · intro e x; simp [LF.bindCalls, LF.binds, LF.calls]
  · intro l ls ih ihs e x
    simp only [LF.bindCalls, LF.binds, ih, ihs]
    cases h1 : l.bind W alive e <;> cases h2 : LF.binds W alive ls e <;> simp [LF.calls]

theorem GF.entitySet_content (a : Nat) (g : GF) : (g.entitySet a).content = g.set := by
  refine GF.rec (motive_1 := fun g => ∀ a, (g.entitySet a).content = g.set) (motive_2 := fun _ => True)
    ?_ ?_ ?_ ?_ ?_ ?_ ?_ ?_ g a <;> intros <;> simp_all [GF.entitySet, GF.set]

theorem Ref.get_of (alive : Nat → Bool) (r : Ref Nat) (h : ∀ a ∈ r.owner.toList, alive a = true) :
    r.get alive = some r.content := by
  obtain ⟨o, c⟩ := r
  cases o with
  | none => rfl
  | some a => simp [Ref.get, h a (by simp)]

theorem Ref.get_dead (alive : Nat → Bool) (r : Ref Nat) (h : ∃ a ∈ r.owner.toList, alive a = false) : r.get alive = none := by
  obtain ⟨o, c⟩ := r
  obtain ⟨a, ha, hd⟩ := h
  cases o with
  | none => simp at ha
  | some b => simp at ha; subst ha; simp [Ref.get, hd]

/-- While the needed variables exist, a local function has the values of its grid function. -/
theorem localFunction_val (W : World E X Y) (alive : Nat → Bool) (a : Nat) (g : GF) (e : E) (x : X)
    (h : ∀ c ∈ g.needs a, alive c = true) : ((g.localFunction a).bindCall W alive e x) = some (g.val W e x) := by
  revert a e x
  refine GF.rec (motive_1 := fun g => ∀ a e x, (∀ c ∈ g.needs a, alive c = true) →
      (g.localFunction a).bindCall W alive e x = some (g.val W e x))
    (motive_2 := fun gs => ∀ a e x, (∀ c ∈ GF.needss a gs, alive c = true) →
      LF.bindCalls W alive (GF.localFunctions a gs) e x = some (GF.vals W gs e x))
    ?_ ?_ ?_ ?_ ?_ ?_ ?_ ?_ g
  · intros; rfl
  · intros; rfl
  · intro o g gs ih ihs a e x h
    simp only [GF.needs, List.mem_cons, List.mem_append] at h
    simp only [GF.localFunction, LF.bindCall, GF.val]
    rw [ih a e x fun c hc => h c (.inr (.inl hc)), ihs a e x fun c hc => h c (.inr (.inr hc))]
    simp [Ref.get, h a (.inl rfl)]
  · intro g s ih a e x h
    simp only [GF.needs, List.mem_append] at h
    simp only [GF.localFunction, LF.bindCall, GF.val]
    rw [Ref.get_of alive _ fun c hc => h c (.inl hc)]
    simp only [Option.bind_some, GF.entitySet_content]
    exact ih a _ _ fun c hc => h c (.inr hc)
  · intro g s ih a e x h
    simp only [GF.needs, List.mem_append] at h
    simp only [GF.localFunction, LF.bindCall, GF.val]
    rw [Ref.get_of alive _ fun c hc => h c (.inl hc)]
    simp only [Option.bind_some, GF.entitySet_content]
    split
    · exact ih a _ _ fun c hc => h c (.inr hc)
    · exact ih a _ _ fun c hc => h c (.inr hc)
  · intro b g ih a e x h
    exact ih b e x h
  · intros; rfl
  · intro g gs ih ihs a e x h
    simp only [GF.needss, List.mem_append] at h
    simp only [GF.localFunctions, LF.bindCalls, GF.vals]
    rw [ih a e x fun c hc => h c (.inl hc), ihs a e x fun c hc => h c (.inr hc)]
    rfl

/-- If a needed variable does not exist any more, binding a local function and evaluating it is undefined. -/
theorem localFunction_dead (W : World E X Y) (alive : Nat → Bool) (a : Nat) (g : GF) (e : E) (x : X)
    (h : ∃ c ∈ g.needs a, alive c = false) : ((g.localFunction a).bindCall W alive e x) = none := by
  revert a e x
  refine GF.rec (motive_1 := fun g => ∀ a e x, (∃ c ∈ g.needs a, alive c = false) →
      (g.localFunction a).bindCall W alive e x = none)
    (motive_2 := fun gs => ∀ a e x, (∃ c ∈ GF.needss a gs, alive c = false) →
      LF.bindCalls W alive (GF.localFunctions a gs) e x = none)
    ?_ ?_ ?_ ?_ ?_ ?_ ?_ ?_ g
  · intro f s a e x h; simp [GF.needs] at h
  · intro f s a e x h; simp [GF.needs] at h
  · intro o g gs ih ihs a e x h
    simp only [GF.needs, List.mem_cons, List.mem_append] at h
    simp only [GF.localFunction, LF.bindCall]
    obtain ⟨c, hc | hc | hc, hd⟩ := h
    · subst hc; simp [Ref.get, hd]
    · rw [ih a e x ⟨c, hc, hd⟩]; cases Ref.get alive ⟨some a, o⟩ <;> rfl
    · rw [ihs a e x ⟨c, hc, hd⟩]
      cases Ref.get alive ⟨some a, o⟩ <;> cases (g.localFunction a).bindCall W alive e x <;> rfl
  · intro g s ih a e x h
    simp only [GF.needs, List.mem_append] at h
    simp only [GF.localFunction, LF.bindCall]
    obtain ⟨c, hc | hc, hd⟩ := h
    · rw [Ref.get_dead alive _ ⟨c, hc, hd⟩]; rfl
    · cases (g.entitySet a).get alive with
      | none => rfl
      | some s => exact ih a _ _ ⟨c, hc, hd⟩
  · intro g s ih a e x h
    simp only [GF.needs, List.mem_append] at h
    simp only [GF.localFunction, LF.bindCall]
    obtain ⟨c, hc | hc, hd⟩ := h
    · rw [Ref.get_dead alive _ ⟨c, hc, hd⟩]; rfl
    · cases (g.entitySet a).get alive with
      | none => rfl
      | some s =>
        simp only [Option.bind_some]
        split
        · exact ih a _ _ ⟨c, hc, hd⟩
        · exact ih a _ _ ⟨c, hc, hd⟩
  · intro b g ih a e x h
    exact ih b e x h
  · intro a e x h; simp [GF.needss] at h
  · intro g gs ih ihs a e x h
    simp only [GF.needss, List.mem_append] at h
    simp only [GF.localFunctions, LF.bindCalls]
    obtain ⟨c, hc | hc, hd⟩ := h
    · rw [ih a e x ⟨c, hc, hd⟩]; rfl
    · rw [ihs a e x ⟨c, hc, hd⟩]; cases (g.localFunction a).bindCall W alive e x <;> rfl

mutual
/-- The local function belongs to the grid function and refers only to variables in `N`. -/
def Shape (N : List Nat) : GF → LF E → Prop
  | .own f _, l => ∃ e, l = .leaf f e
  | .shared f _, l => ∃ e, l = .leaf f e
  | .composed o g gs, l => ∃ w l0 ls, l = .composed ⟨w, o⟩ l0 ls ∧ (∀ a ∈ w.toList, a ∈ N) ∧ Shape N g l0 ∧ Shapes N gs ls
  | .coarse g _, l => ∃ w l0 b, l = .coarse ⟨w, g.set⟩ l0 b ∧ (∀ a ∈ w.toList, a ∈ N) ∧ Shape N g l0
  | .fine g _, l => ∃ w l0 b, l = .fine ⟨w, g.set⟩ l0 b ∧ (∀ a ∈ w.toList, a ∈ N) ∧ Shape N g l0
  | .ref _ g, l => Shape N g l
def Shapes (N : List Nat) : List GF → List (LF E) → Prop
  | [], ls => ls = []
  | g :: gs, ls => ∃ l ls', ls = l :: ls' ∧ Shape N g l ∧ Shapes N gs ls'
end

mutual
/-- The local function is bound to an element. -/
def BoundTo (W : World E X Y) : LF E → E → Prop
  | .leaf _ b, e => b = some e
  | .composed _ l ls, e => BoundTo W l e ∧ BoundTos W ls e
  | .coarse set l b, e => b = some (set.content, e) ∧ BoundTo W l (W.up set.content e)
  | .fine set l b, e => b = some (W.mem set.content e, e) ∧ (W.mem set.content e = true → BoundTo W l e)
def BoundTos (W : World E X Y) : List (LF E) → E → Prop
  | [], _ => True
  | l :: ls, e => BoundTo W l e ∧ BoundTos W ls e
end

theorem localFunction_shape (N : List Nat) (g : GF) (a : Nat) (h : ∀ c ∈ g.needs a, c ∈ N) :
    Shape N g (g.localFunction a : LF E) := by
  revert a
  refine GF.rec (motive_1 := fun g => ∀ a, (∀ c ∈ g.needs a, c ∈ N) → Shape N g (g.localFunction a : LF E))
    (motive_2 := fun gs => ∀ a, (∀ c ∈ GF.needss a gs, c ∈ N) → Shapes N gs (GF.localFunctions a gs : List (LF E)))
    ?_ ?_ ?_ ?_ ?_ ?_ ?_ ?_ g
  · intro f s a _; exact ⟨none, rfl⟩
  · intro f s a _; exact ⟨none, rfl⟩
  · intro o g gs ih ihs a h
    simp only [GF.needs, List.mem_cons, List.mem_append] at h
    exact ⟨some a, _, _, rfl, by simpa using h a (.inl rfl), ih a fun c hc => h c (.inr (.inl hc)), ihs a fun c hc => h c (.inr (.inr hc))⟩
  · intro g s ih a h
    simp only [GF.needs, List.mem_append] at h
    refine ⟨(g.entitySet a).owner, g.localFunction a, none, ?_, fun c hc => h c (.inl hc), ih a fun c hc => h c (.inr hc)⟩
    rw [← GF.entitySet_content a g]; rfl
  · intro g s ih a h
    simp only [GF.needs, List.mem_append] at h
    refine ⟨(g.entitySet a).owner, g.localFunction a, none, ?_, fun c hc => h c (.inl hc), ih a fun c hc => h c (.inr hc)⟩
    rw [← GF.entitySet_content a g]; rfl
  · intro b g ih a h; exact ih b h
  · intro a h; rfl
  · intro g gs ih ihs a h
    simp only [GF.needss, List.mem_append] at h
    exact ⟨_, _, rfl, ih a fun c hc => h c (.inl hc), ihs a fun c hc => h c (.inr hc)⟩

theorem bind_shape (W : World E X Y) (alive : Nat → Bool) (N : List Nat) (hN : ∀ a ∈ N, alive a = true) (g : GF) (l : LF E) (e : E)
    (h : Shape N g l) : ∃ l', l.bind W alive e = some l' ∧ Shape N g l' ∧ BoundTo W l' e := by
  revert l e
  refine GF.rec (motive_1 := fun g => ∀ l e, Shape N g l → ∃ l', l.bind W alive e = some l' ∧ Shape N g l' ∧ BoundTo W l' e)
    (motive_2 := fun gs => ∀ ls e, Shapes N gs ls → ∃ ls', LF.binds W alive ls e = some ls' ∧ Shapes N gs ls' ∧ BoundTos W ls' e)
    ?_ ?_ ?_ ?_ ?_ ?_ ?_ ?_ g
  · rintro f s _ e ⟨e0, rfl⟩; exact ⟨.leaf f (some e), rfl, ⟨_, rfl⟩, rfl⟩
  · rintro f s _ e ⟨e0, rfl⟩; exact ⟨.leaf f (some e), rfl, ⟨_, rfl⟩, rfl⟩
  · rintro o g gs ih ihs _ e ⟨w, l0, ls, rfl, hw, h0, hs⟩
    obtain ⟨l', h1, h2, h3⟩ := ih l0 e h0
    obtain ⟨ls', k1, k2, k3⟩ := ihs ls e hs
    exact ⟨.composed ⟨w, o⟩ l' ls', by simp [LF.bind, h1, k1], ⟨w, l', ls', rfl, hw, h2, k2⟩, ⟨h3, k3⟩⟩
  · rintro g s ih _ e ⟨w, l0, b, rfl, hw, h0⟩
    obtain ⟨l', h1, h2, h3⟩ := ih l0 (W.up g.set e) h0
    refine ⟨.coarse ⟨w, g.set⟩ l' (some (g.set, e)), ?_, ⟨w, l', _, rfl, hw, h2⟩, ⟨rfl, h3⟩⟩
    simp [LF.bind, Ref.get_of alive ⟨w, g.set⟩ fun a ha => hN a (hw a ha), h1]
  · rintro g s ih _ e ⟨w, l0, b, rfl, hw, h0⟩
    have hg := Ref.get_of alive ⟨w, g.set⟩ fun a ha => hN a (hw a ha)
    by_cases hm : W.mem g.set e = true
    · obtain ⟨l', h1, h2, h3⟩ := ih l0 e h0
      exact ⟨.fine ⟨w, g.set⟩ l' (some (true, e)), by simp [LF.bind, hg, hm, h1], ⟨w, l', _, rfl, hw, h2⟩, by simp [BoundTo, hm, h3]⟩
    · exact ⟨.fine ⟨w, g.set⟩ l0 (some (false, e)), by simp [LF.bind, hg, hm], ⟨w, l0, _, rfl, hw, h0⟩, by simp [BoundTo, hm]⟩
  · intro b g ih l e h; exact ih l e h
  · rintro _ e rfl; exact ⟨[], rfl, rfl, trivial⟩
  · rintro g gs ih ihs _ e ⟨l, ls, rfl, h0, hs⟩
    obtain ⟨l', h1, h2, h3⟩ := ih l e h0
    obtain ⟨ls', k1, k2, k3⟩ := ihs ls e hs
    exact ⟨l' :: ls', by simp [LF.binds, h1, k1], ⟨l', ls', rfl, h2, k2⟩, ⟨h3, k3⟩⟩

/-- A bound local function is evaluated like its grid function. -/
theorem call_shape (W : World E X Y) (alive : Nat → Bool) (N : List Nat) (hN : ∀ a ∈ N, alive a = true) (g : GF) (l : LF E) (e : E) (x : X)
    (h : Shape N g l) (hb : BoundTo W l e) : l.call W alive x = some (g.val W e x) := by
  have key : ∀ g : GF, (∀ (l : LF E) e x, Shape N g l → l.bindCall W alive e x = some (g.val W e x)) ∧
      ∀ (l : LF E) e x, Shape N g l → BoundTo W l e → l.call W alive x = some (g.val W e x) := by
    intro g
    refine GF.rec (motive_1 := fun g => (∀ (l : LF E) e x, Shape N g l → l.bindCall W alive e x = some (g.val W e x)) ∧
        ∀ (l : LF E) e x, Shape N g l → BoundTo W l e → l.call W alive x = some (g.val W e x))
      (motive_2 := fun gs => (∀ (ls : List (LF E)) e x, Shapes N gs ls → LF.bindCalls W alive ls e x = some (GF.vals W gs e x)) ∧
        ∀ (ls : List (LF E)) e x, Shapes N gs ls → BoundTos W ls e → LF.calls W alive ls x = some (GF.vals W gs e x))
      ?_ ?_ ?_ ?_ ?_ ?_ ?_ ?_ g
    · refine fun f s => ⟨?_, ?_⟩
      · rintro _ e x ⟨e0, rfl⟩; rfl
      · rintro _ e x ⟨e0, rfl⟩ hb; simp only [BoundTo] at hb; subst hb; rfl
    · refine fun f s => ⟨?_, ?_⟩
      · rintro _ e x ⟨e0, rfl⟩; rfl
      · rintro _ e x ⟨e0, rfl⟩ hb; simp only [BoundTo] at hb; subst hb; rfl
    · refine fun o g gs ih ihs => ⟨?_, ?_⟩
      · rintro _ e x ⟨w, l0, ls, rfl, hw, h0, hs⟩
        simp [LF.bindCall, GF.val, Ref.get_of alive ⟨w, o⟩ fun a ha => hN a (hw a ha), ih.1 l0 e x h0, ihs.1 ls e x hs]
      · rintro _ e x ⟨w, l0, ls, rfl, hw, h0, hs⟩ ⟨hb, hbs⟩
        simp [LF.call, GF.val, Ref.get_of alive ⟨w, o⟩ fun a ha => hN a (hw a ha), ih.2 l0 e x h0 hb, ihs.2 ls e x hs hbs]
    · refine fun g s ih => ⟨?_, ?_⟩
      · rintro _ e x ⟨w, l0, b, rfl, hw, h0⟩
        simp [LF.bindCall, GF.val, Ref.get_of alive ⟨w, g.set⟩ fun a ha => hN a (hw a ha), ih.1 l0 _ _ h0]
      · rintro _ e x ⟨w, l0, b, rfl, hw, h0⟩ ⟨rfl, hb⟩
        simp [LF.call, GF.val, ih.2 l0 _ (W.mapUp g.set e x) h0 hb]
    · refine fun g s ih => ⟨?_, ?_⟩
      · rintro _ e x ⟨w, l0, b, rfl, hw, h0⟩
        simp only [LF.bindCall, GF.val, Ref.get_of alive ⟨w, g.set⟩ fun a ha => hN a (hw a ha), Option.bind_some, ih.1 l0 _ _ h0]
        split <;> rfl
      · rintro _ e x ⟨w, l0, b, rfl, hw, h0⟩ ⟨rfl, hb⟩
        simp only [LF.call, GF.val, Ref.get_of alive ⟨w, g.set⟩ fun a ha => hN a (hw a ha), Option.bind_some, ih.1 l0 _ _ h0]
        by_cases hm : W.mem g.set e = true
        · rw [if_pos hm, if_pos hm]; exact ih.2 l0 e x h0 (hb hm)
        · rw [if_neg hm, if_neg hm]
    · intro b g ih; exact ih
    · refine ⟨?_, ?_⟩
      · rintro _ e x rfl; rfl
      · rintro _ e x rfl _; rfl
    · refine fun g gs ih ihs => ⟨?_, ?_⟩
      · rintro _ e x ⟨l, ls, rfl, h0, hs⟩
        simp [LF.bindCalls, GF.vals, ih.1 l e x h0, ihs.1 ls e x hs]
      · rintro _ e x ⟨l, ls, rfl, h0, hs⟩ ⟨hb, hbs⟩
        simp [LF.calls, GF.vals, ih.2 l e x h0 hb, ihs.2 ls e x hs hbs]
  exact (key g).2 l e x h hb

theorem GF.derivative_set (W : World E X Y) (g g' : GF) (h : g.derivative W = some g') : g'.set = g.set := by
  revert g'
  refine GF.rec (motive_1 := fun g => ∀ g', g.derivative W = some g' → g'.set = g.set) (motive_2 := fun _ => True)
    ?_ ?_ ?_ ?_ ?_ ?_ ?_ ?_ g
  · intro f s g' h; obtain ⟨f', _, rfl⟩ := Option.map_eq_some_iff.mp h; rfl
  · intro f s g' h; obtain ⟨f', _, rfl⟩ := Option.map_eq_some_iff.mp h; rfl
  · intro o g gs _ _ g' h; simp [GF.derivative] at h
  · intro g s _ g' h; obtain ⟨f', _, rfl⟩ := Option.map_eq_some_iff.mp h; rfl
  · intro g s _ g' h; obtain ⟨f', _, rfl⟩ := Option.map_eq_some_iff.mp h; rfl
  · intro b g ih g' h; exact ih g' h
  · trivial
  · intros; trivial

/-- Derivatives of local functions without a coarse function on a fine grid view; they need not be bound. -/
theorem derivative_shape_noCoarse (W : World E X Y) (N : List Nat) (g : GF) (l : LF E) (h : Shape N g l) (hc : g.noCoarse = true) :
    (g.derivative W = none → l.derivative W = some none) ∧
    (∀ g', g.derivative W = some g' → ∃ l', l.derivative W = some (some l') ∧ Shape N g' l' ∧ ∀ e, BoundTo W l e → BoundTo W l' e) := by
  revert l
  refine GF.rec (motive_1 := fun g => g.noCoarse = true → ∀ l : LF E, Shape N g l → (g.derivative W = none → l.derivative W = some none) ∧
      (∀ g', g.derivative W = some g' → ∃ l', l.derivative W = some (some l') ∧ Shape N g' l' ∧ ∀ e, BoundTo W l e → BoundTo W l' e))
    (motive_2 := fun _ => True) ?_ ?_ ?_ ?_ ?_ ?_ ?_ ?_ g hc
  · rintro f s - _ ⟨e0, rfl⟩
    simp only [GF.derivative, LF.derivative]
    cases W.d f with
    | none => simp
    | some f' =>
      refine ⟨by simp, ?_⟩
      rintro _ ⟨rfl⟩
      exact ⟨.leaf f' e0, rfl, ⟨e0, rfl⟩, fun e he => he⟩
  · rintro f s - _ ⟨e0, rfl⟩
    simp only [GF.derivative, LF.derivative]
    cases W.d f with
    | none => simp
    | some f' =>
      refine ⟨by simp, ?_⟩
      rintro _ ⟨rfl⟩
      exact ⟨.leaf f' e0, rfl, ⟨e0, rfl⟩, fun e he => he⟩
  · rintro o g gs - - - _ ⟨w, l0, ls, rfl, -⟩
    exact ⟨fun _ => rfl, fun g' h => by simp [GF.derivative] at h⟩
  · intro g s _ hc; simp [GF.noCoarse] at hc
  · rintro g s ih hc _ ⟨w, l0, b, rfl, hw, h0⟩
    obtain ⟨i1, i2⟩ := ih hc l0 h0
    simp only [GF.derivative, LF.derivative]
    cases hd : g.derivative W with
    | none => simp [i1 hd]
    | some g1 =>
      refine ⟨by simp, ?_⟩
      rintro _ ⟨rfl⟩
      obtain ⟨l1, k1, k2, k3⟩ := i2 g1 hd
      refine ⟨.fine ⟨w, g.set⟩ l1 b, by simp [k1], ⟨w, l1, b, ?_, hw, k2⟩, ?_⟩
      · rw [GF.derivative_set W g g1 hd]
      · rintro e ⟨hb, hb'⟩; exact ⟨hb, fun hm => k3 e (hb' hm)⟩
  · intro b g ih hc l h; exact ih hc l h
  · trivial
  · intros; trivial

/-- Derivatives of bound local functions. -/
theorem derivative_shape (W : World E X Y) (N : List Nat) (g : GF) (l : LF E) (e : E) (h : Shape N g l) (ho : g.oneWay = true)
    (hb : BoundTo W l e) : (g.derivative W = none → l.derivative W = some none) ∧
    (∀ g', g.derivative W = some g' → ∃ l', l.derivative W = some (some l') ∧ Shape N g' l' ∧ BoundTo W l' e) := by
  revert l e
  refine GF.rec (motive_1 := fun g => g.oneWay = true → ∀ (l : LF E) e, Shape N g l → BoundTo W l e →
      (g.derivative W = none → l.derivative W = some none) ∧
      (∀ g', g.derivative W = some g' → ∃ l', l.derivative W = some (some l') ∧ Shape N g' l' ∧ BoundTo W l' e))
    (motive_2 := fun _ => True) ?_ ?_ ?_ ?_ ?_ ?_ ?_ ?_ g ho
  · intro f s _ l e h hb
    obtain ⟨i1, i2⟩ := derivative_shape_noCoarse W N (.own f s) l h rfl
    exact ⟨i1, fun g' hg' => (i2 g' hg').imp fun l' hl' => ⟨hl'.1, hl'.2.1, hl'.2.2 e hb⟩⟩
  · intro f s _ l e h hb
    obtain ⟨i1, i2⟩ := derivative_shape_noCoarse W N (.shared f s) l h rfl
    exact ⟨i1, fun g' hg' => (i2 g' hg').imp fun l' hl' => ⟨hl'.1, hl'.2.1, hl'.2.2 e hb⟩⟩
  · intro o g gs _ _ _ l e h hb
    obtain ⟨i1, i2⟩ := derivative_shape_noCoarse W N (.composed o g gs) l h rfl
    exact ⟨i1, fun g' hg' => (i2 g' hg').imp fun l' hl' => ⟨hl'.1, hl'.2.1, hl'.2.2 e hb⟩⟩
  · rintro g s ih ho _ e ⟨w, l0, b, rfl, hw, h0⟩ ⟨rfl, hb⟩
    obtain ⟨i1, i2⟩ := ih ho l0 _ h0 hb
    simp only [GF.derivative, LF.derivative]
    cases hd : g.derivative W with
    | none => simp [i1 hd]
    | some g1 =>
      refine ⟨by simp, ?_⟩
      rintro _ ⟨rfl⟩
      obtain ⟨l1, k1, k2, k3⟩ := i2 g1 hd
      refine ⟨.coarse ⟨w, g.set⟩ l1 (some (g.set, e)), by simp [k1], ⟨w, l1, some (g.set, e), ?_, hw, k2⟩, ⟨rfl, k3⟩⟩
      rw [GF.derivative_set W g g1 hd]
  · intro g s _ ho l e h hb
    obtain ⟨i1, i2⟩ := derivative_shape_noCoarse W N (.fine g s) l h ho
    exact ⟨i1, fun g' hg' => (i2 g' hg').imp fun l' hl' => ⟨hl'.1, hl'.2.1, hl'.2.2 e hb⟩⟩
  · intro b g ih ho l e h hb; exact ih ho l e h hb
  · trivial
  · intros; trivial

/-- Memory and understanding agree. -/
structure Rel (W : World E X Y) (A : Abs E) (S : Mem E) : Prop where
  var : S.var = A.var
  lf : ∀ l g N o, A.lf l = some (g, N, o) → ∃ k, S.lf l = some k ∧ Shape N g k ∧ ∀ e, o = some e → BoundTo W k e

theorem Rel.update {W : World E X Y} {A : Abs E} {S : Mem E} (R : Rel W A S) (m : Nat) (g : GF) (N : List Nat) (o : Option E) (k : LF E)
    (hs : Shape N g k) (hb : ∀ e, o = some e → BoundTo W k e) :
    Rel W { A with lf := update A.lf m (some (g, N, o)) } { S with lf := update S.lf m (some k) } := by
  refine ⟨R.var, fun l g' N' o' h => ?_⟩
  dsimp only at h ⊢
  by_cases hl : l = m
  · subst hl
    rw [update_self] at h ⊢
    cases h
    exact ⟨k, rfl, hs, hb⟩
  · rw [update_of_ne hl] at h ⊢
    exact R.lf l g' N' o' h

theorem exec_rel (W : World E X Y) {A B : Abs E} {S : Mem E} {c : Cmd E X} {o : List (Obs Y)} (R : Rel W A S) (h : Expected W A c o B) :
    ∃ S', exec W S c = some (S', o) ∧ Rel W B S' := by
  have hal : ∀ {N : List Nat}, (∀ a ∈ N, A.var a ≠ none) → ∀ a ∈ N, S.alive a = true := fun hN a ha => by
    simp only [Mem.alive, R.var]; exact Option.isSome_iff_ne_none.mpr (hN a ha)
  cases h with
  | new h => exact ⟨_, rfl, ⟨by simp only [R.var], R.lf⟩⟩
  | @copy a b g h ha =>
    exact ⟨{ S with var := Function.update S.var b (some g) }, by simp [exec, R.var, ha], ⟨by simp only [R.var], R.lf⟩⟩
  | @move a b g h ha =>
    exact ⟨{ S with var := Function.update (Function.update S.var a none) b (some g) }, by simp [exec, R.var, ha],
      ⟨by simp only [R.var], R.lf⟩⟩
  | destroy => exact ⟨_, rfl, ⟨by simp only [R.var], R.lf⟩⟩
  | @derivative a b g g' h ha hr hd =>
    have hall : g.derivativeRefs.all S.alive = true := List.all_eq_true.mpr (hal hr)
    refine ⟨{ S with var := Function.update S.var b (some g') }, ?_, ⟨by simp only [R.var], R.lf⟩⟩
    simp only [exec, R.var, ha, hd, hall, Option.bind_some, if_true]
  | @derivativeThrows a b g ha hr hd =>
    have hall : g.derivativeRefs.all S.alive = true := List.all_eq_true.mpr (hal hr)
    refine ⟨S, ?_, R⟩
    simp only [exec, R.var, ha, hd, hall, Option.bind_some, if_true]
  | @localFunction a l g ha hr =>
    have hall : g.refs.all S.alive = true := List.all_eq_true.mpr (hal hr)
    refine ⟨{ S with lf := Function.update S.lf l (some (g.localFunction a)) }, ?_,
      R.update l g (g.needs a) none _ (localFunction_shape _ g a fun c hc => hc) fun e he => by simp at he⟩
    simp only [exec, R.var, ha, hall, Option.bind_some, if_true]
  | @copyLocal m l k hl =>
    obtain ⟨g, N, o⟩ := k
    obtain ⟨k, hk, hs, hb⟩ := R.lf l g N o hl
    exact ⟨{ S with lf := Function.update S.lf m (some k) }, by simp [exec, hk], R.update m g N o k hs hb⟩
  | @destroyLocal l =>
    refine ⟨{ S with lf := Function.update S.lf l none }, rfl, ⟨R.var, fun m g N o h => ?_⟩⟩
    dsimp only at h ⊢
    by_cases hm : m = l
    · subst hm; simp at h
    · rw [update_of_ne hm] at h ⊢; exact R.lf m g N o h
  | @derivativeLocal m l g g' N e hl ho hd =>
    obtain ⟨k, hk, hs, hb⟩ := R.lf l g N _ hl
    obtain ⟨k', h1, h2, h3⟩ := (derivative_shape W N g k e hs ho (hb e rfl)).2 g' hd
    exact ⟨{ S with lf := Function.update S.lf m (some k') }, by simp [exec, hk, h1],
      R.update m g' N (some e) k' h2 fun e' he => by cases he; exact h3⟩
  | @derivativeLocalThrows m l g N e hl ho hd =>
    obtain ⟨k, hk, hs, hb⟩ := R.lf l g N _ hl
    exact ⟨S, by simp [exec, hk, (derivative_shape W N g k e hs ho (hb e rfl)).1 hd], R⟩
  | @bind l g N o e hl hN =>
    obtain ⟨k, hk, hs, hb⟩ := R.lf l g N _ hl
    obtain ⟨k', h1, h2, h3⟩ := bind_shape W S.alive N (hal hN) g k e hs
    exact ⟨{ S with lf := Function.update S.lf l (some k') }, by simp [exec, hk, h1],
      R.update l g N (some e) k' h2 fun e' he => by cases he; exact h3⟩
  | @call l g N e x hl hN =>
    obtain ⟨k, hk, hs, hb⟩ := R.lf l g N _ hl
    exact ⟨S, by simp [exec, hk, call_shape W S.alive N (hal hN) g k e x hs (hb e rfl)], R⟩

theorem execs_rel (W : World E X Y) {A B : Abs E} {S : Mem E} {cs : List (Cmd E X)} {os : List (Obs Y)} (R : Rel W A S)
    (h : Expecteds W A cs os B) : ∃ S', execs W S cs = some (S', os) ∧ Rel W B S' := by
  induction h generalizing S with
  | nil => exact ⟨S, rfl, R⟩
  | cons h hs ih =>
    obtain ⟨S1, h1, R1⟩ := exec_rel W R h
    obtain ⟨S2, h2, R2⟩ := ih R1
    exact ⟨S2, by simp [execs, h1, h2], R2⟩

/-- **C72** (partial). Every program that uses local functions only while the variables they refer to exist is well defined, and all values are
those of the grid functions from which the local functions (or their derivatives) were created, whatever copies of grid functions and of local functions are made and
whatever other grid functions are destroyed or moved in between. Missing: programs that destroy the grid function before its local function
(`C72_false`, `C72_derivative_false`; exactly those of `C72_temporary` are not affected), and derivatives of local functions of a coarse
function on a fine grid view that is wrapped as a function on a coarse grid view (`C72_local_derivative_false`). -/
theorem C72_partial (W : World E X Y) (cs : List (Cmd E X)) (os : List (Obs Y)) (A : Abs E) (h : Expecteds W Abs.init cs os A) :
    ∃ S, execs W Mem.init cs = some (S, os) ∧ S.var = A.var := by
  obtain ⟨S, hS, R⟩ := execs_rel W (S := Mem.init) ⟨rfl, fun l g N o h => by simp [Abs.init] at h⟩ h
  exact ⟨S, hS, R.var⟩

/-- The grid functions whose local functions may outlive them: analytic functions, face normals and discrete functions, and discrete functions on other grid
views, but no compositions. -/
def GF.selfContained : GF → Bool
  | .own _ _ => true
  | .shared _ _ => true
  | .coarse (.shared _ _) _ => true
  | .fine (.shared _ _) _ => true
  | _ => false

theorem needs_eq_nil_iff (a : Nat) (g : GF) (hr : g.refs = []) : g.needs a = [] ↔ g.selfContained = true := by
  cases g with
  | own | shared => simp [GF.needs, GF.selfContained]
  | composed o g gs => simp [GF.needs, GF.selfContained]
  | coarse g s =>
    cases g with
    | own | shared => simp [GF.needs, GF.selfContained, GF.entitySet]
    | composed | coarse | fine => simp [GF.needs, GF.selfContained, GF.entitySet]
    | ref b g => simp [GF.refs] at hr
  | fine g s =>
    cases g with
    | own | shared => simp [GF.needs, GF.selfContained, GF.entitySet]
    | composed | coarse | fine => simp [GF.needs, GF.selfContained, GF.entitySet]
    | ref b g => simp [GF.refs] at hr
  | ref b g => simp [GF.refs] at hr

theorem entitySet_owner (a : Nat) (g : GF) (hr : g.refs = []) : ∀ c ∈ (g.entitySet a).owner.toList, c = a := by
  revert hr
  refine GF.rec (motive_1 := fun g => g.refs = [] → ∀ c ∈ (g.entitySet a).owner.toList, c = a) (motive_2 := fun _ => True)
    ?_ ?_ ?_ ?_ ?_ ?_ ?_ ?_ g <;> intros <;> simp_all [GF.entitySet, GF.refs]

theorem needs_subset (a : Nat) (g : GF) (hr : g.refs = []) : ∀ c ∈ g.needs a, c = a := by
  revert hr
  refine GF.rec (motive_1 := fun g => g.refs = [] → ∀ c ∈ g.needs a, c = a)
    (motive_2 := fun gs => GF.refss gs = [] → ∀ c ∈ GF.needss a gs, c = a) ?_ ?_ ?_ ?_ ?_ ?_ ?_ ?_ g
  · intro f s _ c hc; simp [GF.needs] at hc
  · intro f s _ c hc; simp [GF.needs] at hc
  · intro o g gs ih ihs hr c hc
    simp only [GF.refs, List.append_eq_nil_iff] at hr
    simp only [GF.needs, List.mem_cons, List.mem_append] at hc
    rcases hc with hc | hc | hc
    · exact hc
    · exact ih hr.1 c hc
    · exact ihs hr.2 c hc
  · intro g s ih hr c hc
    simp only [GF.needs, List.mem_append] at hc
    exact hc.elim (entitySet_owner a g hr c) (ih hr c)
  · intro g s ih hr c hc
    simp only [GF.needs, List.mem_append] at hc
    exact hc.elim (entitySet_owner a g hr c) (ih hr c)
  · intro b g _ hr; simp [GF.refs] at hr
  · intro _ c hc; simp [GF.needss] at hc
  · intro g gs ih ihs hr c hc
    simp only [GF.refss, List.append_eq_nil_iff] at hr
    simp only [GF.needss, List.mem_append] at hc
    exact hc.elim (ih hr.1 c) (ihs hr.2 c)

/-- **C72**, local functions of temporaries: `auto l = localFunction(<temporary>); l.bind(e); l(x)`. This is well defined, and then gives the value of the
grid function, exactly if the temporary is an analytic function, a face normal, a discrete function or a discrete function on another grid view. -/
theorem C72_temporary (W : World E X Y) (g : GF) (hr : g.refs = []) (a l : Nat) (e : E) (x : X) :
    (execs W Mem.init [.new a g, .localFunction l a, .destroy a, .bind l e, .call l x]).map Prod.snd =
      if g.selfContained then some [.value (g.val W e x)] else none := by
  have hd : ∀ (S : Mem E), S.alive a = false → ((g.localFunction a : LF E).bind W S.alive e).bind (fun k => k.call W S.alive x) =
      if g.selfContained then some (g.val W e x) else none := by
    intro S hS
    rw [← LF.bindCall_eq]
    split
    · rename_i h
      exact localFunction_val W _ a g e x (by rw [(needs_eq_nil_iff a g hr).mpr h]; simp)
    · rename_i h
      have hn : g.needs a ≠ [] := fun hn => h ((needs_eq_nil_iff a g hr).mp hn)
      obtain ⟨c, hc⟩ := List.exists_mem_of_ne_nil _ hn
      exact localFunction_dead W _ a g e x ⟨c, hc, by rw [needs_subset a g hr c hc]; exact hS⟩
  have h1 : execs W (Mem.init : Mem E) [.new a g, .localFunction l a, .destroy a, .bind l e, .call l x] =
      execs W (⟨update (update (fun _ => none) a (some g)) a none, update (fun _ => none) l (some (g.localFunction a))⟩ : Mem E)
        [.bind l e, .call l x] := by
    simp [execs, exec, Mem.init, hr]
  rw [h1]
  generalize hS : (⟨update (update (fun _ => none) a (some g)) a none, update (fun _ => none) l (some (g.localFunction a))⟩ : Mem E) = S
  have hal : S.alive a = false := by rw [← hS]; simp [Mem.alive]
  have hlf : S.lf l = some (g.localFunction a) := by rw [← hS]; simp
  have := hd S hal
  simp only [execs, exec, hlf, Option.bind_some]
  cases hb : (g.localFunction a : LF E).bind W S.alive e with
  | none =>
    rw [hb] at this
    simp at this ⊢
    exact this
  | some k =>
    rw [hb] at this
    have hal2 : (Mem.alive { S with lf := update S.lf l (some k) }) = S.alive := rfl
    simp only [Option.bind_some] at this
    simp only [Option.map_some, Option.bind_some, update_self, hal2, this]
    split <;> rfl

/-! ## Where the full statement fails -/

/-- A small world: functions are numbers, elements and coordinates are numbers, the ancestor of an element is its half, coordinates are kept. -/
def W0 : World Nat Nat Nat where
  leaf f e x := 100 * f + 10 * e + x
  d f := if f < 5 then some (f + 1) else none
  outer o ys := 1000 * o + ys.sum
  mem s e := e % (s + 1) == 0
  up s e := e / (s + 2)
  mapUp _ _ x := x + 1
  down s e x := (e * (s + 2), x)

/-- **C72** is false of compositions: `auto l = localFunction(makeComposedGridFunction(f, g));` leaves a reference to the destroyed composition, although
the same with `makeAnalyticGridViewFunction` and `makeDiscreteGlobalBasisFunction` is fine. -/
theorem C72_false :
    (execs W0 Mem.init [.new 0 (.composed 1 (.own 2 0) []), .localFunction 0 0, .destroy 0, .bind 0 4, .call 0 3]).isNone ∧
    (execs W0 Mem.init [.new 0 (.own 2 0), .localFunction 0 0, .destroy 0, .bind 0 4, .call 0 3]).map Prod.snd = some [.value 243] ∧
    (execs W0 Mem.init [.new 0 (.shared 2 0), .localFunction 0 0, .destroy 0, .bind 0 4, .call 0 3]).map Prod.snd = some [.value 243] := by
  decide +kernel

/-- **C72** is false of analytic functions on other grid views: `auto l = localFunction(derivative(f))` leaves a reference to the entity set in the destroyed
derivative, although `f` exists, whereas `auto l = derivative(localFunction(f))` does not. -/
theorem C72_derivative_false :
    (execs W0 Mem.init [.new 0 (.coarse (.own 2 0) 1), .derivative 1 0, .localFunction 0 1, .destroy 1, .bind 0 4]).isNone ∧
    (execs W0 Mem.init [.new 0 (.coarse (.own 2 0) 1), .localFunction 0 0, .bind 0 4, .derivativeLocal 1 0, .call 1 3]).map Prod.snd =
      some [.value 324] := by
  decide +kernel

/-- **C72**, derivatives of bound local functions: the local function of a fine function on a coarse grid view which is itself a coarse function
on a fine grid view is bound to an element that has to be evaluated in descendants. Its derivative reads the element of the wrapped local function, which is
not bound. -/
theorem C72_local_derivative_false :
    (execs W0 Mem.init [.new 0 (.fine (.coarse (.own 2 0) 1) 0), .localFunction 0 0, .bind 0 3, .derivativeLocal 1 0]).isNone ∧
    (execs W0 Mem.init [.new 0 (.fine (.coarse (.own 2 0) 1) 0), .localFunction 0 0, .bind 0 3, .call 0 3]).isSome := by
  decide +kernel

/-- A program with copies, a moved function, references and derivatives, and its values. -/
example : (execs W0 Mem.init [.new 0 (.own 2 0), .new 1 (.composed 1 (.ref 0 (.own 2 0)) [.shared 3 0]), .localFunction 0 1, .copyLocal 1 0,
    .copy 2 1, .move 3 2, .bind 1 4, .bind 0 6, .call 0 1, .call 1 1, .derivative 4 0, .localFunction 2 4, .destroy 4, .bind 2 1,
    .call 2 0, .derivative 5 1]).map Prod.snd =
    some [.value (1000 + 261 + 361), .value (1000 + 241 + 341), .value 310, .notImplemented] := by decide +kernel

/-- The hypothesis of `C72_partial` holds of such programs. -/
example : ∃ A, Expecteds W0 (Abs.init : Abs Nat) [.new 0 (.composed 1 (.own 2 0) [.shared 3 0]), .localFunction 0 0, .bind 0 4, .call 0 1, .destroy 0]
    ([] ++ ([] ++ ([] ++ ([.value 1582] ++ ([] ++ []))))) A :=
  ⟨_, .cons (.new (by simp [Abs.init])) (.cons (.localFunction (g := .composed 1 (.own 2 0) [.shared 3 0]) (by simp) (by simp [GF.refs, GF.refss]))
    (.cons (.bind (g := .composed 1 (.own 2 0) [.shared 3 0]) (N := [0]) (o := none) (by simp [GF.needs, GF.needss]) (by simp [Abs.init]))
      (.cons (.call (g := .composed 1 (.own 2 0) [.shared 3 0]) (N := [0]) (e := 4) (by simp) (by simp [Abs.init]))
        (.cons .destroy .nil))))⟩

/-- Both sides of `C72_temporary` occur. -/
example : (GF.coarse (.shared 2 0) 1).selfContained = true ∧ (GF.coarse (.own 2 0) 1).selfContained = false ∧
    (GF.coarse (.coarse (.shared 2 0) 1) 2).selfContained = false := by decide

end Verif.Lifetime
