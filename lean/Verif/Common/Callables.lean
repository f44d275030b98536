import Mathlib.Logic.Function.Basic
import Mathlib.Data.List.Basic

/-!
# Differentiable functions from callables

Model of `dune/functions/common/differentiablefunctionfromcallables.hh`.
-/

namespace Verif.Callables

/-! ## Model -/

/-- Callable objects: `call f x` is the value of an object in state `f`. -/
structure Callable (F X Y : Type) where
  call : F → X → Y

/-- Arguments of a function template with parameters `F&&...`: the name of a variable, or a temporary. -/
inductive Arg (F : Type) where
  | lvalue (a : Nat)
  | rvalue (f : F)

/-- A data member `F f_`. For `F = T&` it is a reference to a variable. -/
inductive Member (F : Type) where
  | ref (a : Nat)
  | val (f : F)
  deriving DecidableEq

/-- An object of type `DifferentiableFunctionFromCallables<Range(Domain), DerivativeTraits, F, DF, Derivatives...>`:
`f_` and `df_`, differentiablefunctionfromcallables.hh:85-86 and 146-148. -/
inductive Obj (F : Type) where
  | last (f : Member F)
  | cons (f : Member F) (df : Obj F)
  deriving DecidableEq

/-- Memory: variables holding callables, and variables holding differentiable functions. -/
structure Mem (F : Type) where
  var : Nat → Option F
  obj : Nat → Option (Obj F)

variable {F X Y : Type}

/-- Type of the member for an argument if the template parameter is deduced for `F&&`, differentiablefunctionfromcallables.hh:166-170:
for a variable `F` is deduced as a reference type. The member is initialized with `f...`; temporaries are copied. -/
def deduced : Arg F → Member F
  | .lvalue a => .ref a
  | .rvalue f => .val f

/-- The member if the template parameter is given as an object type. `none` if the variable does not exist. -/
def byValue (S : Mem F) : Arg F → Option (Member F)
  | .lvalue a => (S.var a).map .val
  | .rvalue f => some (.val f)

/-- The constructors, differentiablefunctionfromcallables.hh:63-67 and 124-128. -/
def construct : Member F → List (Member F) → Obj F
  | f, [] => .last f
  | f, g :: gs => .cons f (construct g gs)

/-- All members are initialized, or none if one cannot be. -/
def initAll (f : Arg F → Option (Member F)) : List (Arg F) → Option (List (Member F))
  | [] => some []
  | a :: as => (f a).bind fun m => (initAll f as).map fun ms => m :: ms

/-- `operator()`, differentiablefunctionfromcallables.hh:70-73 and 131-134. `none` if the variable does not exist any more. -/
def eval (I : Callable F X Y) (S : Mem F) (o : Obj F) (x : X) : Option Y :=
  match (match o with | .last f => f | .cons f _ => f) with
  | .val f => some (I.call f x)
  | .ref a => (S.var a).map fun f => I.call f x

/-- `derivative`, differentiablefunctionfromcallables.hh:80-83 and 141-144. `none` is the exception `NotImplemented`. -/
def derivative : Obj F → Option (Obj F)
  | .last _ => none
  | .cons _ df => some df

/-- Statements of a user's program. -/
inductive Cmd (F X : Type) where
  /-- a new variable holding a callable -/
  | new (a : Nat) (f : F)
  | assign (a : Nat) (f : F)
  | destroy (a : Nat)
  /-- `auto o = makeDifferentiableFunctionFromCallables(SignatureTag<Signature>(), f, fs...)` -/
  | make (o : Nat) (f : Arg F) (fs : List (Arg F))
  /-- `DifferentiableFunctionFromCallables<Signature, DerivativeTraits, T, Ts...> o(f, fs...)` with object types `T`, `Ts` -/
  | ctor (o : Nat) (f : Arg F) (fs : List (Arg F))
  /-- `auto o = p;` -/
  | copy (o p : Nat)
  /-- `auto o = derivative(p);` -/
  | derivative (o p : Nat)
  | drop (o : Nat)
  | call (o : Nat) (x : X)

/-- What the user observes. -/
inductive Obs (Y : Type) where
  | value (y : Y)
  | notImplemented
  deriving DecidableEq

open Function

/-- `none` is undefined behaviour or a variable that does not exist. -/
def exec (I : Callable F X Y) (S : Mem F) : Cmd F X → Option (Mem F × List (Obs Y))
  | .new a f => some ({ S with var := update S.var a (some f) }, [])
  | .assign a f => (S.var a).map fun _ => ({ S with var := update S.var a (some f) }, [])
  | .destroy a => (S.var a).map fun _ => ({ S with var := update S.var a none }, [])
  | .make o f fs => some ({ S with obj := update S.obj o (some (construct (deduced f) (fs.map deduced))) }, [])
  | .ctor o f fs => (byValue S f).bind fun m => (initAll (byValue S) fs).map fun ms =>
      ({ S with obj := update S.obj o (some (construct m ms)) }, [])
  | .copy o p => (S.obj p).map fun q => ({ S with obj := update S.obj o (some q) }, [])
  | .derivative o p => (S.obj p).map fun q => match derivative q with
      | some d => ({ S with obj := update S.obj o (some d) }, [])
      | none => (S, [.notImplemented])
  | .drop o => (S.obj o).map fun _ => ({ S with obj := update S.obj o none }, [])
  | .call o x => (S.obj o).bind fun q => (eval I S q x).map fun y => (S, [.value y])

def execs (I : Callable F X Y) : Mem F → List (Cmd F X) → Option (Mem F × List (Obs Y))
  | S, [] => some (S, [])
  | S, c :: cs => (exec I S c).bind fun r => (execs I r.1 cs).map fun r' => (r'.1, r.2 ++ r'.2)

def Mem.init : Mem F := ⟨fun _ => none, fun _ => none⟩

/-! ## Specification -/

/-- What the documentation says: a differentiable function is a list of copies of the given callables, the function and its derivatives with
increasing order. `used` are the variables that have been passed to `makeDifferentiableFunctionFromCallables`. -/
structure Abs (F : Type) where
  var : Nat → Option F
  fn : Nat → Option (List F)
  used : List Nat

def Abs.init : Abs F := ⟨fun _ => none, fun _ => none, []⟩

/-- The callable given by an argument. -/
def Abs.get (A : Abs F) : Arg F → Option F
  | .lvalue a => A.var a
  | .rvalue f => some f

def Abs.gets (A : Abs F) : List (Arg F) → Option (List F)
  | [] => some []
  | a :: as => (A.get a).bind fun f => (A.gets as).map fun fs => f :: fs

def names : List (Arg F) → List Nat
  | [] => []
  | .lvalue a :: as => a :: names as
  | .rvalue _ :: as => names as

/-- What the user expects. With `free = false`, variables passed to `makeDifferentiableFunctionFromCallables` must not be changed or destroyed
afterwards. -/
def direct (I : Callable F X Y) (free : Bool) (A : Abs F) : Cmd F X → Option (Abs F × List (Obs Y))
  | .new a f => if A.var a = none then some ({ A with var := update A.var a (some f) }, []) else none
  | .assign a f => if A.var a = none ∨ (free = false ∧ a ∈ A.used) then none else some ({ A with var := update A.var a (some f) }, [])
  | .destroy a => if A.var a = none ∨ (free = false ∧ a ∈ A.used) then none else some ({ A with var := update A.var a none }, [])
  | .make o f fs => (A.gets (f :: fs)).map fun l => ({ A with fn := update A.fn o (some l), used := names (f :: fs) ++ A.used }, [])
  | .ctor o f fs => (A.gets (f :: fs)).map fun l => ({ A with fn := update A.fn o (some l) }, [])
  | .copy o p => (A.fn p).map fun l => ({ A with fn := update A.fn o (some l) }, [])
  | .derivative o p => (A.fn p).map fun l =>
      if 2 ≤ l.length then ({ A with fn := update A.fn o (some l.tail) }, []) else (A, [.notImplemented])
  | .drop o => (A.fn o).map fun _ => ({ A with fn := update A.fn o none }, [])
  | .call o x => (A.fn o).bind fun l => l.head?.map fun f => (A, [.value (I.call f x)])

def directs (I : Callable F X Y) (free : Bool) : Abs F → List (Cmd F X) → Option (Abs F × List (Obs Y))
  | A, [] => some (A, [])
  | A, c :: cs => (direct I free A c).bind fun r => (directs I free r.1 cs).map fun r' => (r'.1, r.2 ++ r'.2)

/-! ## Proof -/

/-- The member stands for the callable `f`. -/
def Means (A : Abs F) (f : F) : Member F → Prop
  | .val g => g = f
  | .ref a => A.var a = some f ∧ a ∈ A.used

def Represents (A : Abs F) : Obj F → List F → Prop
  | .last m, l => ∃ f, l = [f] ∧ Means A f m
  | .cons m o, l => ∃ f l', l = f :: l' ∧ Means A f m ∧ Represents A o l'

structure Inv (S : Mem F) (A : Abs F) : Prop where
  var : S.var = A.var
  some : ∀ o l, A.fn o = some l → ∃ q, S.obj o = some q ∧ Represents A q l

theorem Means.mono {A B : Abs F} (h : ∀ a ∈ A.used, B.var a = A.var a) (hu : ∀ a ∈ A.used, a ∈ B.used) {f : F} :
    ∀ {m : Member F}, Means A f m → Means B f m
  | .val _, hm => hm
  | .ref a, hm => ⟨by rw [h a hm.2]; exact hm.1, hu a hm.2⟩

theorem Represents.mono {A B : Abs F} (h : ∀ a ∈ A.used, B.var a = A.var a) (hu : ∀ a ∈ A.used, a ∈ B.used) :
    ∀ {q : Obj F} {l : List F}, Represents A q l → Represents B q l
  | .last _, _, ⟨f, h1, h2⟩ => ⟨f, h1, h2.mono h hu⟩
  | .cons _ _, _, ⟨f, l', h1, h2, h3⟩ => ⟨f, l', h1, h2.mono h hu, h3.mono h hu⟩

theorem represents_length {A : Abs F} : ∀ {q : Obj F} {l : List F}, Represents A q l →
    (derivative q = none ↔ ¬ 2 ≤ l.length) ∧ ∀ d, derivative q = some d → Represents A d l.tail
  | .last _, _, ⟨f, h1, h2⟩ => by subst h1; simp [derivative]
  | .cons _ d, _, ⟨f, l', h1, h2, h3⟩ => by
    subst h1
    have : l' ≠ [] := by
      rintro rfl
      cases d <;> simp [Represents] at h3
    rcases l' with _ | ⟨g, l'⟩
    · exact absurd rfl this
    · simp [derivative, h3]

theorem eval_represents {I : Callable F X Y} {S : Mem F} {A : Abs F} (hv : S.var = A.var) {q : Obj F} {l : List F}
    (h : Represents A q l) (x : X) : ∃ f, l.head? = some f ∧ eval I S q x = some (I.call f x) := by
  have hm : ∀ {m : Member F} {f : F}, Means A f m → (match m with
      | .val f => some (I.call f x)
      | .ref a => (S.var a).map fun f => I.call f x) = some (I.call f x) := by
    intro m f hm
    cases m with
    | val g => simp only [Means] at hm; subst hm; rfl
    | ref a => simp only [Means] at hm; simp [hv, hm.1]
  cases q with
  | last m => obtain ⟨f, rfl, h2⟩ := h; exact ⟨f, rfl, hm h2⟩
  | cons m o => obtain ⟨f, l', rfl, h2, -⟩ := h; exact ⟨f, rfl, hm h2⟩

theorem construct_make {A B : Abs F} (hB : B.var = A.var) : ∀ (fs : List (Arg F)) (f : Arg F) {l : List F}, A.gets (f :: fs) = some l →
    (∀ a ∈ names (f :: fs), a ∈ B.used) → Represents B (construct (deduced f) (fs.map deduced)) l
  | fs, f, l, h, hu => by
    rw [Abs.gets] at h
    rcases h1 : A.get f with _ | g
    · rw [h1] at h; simp at h
    · rw [h1, Option.bind_some] at h
      rcases h2 : A.gets fs with _ | l'
      · rw [h2] at h; simp at h
      · rw [h2, Option.map_some] at h
        injection h with h
        subst h
        have hm : Means B g (deduced f) := by
          cases f with
          | lvalue a => exact ⟨by rw [hB]; exact h1, hu a (by simp [names])⟩
          | rvalue f => simp only [Abs.get, Option.some.injEq] at h1; exact h1
        have hu' : ∀ a ∈ names fs, a ∈ B.used := by
          intro a ha
          cases f with
          | lvalue b => exact hu a (by simp [names, ha])
          | rvalue f => exact hu a (by simp [names, ha])
        match fs with
        | [] =>
          simp only [Abs.gets, Option.some.injEq] at h2
          subst h2
          exact ⟨g, rfl, hm⟩
        | f' :: fs' => exact ⟨g, l', rfl, hm, construct_make hB fs' f' h2 hu'⟩

theorem construct_ctor {S : Mem F} {A : Abs F} (hv : S.var = A.var) : ∀ (fs : List (Arg F)) (f : Arg F) {l : List F},
    A.gets (f :: fs) = some l → ∃ m ms, byValue S f = some m ∧ initAll (byValue S) fs = some ms ∧ Represents A (construct m ms) l
  | fs, f, l, h => by
    rw [Abs.gets] at h
    rcases h1 : A.get f with _ | g
    · rw [h1] at h; simp at h
    · rw [h1, Option.bind_some] at h
      rcases h2 : A.gets fs with _ | l'
      · rw [h2] at h; simp at h
      · rw [h2, Option.map_some] at h
        injection h with h
        subst h
        have hm : byValue S f = some (.val g) := by
          cases f with
          | lvalue a => simp only [Abs.get] at h1; simp [byValue, hv, h1]
          | rvalue f => simp only [Abs.get, Option.some.injEq] at h1; simp [byValue, h1]
        match fs with
        | [] =>
          simp only [Abs.gets, Option.some.injEq] at h2
          subst h2
          exact ⟨_, [], hm, rfl, g, rfl, rfl⟩
        | f' :: fs' =>
          obtain ⟨m, ms, h3, h4, h5⟩ := construct_ctor hv fs' f' h2
          exact ⟨_, m :: ms, hm, by simp [initAll, h3, h4], g, l', rfl, rfl, h5⟩

theorem inv_obj {S : Mem F} {A B : Abs F} (h : Inv S A) (hB : B.var = A.var) (hu : ∀ a ∈ A.used, a ∈ B.used) {o : Nat} {l : List F} {q : Obj F}
    (hf : B.fn = update A.fn o (some l)) (hq : Represents B q l) : Inv { S with obj := update S.obj o (some q) } B := by
  refine ⟨by rw [hB]; exact h.var, ?_⟩
  intro p l' hp
  rw [hf] at hp
  by_cases hpo : p = o
  · subst hpo
    simp only [update_self, Option.some.injEq] at hp
    subst hp
    exact ⟨q, by simp, hq⟩
  · rw [update_of_ne hpo] at hp
    obtain ⟨q', h1, h2⟩ := h.some p l' hp
    exact ⟨q', by simp [hpo, h1], h2.mono (fun a _ => by rw [hB]) hu⟩

theorem exec_inv {I : Callable F X Y} {S : Mem F} {A : Abs F} (h : Inv S A) (c : Cmd F X) {r : Abs F × List (Obs Y)}
    (hr : direct I false A c = some r) : ∃ S', exec I S c = some (S', r.2) ∧ Inv S' r.1 := by
  have hvar : ∀ (a : Nat) (x : Option F), a ∉ A.used → Inv { S with var := update S.var a x } { A with var := update A.var a x } := by
    intro a x ha
    refine ⟨by simp [h.var], ?_⟩
    intro o l ho
    obtain ⟨q, h1, h2⟩ := h.some o l ho
    refine ⟨q, h1, Represents.mono (A := A) (B := { A with var := update A.var a x }) ?_ (fun _ hb => hb) h2⟩
    intro b hb
    have : b ≠ a := by rintro rfl; exact ha hb
    simp [this]
  cases c with
  | new a f =>
    simp only [direct] at hr
    split at hr
    · rename_i ha
      injection hr with hr; subst hr
      refine ⟨_, rfl, ⟨by simp [h.var], ?_⟩⟩
      intro o l ho
      obtain ⟨q, h1, h2⟩ := h.some o l ho
      refine ⟨q, h1, ?_⟩
      clear h1 ho
      have key : ∀ (q : Obj F) (l : List F), Represents A q l → Represents { A with var := update A.var a (some f) } q l := by
        have hm : ∀ (m : Member F) (g : F), Means A g m → Means { A with var := update A.var a (some f) } g m := by
          intro m g hm
          cases m with
          | val _ => exact hm
          | ref b =>
            have : b ≠ a := by
              rintro rfl
              have h1 := hm.1
              rw [ha] at h1
              exact absurd h1 (by simp)
            exact ⟨by simp [this, hm.1], hm.2⟩
        intro q
        induction q with
        | last m => intro l ⟨g, h1, h2⟩; exact ⟨g, h1, hm m g h2⟩
        | cons m o ih => intro l ⟨g, l', h1, h2, h3⟩; exact ⟨g, l', h1, hm m g h2, ih l' h3⟩
      exact key q l h2
    · simp at hr
  | assign a f =>
    simp only [direct] at hr
    split at hr
    · simp at hr
    · rename_i ha
      simp only [not_or, not_and] at ha
      injection hr with hr; subst hr
      obtain ⟨g, hg⟩ := Option.ne_none_iff_exists'.mp ha.1
      exact ⟨_, by simp [exec, h.var, hg], hvar a _ (ha.2 trivial)⟩
  | destroy a =>
    simp only [direct] at hr
    split at hr
    · simp at hr
    · rename_i ha
      simp only [not_or, not_and] at ha
      injection hr with hr; subst hr
      obtain ⟨g, hg⟩ := Option.ne_none_iff_exists'.mp ha.1
      exact ⟨_, by simp [exec, h.var, hg], hvar a _ (ha.2 trivial)⟩
  | make o f fs =>
    simp only [direct] at hr
    rcases hl : A.gets (f :: fs) with _ | l
    · rw [hl] at hr; simp at hr
    · rw [hl, Option.map_some] at hr
      injection hr with hr; subst hr
      refine ⟨_, rfl, inv_obj (B := { A with fn := update A.fn o (some l), used := names (f :: fs) ++ A.used }) h rfl
        (fun a ha => List.mem_append_right _ ha) rfl ?_⟩
      exact construct_make (A := A) (B := { A with fn := update A.fn o (some l), used := names (f :: fs) ++ A.used }) rfl fs f hl (fun a ha => List.mem_append_left _ ha)
  | ctor o f fs =>
    simp only [direct] at hr
    rcases hl : A.gets (f :: fs) with _ | l
    · rw [hl] at hr; simp at hr
    · rw [hl, Option.map_some] at hr
      injection hr with hr; subst hr
      obtain ⟨m, ms, h1, h2, h3⟩ := construct_ctor h.var fs f hl
      exact ⟨{ S with obj := update S.obj o (some (construct m ms)) }, by simp [exec, h1, h2],
        inv_obj (B := { A with fn := update A.fn o (some l) }) h rfl (fun a ha => ha) rfl (h3.mono (A := A) (B := { A with fn := update A.fn o (some l) }) (fun _ _ => rfl) fun _ ha => ha)⟩
  | copy o p =>
    simp only [direct] at hr
    rcases hl : A.fn p with _ | l
    · rw [hl] at hr; simp at hr
    · rw [hl, Option.map_some] at hr
      injection hr with hr; subst hr
      obtain ⟨q, h1, h2⟩ := h.some p l hl
      exact ⟨{ S with obj := update S.obj o (some q) }, by simp [exec, h1],
        inv_obj (B := { A with fn := update A.fn o (some l) }) h rfl (fun a ha => ha) rfl (h2.mono (A := A) (B := { A with fn := update A.fn o (some l) }) (fun _ _ => rfl) fun _ ha => ha)⟩
  | derivative o p =>
    simp only [direct] at hr
    rcases hl : A.fn p with _ | l
    · rw [hl] at hr; simp at hr
    · rw [hl, Option.map_some] at hr
      injection hr with hr; subst hr
      obtain ⟨q, h1, h2⟩ := h.some p l hl
      obtain ⟨h3, h4⟩ := represents_length h2
      rcases hd : derivative q with _ | d
      · rw [if_neg (h3.mp hd)]
        exact ⟨S, by simp [exec, h1, hd], h⟩
      · have : 2 ≤ l.length := by
          by_contra hc
          rw [h3.mpr hc] at hd
          simp at hd
        rw [if_pos this]
        exact ⟨{ S with obj := update S.obj o (some d) }, by simp [exec, h1, hd],
          inv_obj (B := { A with fn := update A.fn o (some l.tail) }) h rfl (fun a ha => ha) rfl
            ((h4 d hd).mono (A := A) (B := { A with fn := update A.fn o (some l.tail) }) (fun _ _ => rfl) fun _ ha => ha)⟩
  | drop o =>
    simp only [direct] at hr
    rcases hl : A.fn o with _ | l
    · rw [hl] at hr; simp at hr
    · rw [hl, Option.map_some] at hr
      injection hr with hr; subst hr
      obtain ⟨q, h1, h2⟩ := h.some o l hl
      refine ⟨{ S with obj := update S.obj o none }, by simp [exec, h1], ⟨h.var, ?_⟩⟩
      intro p l' hp
      by_cases hpo : p = o
      · subst hpo; simp at hp
      · simp only [update_of_ne hpo] at hp ⊢
        obtain ⟨q', h3, h4⟩ := h.some p l' hp
        exact ⟨q', h3, Represents.mono (A := A) (B := { A with fn := update A.fn o none }) (fun _ _ => rfl) (fun _ ha => ha) h4⟩
  | call o x =>
    simp only [direct] at hr
    rcases hl : A.fn o with _ | l
    · rw [hl] at hr; simp at hr
    · rw [hl, Option.bind_some] at hr
      obtain ⟨q, h1, h2⟩ := h.some o l hl
      obtain ⟨f, h3, h4⟩ := eval_represents (I := I) h.var h2 x
      rw [h3, Option.map_some] at hr
      injection hr with hr; subst hr
      exact ⟨S, by simp [exec, h1, h4], h⟩

theorem execs_inv {I : Callable F X Y} : ∀ (cs : List (Cmd F X)) {S : Mem F} {A : Abs F}, Inv S A → ∀ {r : Abs F × List (Obs Y)},
    directs I false A cs = some r → ∃ S', execs I S cs = some (S', r.2) ∧ Inv S' r.1
  | [], S, A, h, r, hr => by injection hr with hr; subst hr; exact ⟨S, rfl, h⟩
  | c :: cs, S, A, h, r, hr => by
    rw [directs] at hr
    rcases h1 : direct I false A c with _ | r1
    · rw [h1] at hr; simp at hr
    · rw [h1, Option.bind_some] at hr
      obtain ⟨S1, h2, h3⟩ := exec_inv h c h1
      rcases h4 : directs I false r1.1 cs with _ | r2
      · rw [h4] at hr; simp at hr
      · rw [h4] at hr
        injection hr with hr; subst hr
        obtain ⟨S2, h5, h6⟩ := execs_inv cs h3 h4
        exact ⟨S2, by simp [execs, h2, h5], h6⟩

/-! ## Theorems -/

/-- C71: programs observe what the documentation promises: an object behaves like the list of copies of the callables; the
function evaluates the first one, the k-th derivative the one with number k, further derivatives throw `NotImplemented`. This is shown
for all programs in which variables passed to `makeDifferentiableFunctionFromCallables` are not changed or destroyed later. Objects
created by the constructor of the class with object types, or from temporaries, need no such condition. -/
theorem C71_partial (I : Callable F X Y) (cs : List (Cmd F X)) {A : Abs F} {obs : List (Obs Y)}
    (h : directs I false Abs.init cs = some (A, obs)) : ∃ S, execs I Mem.init cs = some (S, obs) := by
  obtain ⟨S, h1, -⟩ := execs_inv cs (S := Mem.init) (A := Abs.init) ⟨rfl, by simp [Abs.init]⟩ h
  exact ⟨S, h1⟩

/-- `auto o0 = makeDifferentiableFunctionFromCallables(tag, fs...); auto o1 = derivative(o0); ...; auto ok = derivative(o(k-1));` -/
def chain (f : F) (fs : List F) (k : Nat) : List (Cmd F X) :=
  .make 0 (.rvalue f) (fs.map .rvalue) :: (List.range k).map fun i => .derivative (i + 1) i

theorem directs_append {I : Callable F X Y} {b : Bool} : ∀ (p q : List (Cmd F X)) (A : Abs F), directs I b A (p ++ q) =
    (directs I b A p).bind fun r => (directs I b r.1 q).map fun r' => (r'.1, r.2 ++ r'.2)
  | [], q, A => by rcases h : directs I b A q with _ | r <;> simp [directs, h]
  | c :: p, q, A => by
    rw [List.cons_append, directs, directs]
    rcases h1 : direct I b A c with _ | r1
    · rfl
    · rw [Option.bind_some, Option.bind_some, directs_append p q]
      rcases h2 : directs I b r1.1 p with _ | r2
      · rfl
      · rcases h3 : directs I b r2.1 q with _ | r3 <;> simp [h3]

theorem gets_rvalue (A : Abs F) : ∀ fs : List F, A.gets (fs.map .rvalue) = some fs
  | [] => rfl
  | f :: fs => by simp [Abs.gets, Abs.get, gets_rvalue A fs]

theorem names_rvalue : ∀ fs : List F, names (fs.map .rvalue) = []
  | [] => rfl
  | f :: fs => by simp [names, names_rvalue fs]

theorem chain_direct (I : Callable F X Y) (f : F) (fs : List F) : ∀ k ≤ fs.length, directs I false Abs.init (chain f fs k) =
    some (⟨fun _ => none, fun i => if i ≤ k then some ((f :: fs).drop i) else none, []⟩, [])
  | 0, _ => by
    have hg : Abs.gets (Abs.init : Abs F) (.rvalue f :: fs.map .rvalue) = some (f :: fs) := gets_rvalue _ (f :: fs)
    simp only [chain, List.range_zero, List.map_nil, directs, direct, hg, Option.map_some, Option.bind_some, List.append_nil]
    congr 2
    simp only [Abs.init, names, names_rvalue, Abs.mk.injEq, true_and, List.append_nil, and_true]
    funext i
    by_cases h : i = 0
    · subst h; simp
    · simp [h]
  | k + 1, hk => by
    have ih := chain_direct I f fs k (by omega)
    have : chain (X := X) f fs (k + 1) = chain f fs k ++ [.derivative (k + 1) k] := by
      simp [chain, List.range_succ]
    rw [this, directs_append, ih]
    simp only [Option.bind_some, directs, direct]
    rw [if_pos (Nat.le_refl k)]
    simp only [Option.map_some, Option.bind_some, List.append_nil]
    rw [if_pos (by simp; omega)]
    congr 2
    simp only [Abs.mk.injEq, true_and, and_true]
    funext i
    by_cases h1 : i = k + 1
    · subst h1; simp
    · by_cases h2 : i ≤ k
      · simp [h1, h2, show i ≤ k + 1 by omega]
      · simp [h1, h2, show ¬ i ≤ k + 1 by omega]

/-- C71, derivatives: for temporaries the k-th derivative evaluates the callable with number k; the derivative of the last one throws. -/
theorem C71_chain (I : Callable F X Y) (f : F) (fs : List F) (x : X) :
    (∀ k (hk : k < (f :: fs).length), ∃ S, execs I Mem.init (chain f fs k ++ [.call k x]) = some (S, [.value (I.call (f :: fs)[k] x)])) ∧
    ∃ S, execs I Mem.init (chain f fs fs.length ++ [.derivative (fs.length + 1) fs.length]) = some (S, [.notImplemented]) := by
  constructor
  · intro k hk
    apply C71_partial (A := ⟨fun _ => none, fun i => if i ≤ k then some ((f :: fs).drop i) else none, []⟩)
    rw [directs_append, chain_direct I f fs k (by simpa using Nat.lt_succ_iff.mp hk)]
    simp only [Option.bind_some, directs, direct]
    rw [if_pos (Nat.le_refl k)]
    have : ((f :: fs).drop k).head? = some ((f :: fs)[k]) := by
      rw [List.head?_drop, List.getElem?_eq_getElem hk]
    simp only [Option.bind_some, this, Option.map_some, List.append_nil, List.nil_append]
  · apply C71_partial (A := ⟨fun _ => none, fun i => if i ≤ fs.length then some ((f :: fs).drop i) else none, []⟩)
    rw [directs_append, chain_direct I f fs fs.length (Nat.le_refl _)]
    simp only [Option.bind_some, directs, direct]
    rw [if_pos (Nat.le_refl _)]
    simp only [Option.map_some, Option.bind_some, List.append_nil]
    rw [if_neg (by simp)]
    rfl

/-! ## Counterexamples and examples -/

/-- Linear functions. -/
def exI : Callable Int Int Int := ⟨fun a x => a * x⟩

def exProg : List (Cmd Int Int) := [.new 0 2, .new 1 3, .make 0 (.lvalue 0) [.lvalue 1, .rvalue 5], .call 0 10, .derivative 1 0, .call 1 10,
  .derivative 2 1, .call 2 10, .derivative 3 2, .new 2 7, .ctor 3 (.lvalue 2) [.lvalue 0], .assign 2 8, .call 3 1, .destroy 2, .call 3 1,
  .copy 4 1, .drop 1, .call 4 10]

example : (directs exI false Abs.init exProg).map (fun r => r.2) = some [.value 20, .value 30, .value 50, .notImplemented,
    .value 7, .value 7, .value 30] := by decide

example := C71_partial exI exProg rfl

example (x : Int) := C71_chain exI 1 [2, 3] x

example : ((execs exI Mem.init (chain 1 [2, 3] 2 ++ [.call 2 10])).map fun r => r.2) = some [.value 30] := by decide

/-- The full claim, without the condition on variables, is false: variables are not copied. Changing a variable after it was passed to
`makeDifferentiableFunctionFromCallables` changes the function, and the function dangles if the variable does not exist any more. -/
theorem C71_reference_false :
    ((directs exI true Abs.init [.new 0 2, .make 0 (.lvalue 0) [], .assign 0 3, .call 0 1]).map fun r => r.2) = some [.value 2] ∧
    ((execs exI Mem.init [.new 0 2, .make 0 (.lvalue 0) [], .assign 0 3, .call 0 1]).map fun r => r.2) = some [.value 3] ∧
    ((directs exI true Abs.init [.new 0 2, .make 0 (.lvalue 0) [], .destroy 0, .call 0 1]).map fun r => r.2) = some [.value 2] ∧
    execs exI Mem.init [.new 0 2, .make 0 (.lvalue 0) [], .destroy 0, .call 0 1] = none := ⟨by decide, by decide, by decide, rfl⟩

end Verif.Callables
