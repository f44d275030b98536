import Verif.FE.Hermite
import Verif.FE.Argyris
import Verif.FE.Morley
import Verif.BSpline.Model

/-!
# Copies of local finite elements

The Hermite, Morley, Argyris and B-spline elements have members that point to other members. An object has an address; copy construction, copy
assignment, binding and destruction of any number of objects are interleaved in any order.
-/

namespace Verif.FE.Copies

/-! ## Model -/

/-- What the classes have in common. -/
structure Family where
  /-- The data of a grid element which `bind` uses. -/
  Elem : Type
  /-- The members of a bound object that are not pointers. -/
  State : Type
  /-- `bind`, given the members of the object if it was bound before. -/
  bind : Option State → Elem → Option State
  /-- The members of a copy constructed object; `none` if they are not initialized. -/
  copied : State → Option State
  /-- The interpolation has a pointer to the mesh sizes of the finite element. -/
  pointer : Bool
  /-- What the interpolation sees: its own members and those behind its pointer. -/
  seen : State → State → State

/-- A finite element object. `basis` is the address to which `feImpl_` (transformedfiniteelementmixin.hh:107) or `lFE_` (bsplinebasis.hh:162)
of the local basis points, `mesh` the address of the object with the array to which `averageVertexMeshSize_` of the interpolation points
(cubichermitebasis.hh:499, argyrisbasis.hh:546). -/
structure Obj (State : Type) where
  state : Option State
  basis : Nat
  mesh : Option Nat

/-- Objects by address. -/
abbrev Heap (F : Family) := Nat → Option (Obj F.State)

inductive Op (Elem : Type)
  | create (a : Nat)
  | bind (a : Nat) (e : Elem)
  /-- A new object `b`, copy constructed from `a`. -/
  | copy (a b : Nat)
  /-- `b = a`. -/
  | assign (a b : Nat)
  | destroy (a : Nat)

/-- One operation. Using an object that does not exist, or constructing an object where one exists, is `none`. -/
def step (F : Family) (H : Heap F) : Op F.Elem → Option (Heap F)
  /- transformedfiniteelementmixin.hh:150-152, bsplinebasis.hh:383-386. -/
  | .create a => match H a with
    | none => some (Function.update H a (some ⟨none, a, none⟩))
    | some _ => none
  /- cubichermitebasis.hh:572-590, morleybasis.hh:404-410, argyrisbasis.hh:615-689, bsplinebasis.hh:401-430. -/
  | .bind a e => (H a).bind fun o => (F.bind o.state e).map fun s => Function.update H a (some ⟨some s, o.basis, some a⟩)
  /- The copy constructor of the mixin (transformedfiniteelementmixin.hh:154-156) and the implicit one of the derived class, which copies all other members;
  bsplinebasis.hh:390-393. -/
  | .copy a b => (H a).bind fun o => match H b with
    | none => some (Function.update H b (some ⟨o.state.bind F.copied, b, o.mesh⟩))
    | some _ => none
  /- The implicit copy assignment copies all members, also the pointer of the local basis. -/
  | .assign a b => (H a).bind fun o => (H b).map fun _ => Function.update H b (some o)
  | .destroy a => (H a).map fun _ => Function.update H a none

/-- A program. -/
def run (F : Family) : List (Op F.Elem) → Heap F → Option (Heap F)
  | [], H => some H
  | op :: ops, H => (step F H op).bind (run F ops)

/-- The members used by `fe.localBasis()`; `none` if they are not initialized or the object behind the pointer does not exist. -/
def basisState {F : Family} (H : Heap F) (a : Nat) : Option F.State := (H a).bind fun o => (H o.basis).bind fun p => p.state

/-- The members used by `fe.localInterpolation()`. -/
def interpolationState {F : Family} (H : Heap F) (a : Nat) : Option F.State :=
  (H a).bind fun o => o.state.bind fun own =>
    if F.pointer then o.mesh.bind fun m => (H m).bind fun p => p.state.map (F.seen own) else some (F.seen own own)

/-- The Hermite element. -/
def hermite (K : Type) [Field K] (dim : Nat) : Family where
  Elem := List K × (Fin (dim + 1) → Nat) × ((Fin dim → K) → Matrix (Fin dim) (Fin dim) K)
  State := Hermite.Bound K dim
  bind := fun _ e => Hermite.bind e.1 e.2.1 e.2.2
  copied := some
  pointer := true
  seen := fun own p => ⟨p.meshSize, own.scaledJacobian⟩

/-- The Morley element: its interpolation has copies of everything. -/
noncomputable def morley : Family where
  Elem := Triangle.Affine × (Nat → Bool)
  State := Morley.Bound
  bind := fun s e => some (Morley.bind (s.getD Morley.fresh) e.1 e.2)
  copied := some
  pointer := false
  seen := fun own _ => own

/-- The Argyris element: the interpolation has its own normals and a pointer to the mesh sizes. -/
noncomputable def argyris : Family where
  Elem := List ℝ × (Nat → Nat) × List (Nat → Bool) × Nat × Triangle.Affine
  State := Argyris.Bound
  bind := fun _ e => Argyris.bind e.1 e.2.1 e.2.2.1 e.2.2.2.1 e.2.2.2.2
  copied := some
  pointer := true
  seen := fun own p => { own with h := p.h }

/-- The B-spline element: the copy constructor initializes the two references only. The state is the knot span in each direction. The interpolation has no
state. -/
def bspline {K : Type} [Field K] [LinearOrder K] (dirs : List (BSpline.Dir K)) : Family where
  Elem := List Nat
  State := List Nat
  bind := fun _ ijk => (dirs.zip ijk).mapM fun x => BSpline.spanOf x.1 x.2
  copied := fun _ => none
  pointer := false
  seen := fun own _ => own

/-! ## Specification -/

/-- An object which is bound to one element after the other and never copied. -/
def bindList (F : Family) (es : List F.Elem) : Option F.State :=
  es.foldl (fun s e => s.bind fun s => (F.bind s e).map some) (some none) |>.bind id

/-- The element to which object `a` is bound after a program, in the sense of a user: copies are bound to the element of the original. -/
def elementOf {Elem : Type} (ops : List (Op Elem)) : Nat → Option Elem :=
  ops.foldl (fun f op => match op with
    | .create a => Function.update f a none
    | .bind a e => Function.update f a (some e)
    | .copy a b => Function.update f b (f a)
    | .assign a b => Function.update f b (f a)
    | .destroy a => Function.update f a none) fun _ => none

/-- The last operation that changed `a` was `bind`. -/
def boundItself {Elem : Type} (ops : List (Op Elem)) : Nat → Bool :=
  ops.foldl (fun f op => match op with
    | .create a => Function.update f a false
    | .bind a _ => Function.update f a true
    | .copy _ b => Function.update f b false
    | .assign _ b => Function.update f b false
    | .destroy a => Function.update f a false) fun _ => false

/-- There is no copy assignment in the program. -/
def NoAssign {Elem : Type} (ops : List (Op Elem)) : Prop := ∀ op ∈ ops, ∀ a b, op ≠ .assign a b

/-! ## Proofs -/

theorem run_append (F : Family) (ops ops' : List (Op F.Elem)) (H : Heap F) : run F (ops ++ ops') H = (run F ops H).bind (run F ops') := by
  induction ops generalizing H with
  | nil => rfl
  | cons op ops ih =>
    simp only [List.cons_append, run]
    cases step F H op <;> simp [ih]

theorem bindList_snoc (F : Family) (es : List F.Elem) (e : F.Elem) (s : Option F.State)
    (hs : es.foldl (fun s e => s.bind fun s => (F.bind s e).map some) (some none) = some s) :
    (es ++ [e]).foldl (fun s e => s.bind fun s => (F.bind s e).map some) (some none) = (F.bind s e).map some := by
  rw [List.foldl_append, hs]
  rfl

/-- What holds for every object after a program without copy assignments. -/
structure Good (F : Family) (el : Nat → Option F.Elem) (own : Nat → Bool) (a : Nat) (o : Obj F.State) : Prop where
  basis : o.basis = a
  state : (∀ s, F.copied s = some s) → ∃ es, es.foldl (fun s e => s.bind fun s => (F.bind s e).map some) (some none) = some o.state ∧
    es.getLast? = el a ∧ (o.state = none → es = [])
  mesh : own a = true → o.mesh = some a ∧ ∃ e prev s, el a = some e ∧ F.bind prev e = some s ∧ o.state = some s

theorem invariant (F : Family) (ops : List (Op F.Elem)) (hn : NoAssign ops) {H : Heap F}
    (hr : run F ops (fun _ => none) = some H) (a : Nat) (o : Obj F.State) (ho : H a = some o) : Good F (elementOf ops) (boundItself ops) a o := by
  induction ops using List.reverseRecOn generalizing H a o with
  | nil =>
    simp only [run, Option.some.injEq] at hr
    subst hr
    simp at ho
  | append_singleton ops op ih =>
    rw [run_append] at hr
    obtain ⟨H', h1, h2⟩ := Option.bind_eq_some_iff.1 hr
    have ih := fun a o => ih (fun x hx => hn x (List.mem_append_left _ hx)) h1 a o
    simp only [run] at h2
    have h2 : step F H' op = some H := by
      obtain ⟨H'', h3, h4⟩ := Option.bind_eq_some_iff.1 h2
      simp only [Option.some.injEq] at h4
      rw [h3, h4]
    have keep : ∀ b, (∀ x, elementOf (ops ++ [op]) x = if x = b then elementOf (ops ++ [op]) b else elementOf ops x) →
        (∀ x, boundItself (ops ++ [op]) x = if x = b then boundItself (ops ++ [op]) b else boundItself ops x) → a ≠ b → H' a = some o →
        Good F (elementOf (ops ++ [op])) (boundItself (ops ++ [op])) a o := by
      intro b e1 e2 hab ho'
      obtain ⟨g1, g2, g3⟩ := ih a o ho'
      refine ⟨g1, ?_, ?_⟩
      · rw [e1, if_neg hab]
        exact g2
      · rw [e1, e2, if_neg hab, if_neg hab]
        exact g3
    cases op with
    | create b =>
      have e1 : elementOf (ops ++ [.create b]) = Function.update (elementOf ops) b none := by rw [elementOf, List.foldl_append]; rfl
      have e2 : boundItself (ops ++ [.create b]) = Function.update (boundItself ops) b false := by rw [boundItself, List.foldl_append]; rfl
      simp only [step] at h2
      split at h2 <;> simp only [Option.some.injEq, reduceCtorEq] at h2
      subst h2
      by_cases hab : a = b
      · subst hab
        rw [Function.update_self, Option.some.injEq] at ho
        subst ho
        exact ⟨rfl, fun _ => ⟨[], rfl, by rw [e1]; simp, fun _ => rfl⟩, by rw [e2]; simp⟩
      · rw [Function.update_of_ne hab] at ho
        exact keep b (fun x => by rw [e1]; simp [Function.update_apply]) (fun x => by rw [e2]; simp [Function.update_apply]) hab ho
    | bind b e =>
      have e1 : elementOf (ops ++ [.bind b e]) = Function.update (elementOf ops) b (some e) := by rw [elementOf, List.foldl_append]; rfl
      have e2 : boundItself (ops ++ [.bind b e]) = Function.update (boundItself ops) b true := by rw [boundItself, List.foldl_append]; rfl
      simp only [step] at h2
      obtain ⟨p, hp, h2⟩ := Option.bind_eq_some_iff.1 h2
      obtain ⟨s, hs, h2⟩ := Option.map_eq_some_iff.1 h2
      subst h2
      by_cases hab : a = b
      · subst hab
        rw [Function.update_self, Option.some.injEq] at ho
        subst ho
        obtain ⟨g1, g2, -⟩ := ih a p hp
        refine ⟨g1, fun hc => ?_, fun _ => ⟨rfl, e, p.state, s, by rw [e1]; simp, hs, rfl⟩⟩
        obtain ⟨es, g2, -, -⟩ := g2 hc
        refine ⟨es ++ [e], ?_, by rw [e1]; simp, by simp⟩
        rw [bindList_snoc F es e p.state g2, hs]
        rfl
      · rw [Function.update_of_ne hab] at ho
        exact keep b (fun x => by rw [e1]; simp [Function.update_apply]) (fun x => by rw [e2]; simp [Function.update_apply]) hab ho
    | copy c b =>
      have e1 : elementOf (ops ++ [.copy c b]) = Function.update (elementOf ops) b (elementOf ops c) := by
        rw [elementOf, List.foldl_append]; rfl
      have e2 : boundItself (ops ++ [.copy c b]) = Function.update (boundItself ops) b false := by rw [boundItself, List.foldl_append]; rfl
      simp only [step] at h2
      obtain ⟨p, hp, h2⟩ := Option.bind_eq_some_iff.1 h2
      split at h2 <;> simp only [Option.some.injEq, reduceCtorEq] at h2
      subst h2
      by_cases hab : a = b
      · subst hab
        rw [Function.update_self, Option.some.injEq] at ho
        subst ho
        refine ⟨rfl, fun hc => ?_, by rw [e2]; simp⟩
        obtain ⟨es, g2, g3, g4⟩ := (ih c p hp).state hc
        have : p.state.bind F.copied = p.state := by cases p.state <;> simp [hc]
        rw [this]
        exact ⟨es, g2, by rw [e1, Function.update_self]; exact g3, g4⟩
      · rw [Function.update_of_ne hab] at ho
        exact keep b (fun x => by rw [e1]; simp [Function.update_apply]) (fun x => by rw [e2]; simp [Function.update_apply]) hab ho
    | assign c b => exact absurd rfl (hn (.assign c b) (by simp) c b)
    | destroy b =>
      have e1 : elementOf (ops ++ [.destroy b]) = Function.update (elementOf ops) b none := by rw [elementOf, List.foldl_append]; rfl
      have e2 : boundItself (ops ++ [.destroy b]) = Function.update (boundItself ops) b false := by rw [boundItself, List.foldl_append]; rfl
      simp only [step] at h2
      obtain ⟨p, hp, h2⟩ := Option.map_eq_some_iff.1 h2
      subst h2
      by_cases hab : a = b
      · subst hab
        simp at ho
      · rw [Function.update_of_ne hab] at ho
        exact keep b (fun x => by rw [e1]; simp [Function.update_apply]) (fun x => by rw [e2]; simp [Function.update_apply]) hab ho

/-- An object that is bound to an element exists. -/
theorem exists_object (F : Family) (ops : List (Op F.Elem)) {H : Heap F} (hr : run F ops (fun _ => none) = some H) (a : Nat) {e : F.Elem}
    (he : elementOf ops a = some e) : ∃ o, H a = some o := by
  induction ops using List.reverseRecOn generalizing H a e with
  | nil => simp [elementOf] at he
  | append_singleton ops op ih =>
    rw [run_append] at hr
    obtain ⟨H', h1, h2⟩ := Option.bind_eq_some_iff.1 hr
    have ih := fun a e he => ih h1 a (e := e) he
    simp only [run] at h2
    replace h2 : step F H' op = some H := by
      obtain ⟨H'', h3, h4⟩ := Option.bind_eq_some_iff.1 h2
      simp only [Option.some.injEq] at h4
      rw [h3, h4]
    rw [elementOf, List.foldl_append] at he
    simp only [List.foldl_cons, List.foldl_nil] at he
    rw [← elementOf] at he
    clear hr
    cases op <;> simp only [step] at h2 he
    case create b =>
      split at h2 <;> simp only [Option.some.injEq, reduceCtorEq] at h2
      subst h2
      by_cases hab : a = b
      · subst hab; simp
      · rw [Function.update_of_ne hab] at he ⊢
        exact ih a e he
    case bind b x =>
      obtain ⟨p, hp, h2⟩ := Option.bind_eq_some_iff.1 h2
      obtain ⟨s, hs, rfl⟩ := Option.map_eq_some_iff.1 h2
      by_cases hab : a = b
      · subst hab; simp
      · rw [Function.update_of_ne hab] at he ⊢
        exact ih a e he
    case copy c b =>
      obtain ⟨p, hp, h2⟩ := Option.bind_eq_some_iff.1 h2
      split at h2 <;> simp only [Option.some.injEq, reduceCtorEq] at h2
      subst h2
      by_cases hab : a = b
      · subst hab; simp
      · rw [Function.update_of_ne hab] at he ⊢
        exact ih a e he
    case assign c b =>
      obtain ⟨p, hp, h2⟩ := Option.bind_eq_some_iff.1 h2
      obtain ⟨s, hs, rfl⟩ := Option.map_eq_some_iff.1 h2
      by_cases hab : a = b
      · subst hab; simp
      · rw [Function.update_of_ne hab] at he ⊢
        exact ih a e he
    case destroy b =>
      obtain ⟨s, hs, rfl⟩ := Option.map_eq_some_iff.1 h2
      by_cases hab : a = b
      · subst hab
        simp at he
      · rw [Function.update_of_ne hab] at he ⊢
        exact ih a e he

/-! ## Theorems -/

/-- **C66, copy construction.** In a program without copy assignments, the local basis of every object that is bound to `e` (itself, or as copy of an object
bound to `e`) has the members of an object which was never copied and was bound to some elements and finally to `e`, whatever happened to the
other objects. The same holds for the interpolation if the object was bound after it was constructed, and for all objects if the interpolation has no
pointer. -/
theorem C66_partial (F : Family) (hc : ∀ s, F.copied s = some s) (hs : ∀ s, F.seen s s = s) (ops : List (Op F.Elem)) (hn : NoAssign ops)
    {H : Heap F} (hr : run F ops (fun _ => none) = some H) (a : Nat) {e : F.Elem} (he : elementOf ops a = some e) :
    ∃ history s, bindList F (history ++ [e]) = some s ∧ basisState H a = some s ∧
      ((boundItself ops a = true ∨ F.pointer = false) → interpolationState H a = some s) := by
  obtain ⟨o, ho⟩ := exists_object F ops hr a he
  obtain ⟨g1, g2, g5⟩ := invariant F ops hn hr a o ho
  obtain ⟨es, g2, g3, g4⟩ := g2 hc
  rw [he] at g3
  obtain ⟨history, rfl⟩ : ∃ history, es = history ++ [e] := by
    rw [List.getLast?_eq_some_iff] at g3
    exact g3
  obtain ⟨s, hst⟩ : ∃ s, o.state = some s := by
    cases h : o.state with
    | none => exact absurd (g4 h) (by simp)
    | some s => exact ⟨s, rfl⟩
  refine ⟨history, s, ?_, ?_, ?_⟩
  · rw [bindList, g2, hst]
    rfl
  · simp [basisState, ho, g1, hst]
  · rintro (h | h)
    · simp [interpolationState, ho, hst, (g5 h).1, hs]
    · simp [interpolationState, ho, hst, h, hs]

/-- The members of a Hermite, Morley or Argyris element bound to `e` do not depend on previous elements. -/
theorem bindList_hermite {K : Type} [Field K] {dim : Nat} (history : List (hermite K dim).Elem) (e : (hermite K dim).Elem) {s : Hermite.Bound K dim}
    (h : bindList (hermite K dim) (history ++ [e]) = some s) : Hermite.bind e.1 e.2.1 e.2.2 = some s := by
  rw [bindList, List.foldl_append] at h
  obtain ⟨x, h1, h2⟩ := Option.bind_eq_some_iff.1 h
  obtain ⟨y, -, h3⟩ := Option.bind_eq_some_iff.1 (show (List.foldl _ (some none) history).bind _ = some x from h1)
  obtain ⟨z, h4, rfl⟩ := Option.map_eq_some_iff.1 h3
  exact h4.trans h2

theorem bindList_argyris (history : List argyris.Elem) (e : argyris.Elem) {s : Argyris.Bound}
    (h : bindList argyris (history ++ [e]) = some s) : Argyris.bind e.1 e.2.1 e.2.2.1 e.2.2.2.1 e.2.2.2.2 = some s := by
  rw [bindList, List.foldl_append] at h
  obtain ⟨x, h1, h2⟩ := Option.bind_eq_some_iff.1 h
  obtain ⟨y, -, h3⟩ := Option.bind_eq_some_iff.1 (show (List.foldl _ (some none) history).bind _ = some x from h1)
  obtain ⟨z, h4, rfl⟩ := Option.map_eq_some_iff.1 h3
  exact h4.trans h2

theorem bindList_morley (history : List morley.Elem) {s : Morley.Bound} (h : bindList morley history = some s) : s = Morley.bindAll history := by
  have key : ∀ (l : List morley.Elem) (x : Option Morley.Bound), ∃ y, l.foldl (fun s e => s.bind fun s => (morley.bind s e).map some) (some x) = some y ∧
      y.getD Morley.fresh = l.foldl (fun fe b => Morley.bind fe b.1 b.2) (x.getD Morley.fresh) := by
    intro l
    induction l with
    | nil => exact fun x => ⟨x, rfl, rfl⟩
    | cons e l ih =>
      intro x
      obtain ⟨y, h1, h2⟩ := ih (some (Morley.bind (x.getD Morley.fresh) e.1 e.2))
      exact ⟨y, h1, h2⟩
  obtain ⟨y, h1, h2⟩ := key history none
  have h3 : y = some s := by
    have h4 : bindList morley history = y := by
      unfold bindList
      exact congrArg (fun z => z.bind id) h1
    exact h4.symm.trans h
  subst h3
  exact h2

/-- **C66, Morley element.** Without copy assignments all objects bound to `e` evaluate and interpolate like an object that was never copied. -/
theorem C66_morley (ops : List (Op morley.Elem)) (hn : NoAssign ops) {H : Heap morley} (hr : run morley ops (fun _ => none) = some H) (a : Nat)
    {e : morley.Elem} (he : elementOf ops a = some e) :
    ∃ history : List morley.Elem, basisState H a = some (Morley.bindAll (history ++ [e] : List morley.Elem)) ∧ interpolationState H a = some (Morley.bindAll (history ++ [e] : List morley.Elem)) := by
  obtain ⟨history, s, h1, h2, h3⟩ := C66_partial morley (fun _ => rfl) (fun _ => rfl) ops hn hr a he
  obtain rfl := bindList_morley _ h1
  exact ⟨history, h2, h3 (Or.inr rfl)⟩

/-- **C66, Hermite element.** -/
theorem C66_hermite_partial {K : Type} [Field K] {dim : Nat} (ops : List (Op (hermite K dim).Elem)) (hn : NoAssign ops) {H : Heap (hermite K dim)}
    (hr : run (hermite K dim) ops (fun _ => none) = some H) (a : Nat) {e : (hermite K dim).Elem} (he : elementOf ops a = some e) :
    ∃ s, Hermite.bind e.1 e.2.1 e.2.2 = some s ∧ basisState H a = some s ∧ (boundItself ops a = true → interpolationState H a = some s) := by
  obtain ⟨history, s, h1, h2, h3⟩ := C66_partial (hermite K dim) (fun _ => rfl) (fun _ => rfl) ops hn hr a he
  exact ⟨s, bindList_hermite _ _ h1, h2, fun h => h3 (Or.inl h)⟩

/-- **C66, Argyris element.** -/
theorem C66_argyris_partial (ops : List (Op argyris.Elem)) (hn : NoAssign ops) {H : Heap argyris}
    (hr : run argyris ops (fun _ => none) = some H) (a : Nat) {e : argyris.Elem} (he : elementOf ops a = some e) :
    ∃ s, Argyris.bind e.1 e.2.1 e.2.2.1 e.2.2.2.1 e.2.2.2.2 = some s ∧ basisState H a = some s ∧
      (boundItself ops a = true → interpolationState H a = some s) := by
  obtain ⟨history, s, h1, h2, h3⟩ := C66_partial argyris (fun _ => rfl) (fun _ => rfl) ops hn hr a he
  exact ⟨s, bindList_argyris _ _ h1, h2, fun h => h3 (Or.inl h)⟩

/-- **C66, binding copies.** Also if copy construction does not copy the members: an object which was bound after it was constructed has the members set by
this call of `bind`, whatever happened to the other objects. -/
theorem C66_rebound (F : Family) (hs : ∀ s, F.seen s s = s) (ops : List (Op F.Elem)) (hn : NoAssign ops) {H : Heap F}
    (hr : run F ops (fun _ => none) = some H) (a : Nat) {e : F.Elem} (he : elementOf ops a = some e) (hb : boundItself ops a = true) :
    ∃ prev s, F.bind prev e = some s ∧ basisState H a = some s ∧ interpolationState H a = some s := by
  obtain ⟨o, ho⟩ := exists_object F ops hr a he
  obtain ⟨g1, -, g2⟩ := invariant F ops hn hr a o ho
  obtain ⟨g2, e', prev, s, h1, h2, h3⟩ := g2 hb
  obtain rfl : e = e' := Option.some.inj (he.symm.trans h1)
  refine ⟨prev, s, h2, by simp [basisState, ho, g1, h3], ?_⟩
  by_cases hp : F.pointer = true <;> simp [interpolationState, ho, h3, g2, hp, hs]

/-- **C66, B-spline element.** An object that was bound after it was constructed has the knot spans of its element. -/
theorem C66_bspline_partial {K : Type} [Field K] [LinearOrder K] (dirs : List (BSpline.Dir K)) (ops : List (Op (List Nat))) (hn : NoAssign ops)
    {H : Heap (bspline dirs)} (hr : run (bspline dirs) ops (fun _ => none) = some H) (a : Nat) {ijk : List Nat} (he : elementOf ops a = some ijk)
    (hb : boundItself ops a = true) :
    ∃ s : List Nat, (dirs.zip ijk).mapM (fun x => BSpline.spanOf x.1 x.2) = some s ∧ basisState H a = some s := by
  obtain ⟨_, s, h1, h2, -⟩ := C66_rebound (bspline dirs) (fun _ => rfl) ops hn hr a he hb
  exact ⟨s, h1, h2⟩

/-- **C66 is false for the interpolation of copies.** A copy of a bound Hermite or Argyris element uses the mesh sizes of the original: after the original
was destroyed they do not exist, after it was bound to another element they are those of the other element. -/
theorem C66_copy_false (F : Family) (hp : F.pointer = true) (hc : ∀ s, F.copied s = some s) {e e' : F.Elem} {s s' : F.State} (hs : F.bind none e = some s)
    (hs' : F.bind (some s) e' = some s') :
    (∃ H, run F [.create 0, .bind 0 e, .copy 0 1, .destroy 0] (fun _ => none) = some H ∧ interpolationState H 1 = none) ∧
    ∃ H, run F [.create 0, .bind 0 e, .copy 0 1, .bind 0 e'] (fun _ => none) = some H ∧ interpolationState H 1 = some (F.seen s s') := by
  refine ⟨⟨_, by simp [run, step, hs, hc]; rfl, ?_⟩, ⟨_, by simp [run, step, hs, hs', hc]; rfl, ?_⟩⟩
  · simp [interpolationState, hp, Function.update_apply]
  · simp [interpolationState, hp, Function.update_apply]

/-- **C66 is false for copy assignment.** The local basis of the target uses the members of the source: after the source was destroyed they do not exist, after
it was bound to another element they are those of the other element. This holds for the Hermite, Morley and Argyris element. -/
theorem C66_assign_false (F : Family) {e e' : F.Elem} {s s' : F.State} (hs : F.bind none e = some s) (hs' : F.bind (some s) e' = some s') :
    (∃ H, run F [.create 0, .create 1, .bind 0 e, .assign 0 1, .destroy 0] (fun _ => none) = some H ∧ basisState H 1 = none) ∧
    ∃ H, run F [.create 0, .create 1, .bind 0 e, .assign 0 1, .bind 0 e'] (fun _ => none) = some H ∧ basisState H 1 = some s' := by
  refine ⟨⟨_, by simp [run, step, hs]; rfl, ?_⟩, ⟨_, by simp [run, step, hs, hs']; rfl, ?_⟩⟩
  · simp [basisState, Function.update_apply]
  · simp [basisState, Function.update_apply]

/-- **C66 is false for copies of B-spline elements.** The knot spans of a copy are not initialized. -/
theorem C66_bspline_false {K : Type} [Field K] [LinearOrder K] (dirs : List (BSpline.Dir K)) {ijk : List Nat} {s : List Nat}
    (hs : (bspline dirs).bind none ijk = some s) :
    ∃ H, run (bspline dirs) [.create 0, .bind 0 ijk, .copy 0 1] (fun _ => none) = some H ∧ basisState H 0 = some s ∧ basisState H 1 = none := by
  refine ⟨_, by simp [run, step, hs]; rfl, ?_, ?_⟩
  · simp [basisState, Function.update_apply]
    rfl
  · simp [basisState, Function.update_apply, bspline]

/-! ## Examples -/

/-- The unit interval, and an interval of length four, with the mesh sizes at their vertices. -/
def interval (j : ℚ) (v : Nat) : (hermite ℚ 1).Elem := ([2, 3, 5], fun i => v + i, fun _ _ _ => j)

/-- The coefficients of `x` computed by the interpolation of object `a`. -/
def coefficients (ops : List (Op (hermite ℚ 1).Elem)) (a : Nat) : Option (List ℚ) :=
  (run (hermite ℚ 1) ops fun _ => none).bind fun H => (interpolationState H a).bind fun (s : Hermite.Bound ℚ 1) =>
    Hermite.interpolate false s (fun x => x 0) fun _ _ => 1

/-- The values of the shape functions of object `a` at the midpoint. -/
def values (ops : List (Op (hermite ℚ 1).Elem)) (a : Nat) : Option (List ℚ) :=
  (run (hermite ℚ 1) ops fun _ => none).bind fun H => (basisState H a).bind fun (s : Hermite.Bound ℚ 1) => Hermite.evaluateFunction false s ![1 / 2]

/-- C66_hermite_partial: two copies, the second one of them bound again and the original destroyed. -/
example :
    let ops : List (Op (hermite ℚ 1).Elem) :=
      [.create 7, .bind 7 (interval 1 0), .copy 7 3, .copy 3 4, .bind 4 (interval 4 1), .bind 7 (interval 4 1), .destroy 7]
    values ops 3 = values [.create 0, .bind 0 (interval 1 0)] 0 ∧ (values ops 3).isSome ∧
    coefficients ops 4 = coefficients [.create 0, .bind 0 (interval 4 1)] 0 ∧ (coefficients ops 4).isSome := by decide +kernel

/-- C66_copy_false: the coefficients computed by a copy change when the original is bound to another element, and cannot be computed
after the original was destroyed. -/
example : coefficients [.create 0, .bind 0 (interval 1 0), .copy 0 1] 1 = some [0, 2, 1, 3] ∧
    coefficients [.create 0, .bind 0 (interval 1 0), .copy 0 1, .bind 0 (interval 4 1)] 1 = some [0, 3, 1, 5] ∧
    coefficients [.create 0, .bind 0 (interval 1 0), .copy 0 1, .destroy 0] 1 = none := by decide +kernel

/-- C66_assign_false: the shape functions of the target of an assignment change when the source is bound to another element. -/
example : values [.create 0, .create 1, .bind 0 (interval 1 0), .assign 0 1] 1 = some [1 / 2, 1 / 16, 1 / 2, -1 / 24] ∧
    values [.create 0, .create 1, .bind 0 (interval 1 0), .assign 0 1, .bind 0 (interval 4 1)] 1 = some [1 / 2, 1 / 6, 1 / 2, -1 / 10] ∧
    values [.create 0, .create 1, .bind 0 (interval 1 0), .assign 0 1, .destroy 0] 1 = none := by decide +kernel

/-- C66_bspline_false: a bound element; its copy has no knot spans. -/
example : (bspline [⟨2, [0, 0, 0, 1, 2, 2, 2]⟩, (⟨1, [0, 0, 1, 1]⟩ : BSpline.Dir ℚ)]).bind none [1, 0] = some [3, 1] := by
  have : ([(⟨2, [0, 0, 0, 1, 2, 2, 2]⟩, 1), (⟨1, [0, 0, 1, 1]⟩, 0)] : List (BSpline.Dir ℚ × Nat)).mapM (fun x => BSpline.spanOf x.1 x.2) =
      some [3, 1] := by decide +kernel
  exact this

end Verif.FE.Copies
