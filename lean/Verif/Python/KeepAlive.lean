import Mathlib.Tactic.Common
import Mathlib.Logic.Relation

/-!
# Lifetimes of Python objects

The objects of the Python interface contain C++ objects with pointers to other C++ objects that are owned by other Python
objects. `pybind11::keep_alive` makes one Python object hold a reference to another one. Python destroys an object when no
variable and no object holds a reference to it.

Source: dune/python/functions/globalbasis.hh, dune/python/functions/subspacebasis.hh, dune/python/functions/discretefunction.hh.
-/

namespace Verif.PyLife

/-! ## Model -/

/-- Python objects, identified by numbers in the order of creation. Grids, grid views and elements belong to dune-grid: the model assumes that
a grid view object holds a reference to its grid and an element object to its grid view, and that their C++ objects refer to the grid. -/
inductive Obj where
  | grid
  | gridView (grid : Nat)
  | element (gv grid : Nat)
  /-- `GlobalBasis(gridView)`, globalbasis.hh:153 and 258: `gv` is kept alive (`keep_alive<1,2>`); the basis has a copy of the grid view,
  whose grid is `grid` -/
  | basis (gv grid : Nat)
  /-- `SubspaceBasis(rootBasis)`, subspacebasis.hh:32-33 with globalbasis.hh:153; C++ pointer to the root basis -/
  | subspace (b : Nat)
  /-- `basis.localView()`, globalbasis.hh:191; `elem`: the element object in `obj_` (globalbasis.hh:120) and its grid -/
  | view (b : Nat) (elem : Option (Nat × Nat))
  /-- `localView.tree()`, globalbasis.hh:189: shared pointer without ownership -/
  | tree (view : Nat)
  /-- a NumPy array or any other buffer -/
  | buffer
  /-- `basis.asFunction(dofVector)`, globalbasis.hh:248-250, `DiscreteFunction(basis, dofVector)`, discretefunction.hh:46-55 -/
  | function (b v : Nat)
  /-- `function.grid`, discretefunction.hh:79: reference to the grid view inside of the basis -/
  | functionGrid (f b : Nat)
  /-- `GridViewFunction(function)`, globalbasis.hh:243: a copy of the function in C++, no `keep_alive`; the vector is shared and holds
  a reference to the buffer -/
  | gridViewFunction (b v : Nat)
  /-- `basis.gridView`, globalbasis.hh:165: a copy of the grid view, no `keep_alive`; not modelled for subspace bases -/
  | gridViewCopy (grid : Nat)
  deriving DecidableEq

/-- Python references held by an object, apart from those added by `function.basis`. -/
def Obj.keeps : Obj → List Nat
  | .grid => []
  | .gridView g => [g]
  | .element gv _ => [gv]
  | .basis gv _ => [gv]
  | .subspace b => [b]
  | .view b none => [b]
  | .view b (some (e, _)) => [b, e]
  | .tree _ => []
  | .buffer => []
  | .function b v => [b, v]
  | .functionGrid f _ => [f]
  | .gridViewFunction _ v => [v]
  | .gridViewCopy _ => []

/-- Objects whose C++ parts are accessed by pointers when the object is used. -/
def Obj.pointers : Obj → List Nat
  | .grid => []
  | .gridView g => [g]
  | .element _ g => [g]
  | .basis _ g => [g]
  | .subspace b => [b]
  | .view b none => [b]
  | .view b (some (_, g)) => [b, g]
  | .tree v => [v]
  | .buffer => []
  | .function b v => [b, v]
  | .functionGrid _ b => [b]
  | .gridViewFunction b v => [b, v]
  | .gridViewCopy g => [g]

/-- `patients`: references added by `keep_alive<0,1>` of `function.basis` (discretefunction.hh:78), from the basis to the function.
`leaked`: references without holder. -/
structure Mem where
  obj : Nat → Option Obj
  next : Nat
  vars : Nat → Option Nat
  patients : List (Nat × Nat)
  leaked : List Nat

def Mem.empty : Mem := ⟨fun _ => none, 0, fun _ => none, [], []⟩

def Mem.set (M : Mem) (n : Nat) (o : Option Obj) : Mem := { M with obj := fun m => if m = n then o else M.obj m }

/-- `x = <new object>` -/
def Mem.create (M : Mem) (x : Nat) (o : Obj) : Mem :=
  { M with obj := fun m => if m = M.next then some o else M.obj m, next := M.next + 1,
           vars := fun y => if y = x then some M.next else M.vars y }

inductive Stmt where
  | grid (x : Nat)
  | gridView (x y : Nat)
  | element (x y : Nat)
  /-- `x = GlobalBasis(y)` -/
  | basis (x y : Nat)
  /-- `x = SubspaceBasis(y)` -/
  | subspace (x y : Nat)
  | localView (x y : Nat)
  | buffer (x : Nat)
  /-- `x = y.asFunction(z)` -/
  | asFunction (x y z : Nat)
  /-- `x.bind(y)` -/
  | bind (x y : Nat)
  | unbind (x : Nat)
  /-- `x = y` -/
  | assign (x y : Nat)
  /-- `del x` -/
  | del (x : Nat)
  /-- `x = y.grid` for a function -/
  | functionGrid (x y : Nat)
  /-- `x = y.basis` for a function -/
  | functionBasis (x y : Nat)
  /-- `x.gridView = y` -/
  | setGridView (x y : Nat)
  /-- `x = y.gridView` -/
  | getGridView (x y : Nat)
  /-- `x = y.tree()` -/
  | tree (x y : Nat)
  /-- `x = GridViewFunction(y)` -/
  | gridViewFunction (x y : Nat)
  deriving DecidableEq

/-- The object of a variable. -/
def Mem.get (M : Mem) (x : Nat) : Option (Nat × Obj) := (M.vars x).bind fun n => (M.obj n).map fun o => (n, o)

/-- One statement; `none` is a Python exception, which changes nothing. -/
def Mem.exec (M : Mem) : Stmt → Option Mem
  | .grid x => some (M.create x .grid)
  | .gridView x y => match M.get y with
    | some (g, .grid) => some (M.create x (.gridView g))
    | _ => none
  | .element x y => match M.get y with
    | some (gv, .gridView g) => some (M.create x (.element gv g))
    | _ => none
  | .basis x y => match M.get y with
    | some (gv, .gridView g) => some (M.create x (.basis gv g))
    | _ => none
  | .subspace x y => match M.get y with
    | some (b, .basis _ _) => some (M.create x (.subspace b))
    | some (b, .subspace _) => some (M.create x (.subspace b))
    | _ => none
  | .localView x y => match M.get y with
    | some (b, .basis _ _) => some (M.create x (.view b none))
    | some (b, .subspace _) => some (M.create x (.view b none))
    | _ => none
  | .buffer x => some (M.create x .buffer)
  | .asFunction x y z => match M.get y, M.get z with
    | some (b, .basis _ _), some (v, .buffer) => some (M.create x (.function b v))
    | some (b, .subspace _), some (v, .buffer) => some (M.create x (.function b v))
    | _, _ => none
  -- globalbasis.hh:109-114: the assignment to `obj_` drops the reference to the element bound before
  | .bind x y => match M.get x, M.get y with
    | some (l, .view b _), some (e, .element _ g) => some (M.set l (some (.view b (some (e, g)))))
    | _, _ => none
  -- globalbasis.hh:115-119: `obj_.release()` forgets the reference without decrementing the counter
  | .unbind x => match M.get x with
    | some (l, .view b (some (e, _))) => some { M.set l (some (.view b none)) with leaked := e :: M.leaked }
    | some (_, .view _ none) => some M
    | _ => none
  | .assign x y => (M.vars y).map fun n => { M with vars := fun z => if z = x then some n else M.vars z }
  | .del x => (M.vars x).map fun _ => { M with vars := fun z => if z = x then none else M.vars z }
  | .functionGrid x y => match M.get y with
    | some (f, .function b _) => some (M.create x (.functionGrid f b))
    | _ => none
  -- the basis is an existing Python object, which is returned and becomes the nurse of the function
  | .functionBasis x y => match M.get y with
    | some (f, .function b _) => some { M with vars := fun z => if z = x then some b else M.vars z, patients := (b, f) :: M.patients }
    | _ => none
  -- globalbasis.hh:166: update of the basis, no reference to the new grid view object
  | .setGridView x y => match M.get x, M.get y with
    | some (b, .basis gv _), some (_, .gridView g) => some (M.set b (some (.basis gv g)))
    | _, _ => none
  | .getGridView x y => match M.get y with
    | some (_, .basis _ g) => some (M.create x (.gridViewCopy g))
    | _ => none
  | .tree x y => match M.get y with
    | some (l, .view _ _) => some (M.create x (.tree l))
    | _ => none
  | .gridViewFunction x y => match M.get y with
    | some (_, .function b v) => some (M.create x (.gridViewFunction b v))
    | _ => none

/-- Somebody holds a reference to `n`. -/
def Mem.Referenced (M : Mem) (n : Nat) : Prop :=
  (∃ x, M.vars x = some n) ∨ (∃ m o, M.obj m = some o ∧ n ∈ o.keeps) ∨ (∃ m, (m, n) ∈ M.patients ∧ M.obj m ≠ none) ∨ n ∈ M.leaked

/-- Execution of statements that satisfy `ok`; between statements Python destroys objects without references, in any order. -/
inductive Step (ok : Mem → Stmt → Prop) : Mem → Mem → Prop where
  | stmt {M M' : Mem} (c : Stmt) : ok M c → M.exec c = some M' → Step ok M M'
  | destroy {M : Mem} (n : Nat) : M.obj n ≠ none → ¬ M.Referenced n → Step ok M (M.set n none)

def Reachable (ok : Mem → Stmt → Prop) (M : Mem) : Prop := Relation.ReflTransGen (Step ok) Mem.empty M

/-- Pointers followed, directly or not, when an object is used. -/
inductive Follows (M : Mem) (n : Nat) : Nat → Prop where
  | self : Follows M n n
  | next {m p : Nat} {o : Obj} : Follows M n m → M.obj m = some o → p ∈ o.pointers → Follows M n p

/-- Using an object does not follow a pointer to a destroyed object. -/
def Mem.Safe (M : Mem) (n : Nat) : Prop := ∀ p, Follows M n p → M.obj p ≠ none

/-- Statements allowed in C83_safe: no `tree()`, no `GridViewFunction`, no `basis.gridView`, and `basis.gridView = ...` only with
grid views of the grid the basis was constructed for. -/
def Allowed (M : Mem) : Stmt → Prop
  | .tree _ _ => False
  | .gridViewFunction _ _ => False
  | .getGridView _ _ => False
  | .setGridView x y => ∀ b gv g g', M.get x = some (b, .basis gv g) → (∃ n, M.get y = some (n, .gridView g')) →
      M.obj gv = some (.gridView g')
  | _ => True

/-! ## Lemmas -/

theorem get_eq {M : Mem} {x n : Nat} {o : Obj} : M.get x = some (n, o) ↔ M.vars x = some n ∧ M.obj n = some o := by
  unfold Mem.get
  constructor
  · intro h
    obtain ⟨m, h1, h2⟩ := Option.bind_eq_some_iff.mp h
    obtain ⟨o', h3, h4⟩ := Option.map_eq_some_iff.mp h2
    cases h4
    exact ⟨h1, h3⟩
  · rintro ⟨h1, h2⟩; rw [h1]; simp [h2]

/-- Objects never change, except for the element of a local view and the grid of a basis. -/
inductive Sim : Obj → Obj → Prop where
  | refl (o : Obj) : Sim o o
  | view (b : Nat) (x y : Option (Nat × Nat)) : Sim (.view b x) (.view b y)
  | basis (gv g g' : Nat) : Sim (.basis gv g) (.basis gv g')

/-- `n` exists afterwards if it existed before, with the same kind. -/
def Pres (M M' : Mem) (n : Nat) : Prop := ∀ o, M.obj n = some o → ∃ o', M'.obj n = some o' ∧ Sim o o'

theorem Pres.refl (M : Mem) (n : Nat) : Pres M M n := fun o h => ⟨o, h, .refl o⟩

theorem Pres.ne {M M' : Mem} {n : Nat} (h : Pres M M' n) (hn : M.obj n ≠ none) : M'.obj n ≠ none := by
  obtain ⟨o, ho⟩ := Option.ne_none_iff_exists'.mp hn
  obtain ⟨o', ho', -⟩ := h o ho
  rw [ho']; simp

theorem pres_of_obj {M M' : Mem} (h : M'.obj = M.obj) (n : Nat) : Pres M M' n := fun o ho => ⟨o, by rw [h]; exact ho, .refl o⟩

theorem create_obj_ne {M : Mem} {x n : Nat} (o : Obj) (h : n ≠ M.next) : (M.create x o).obj n = M.obj n := by
  simp [Mem.create, h]

theorem create_obj_self (M : Mem) (x : Nat) (o : Obj) : (M.create x o).obj M.next = some o := by simp [Mem.create]

theorem set_obj_ne {M : Mem} {m n : Nat} (o : Option Obj) (h : n ≠ m) : (M.set m o).obj n = M.obj n := by simp [Mem.set, h]

theorem set_obj_self (M : Mem) (m : Nat) (o : Option Obj) : (M.set m o).obj m = o := by simp [Mem.set]

theorem pres_create {M : Mem} (hb : M.obj M.next = none) (x : Nat) (o : Obj) (n : Nat) : Pres M (M.create x o) n := by
  intro o' ho'
  have : n ≠ M.next := by rintro rfl; rw [hb] at ho'; cases ho'
  exact ⟨o', by rw [create_obj_ne o this]; exact ho', .refl o'⟩

theorem pres_set {M : Mem} {m : Nat} {o o' : Obj} (ho : M.obj m = some o) (hs : Sim o o') (n : Nat) :
    Pres M (M.set m (some o')) n := by
  intro q hq
  by_cases h : n = m
  · subst h
    rw [ho] at hq; cases hq
    exact ⟨o', set_obj_self M n _, hs⟩
  · exact ⟨q, by rw [set_obj_ne _ h]; exact hq, .refl q⟩

/-- Bases and subspace bases. -/
def IsBasis (M : Mem) (b : Nat) : Prop := (∃ gv g, M.obj b = some (.basis gv g)) ∨ ∃ c, M.obj b = some (.subspace c)

/-- The objects that an object refers to exist and are of the right kind. -/
def Good (M : Mem) : Obj → Prop
  | .grid => True
  | .gridView g => M.obj g = some .grid
  | .element gv g => M.obj gv = some (.gridView g)
  | .basis gv g => M.obj gv = some (.gridView g)
  | .subspace b => IsBasis M b
  | .view b none => IsBasis M b
  | .view b (some (e, g)) => IsBasis M b ∧ ∃ gv, M.obj e = some (.element gv g)
  | .buffer => True
  | .function b v => IsBasis M b ∧ M.obj v = some .buffer
  | .functionGrid f b => ∃ v, M.obj f = some (.function b v)
  | .tree _ => False
  | .gridViewFunction _ _ => False
  | .gridViewCopy _ => False

theorem IsBasis.mono {M M' : Mem} {b : Nat} (h : IsBasis M b) (hp : Pres M M' b) : IsBasis M' b := by
  rcases h with ⟨gv, g, h⟩ | ⟨c, h⟩
  · obtain ⟨o', h1, h2⟩ := hp _ h
    cases h2 with
    | refl => exact .inl ⟨gv, g, h1⟩
    | basis _ _ g' => exact .inl ⟨gv, g', h1⟩
  · obtain ⟨o', h1, h2⟩ := hp _ h
    cases h2
    exact .inr ⟨c, h1⟩

theorem Good.mono {M M' : Mem} {o : Obj} (h : Good M o) (hp : ∀ k ∈ o.keeps, Pres M M' k) : Good M' o := by
  cases o with
  | grid => trivial
  | gridView g => obtain ⟨o', h1, h2⟩ := hp g (by simp [Obj.keeps]) _ h; cases h2; exact h1
  | element gv g => obtain ⟨o', h1, h2⟩ := hp gv (by simp [Obj.keeps]) _ h; cases h2; exact h1
  | basis gv g => obtain ⟨o', h1, h2⟩ := hp gv (by simp [Obj.keeps]) _ h; cases h2; exact h1
  | subspace b => exact IsBasis.mono h (hp b (by simp [Obj.keeps]))
  | view b x =>
    cases x with
    | none => exact IsBasis.mono h (hp b (by simp [Obj.keeps]))
    | some x =>
      obtain ⟨e, g⟩ := x
      obtain ⟨h1, gv, h2⟩ := h
      obtain ⟨o', h3, h4⟩ := hp e (by simp [Obj.keeps]) _ h2
      cases h4
      exact ⟨h1.mono (hp b (by simp [Obj.keeps])), gv, h3⟩
  | buffer => trivial
  | function b v =>
    obtain ⟨h1, h2⟩ := h
    obtain ⟨o', h3, h4⟩ := hp v (by simp [Obj.keeps]) _ h2
    cases h4
    exact ⟨h1.mono (hp b (by simp [Obj.keeps])), h3⟩
  | functionGrid f b =>
    obtain ⟨v, h2⟩ := h
    obtain ⟨o', h3, h4⟩ := hp f (by simp [Obj.keeps]) _ h2
    cases h4
    exact ⟨v, h3⟩
  | tree v => exact h
  | gridViewFunction b v => exact h
  | gridViewCopy g => exact h

structure Inv (M : Mem) : Prop where
  bound : ∀ n, M.next ≤ n → M.obj n = none
  vars : ∀ x n, M.vars x = some n → M.obj n ≠ none
  good : ∀ n o, M.obj n = some o → Good M o

theorem Inv.empty : Inv Mem.empty := ⟨fun _ _ => rfl, (fun _ _ h => by cases h), (fun _ _ h => by cases h)⟩

theorem Inv.create {M : Mem} (hM : Inv M) (x : Nat) {o : Obj} (ho : Good M o) : Inv (M.create x o) := by
  have hb := hM.bound M.next (Nat.le_refl _)
  refine ⟨fun n hn => ?_, fun y n hy => ?_, fun n q hq => ?_⟩
  · simp only [Mem.create] at hn ⊢
    rw [if_neg (by omega)]
    exact hM.bound n (by omega)
  · simp only [Mem.create] at hy
    split at hy
    · cases hy; rw [create_obj_self]; simp
    · exact (pres_create hb x o n).ne (hM.vars y n hy)
  · by_cases h : n = M.next
    · subst h
      rw [create_obj_self] at hq; cases hq
      exact ho.mono fun k _ => pres_create hb x o k
    · rw [create_obj_ne o h] at hq
      exact (hM.good n q hq).mono fun k _ => pres_create hb x o k

theorem Inv.set {M : Mem} (hM : Inv M) {m : Nat} {o o' : Obj} (ho : M.obj m = some o) (hs : Sim o o') (hg : Good M o') :
    Inv (M.set m (some o')) := by
  refine ⟨fun n hn => ?_, fun y n hy => (pres_set ho hs n).ne (hM.vars y n hy), fun n q hq => ?_⟩
  · have : n ≠ m := by rintro rfl; rw [hM.bound n hn] at ho; cases ho
    rw [set_obj_ne _ this]; exact hM.bound n hn
  · by_cases h : n = m
    · subst h
      rw [set_obj_self] at hq; cases hq
      exact hg.mono fun k _ => pres_set ho hs k
    · rw [set_obj_ne _ h] at hq
      exact (hM.good n q hq).mono fun k _ => pres_set ho hs k

/-- Change of variables and of the bookkeeping only. -/
theorem Inv.vars_change {M M' : Mem} (hM : Inv M) (h1 : M'.obj = M.obj) (h2 : M'.next = M.next)
    (h3 : ∀ x n, M'.vars x = some n → M.obj n ≠ none) : Inv M' :=
  ⟨fun n hn => by rw [h1]; exact hM.bound n (by omega), fun x n h => by rw [h1]; exact h3 x n h,
    fun n o h => (hM.good n o (by rw [← h1]; exact h)).mono fun k _ => pres_of_obj h1 k⟩

theorem Inv.exec {M M' : Mem} (hM : Inv M) {c : Stmt} (ha : Allowed M c) (h : M.exec c = some M') : Inv M' := by
  cases c with
  | grid x => cases h; exact hM.create x trivial
  | gridView x y =>
    simp only [Mem.exec] at h
    split at h
    · rename_i hy; cases h; exact hM.create x (get_eq.mp hy).2
    · cases h
  | element x y =>
    simp only [Mem.exec] at h
    split at h
    · rename_i hy; cases h; exact hM.create x (get_eq.mp hy).2
    · cases h
  | basis x y =>
    simp only [Mem.exec] at h
    split at h
    · rename_i hy; cases h; exact hM.create x (get_eq.mp hy).2
    · cases h
  | subspace x y =>
    simp only [Mem.exec] at h
    split at h
    · rename_i hy; cases h; exact hM.create x (.inl ⟨_, _, (get_eq.mp hy).2⟩)
    · rename_i hy; cases h; exact hM.create x (.inr ⟨_, (get_eq.mp hy).2⟩)
    · cases h
  | localView x y =>
    simp only [Mem.exec] at h
    split at h
    · rename_i hy; cases h; exact hM.create x (.inl ⟨_, _, (get_eq.mp hy).2⟩)
    · rename_i hy; cases h; exact hM.create x (.inr ⟨_, (get_eq.mp hy).2⟩)
    · cases h
  | buffer x => cases h; exact hM.create x trivial
  | asFunction x y z =>
    simp only [Mem.exec] at h
    split at h
    · rename_i hy hz; cases h; exact hM.create x ⟨.inl ⟨_, _, (get_eq.mp hy).2⟩, (get_eq.mp hz).2⟩
    · rename_i hy hz; cases h; exact hM.create x ⟨.inr ⟨_, (get_eq.mp hy).2⟩, (get_eq.mp hz).2⟩
    · cases h
  | bind x y =>
    simp only [Mem.exec] at h
    split at h
    · rename_i l b old e gv g hx hy
      cases h
      have hl := (get_eq.mp hx).2
      refine hM.set hl (.view _ _ _) ⟨?_, _, (get_eq.mp hy).2⟩
      have := hM.good _ _ hl
      cases old with
      | none => exact this
      | some p => exact this.1
    · cases h
  | unbind x =>
    simp only [Mem.exec] at h
    split at h
    · rename_i l b e g hx
      cases h
      have hl := (get_eq.mp hx).2
      have hi := hM.set hl (.view _ _ none) (hM.good _ _ hl).1
      exact hi.vars_change rfl rfl hi.vars
    · cases h; exact hM
    · cases h
  | assign x y =>
    simp only [Mem.exec] at h
    obtain ⟨n, hn, rfl⟩ := Option.map_eq_some_iff.mp h
    refine hM.vars_change rfl rfl fun z m hz => ?_
    simp only at hz
    split at hz
    · cases hz; exact hM.vars y _ hn
    · exact hM.vars z m hz
  | del x =>
    simp only [Mem.exec] at h
    obtain ⟨n, hn, rfl⟩ := Option.map_eq_some_iff.mp h
    refine hM.vars_change rfl rfl fun z m hz => ?_
    simp only at hz
    split at hz
    · cases hz
    · exact hM.vars z m hz
  | functionGrid x y =>
    simp only [Mem.exec] at h
    split at h
    · rename_i hy; cases h; exact hM.create x ⟨_, (get_eq.mp hy).2⟩
    · cases h
  | functionBasis x y =>
    simp only [Mem.exec] at h
    split at h
    · rename_i f b v hy
      cases h
      refine hM.vars_change rfl rfl fun z m hz => ?_
      simp only at hz
      split at hz
      · cases hz
        rcases (hM.good _ _ (get_eq.mp hy).2).1 with ⟨gv, g, hb⟩ | ⟨c, hb⟩ <;> rw [hb] <;> simp
      · exact hM.vars z m hz
    · cases h
  | setGridView x y =>
    simp only [Mem.exec] at h
    split at h
    · rename_i b gv g n g' hx hy
      cases h
      exact hM.set (get_eq.mp hx).2 (.basis _ _ _) (ha b gv g g' hx ⟨n, hy⟩)
    · cases h
  | getGridView x y => exact ha.elim
  | tree x y => exact ha.elim
  | gridViewFunction x y => exact ha.elim

theorem Inv.destroy {M : Mem} (hM : Inv M) {n : Nat} (hn : ¬ M.Referenced n) : Inv (M.set n none) := by
  have hp : ∀ m, m ≠ n → Pres M (M.set n none) m := fun m hm o ho => ⟨o, by rw [set_obj_ne _ hm]; exact ho, .refl o⟩
  refine ⟨fun m hm => ?_, fun x m hx => ?_, fun m o ho => ?_⟩
  · by_cases h : m = n
    · rw [h, set_obj_self]
    · rw [set_obj_ne _ h]; exact hM.bound m hm
  · have : m ≠ n := by rintro rfl; exact hn (.inl ⟨x, hx⟩)
    rw [set_obj_ne _ this]; exact hM.vars x m hx
  · have hmn : m ≠ n := by rintro rfl; rw [set_obj_self] at ho; cases ho
    rw [set_obj_ne _ hmn] at ho
    refine (hM.good m o ho).mono fun k hk => hp k ?_
    rintro rfl
    exact hn (.inr (.inl ⟨m, o, ho, hk⟩))

theorem Reachable.inv {M : Mem} (h : Reachable Allowed M) : Inv M := by
  induction h with
  | refl => exact Inv.empty
  | tail _ hs ih =>
    cases hs with
    | stmt c ha h => exact ih.exec ha h
    | destroy n _ hn => exact ih.destroy hn

theorem IsBasis.ne {M : Mem} {b : Nat} (h : IsBasis M b) : M.obj b ≠ none := by
  rcases h with ⟨gv, g, h⟩ | ⟨c, h⟩ <;> rw [h] <;> simp

theorem Inv.pointer {M : Mem} (hM : Inv M) {n : Nat} {o : Obj} (ho : M.obj n = some o) : ∀ p ∈ o.pointers, M.obj p ≠ none := by
  have hg := hM.good n o ho
  intro p hp
  cases o with
  | grid => cases hp
  | gridView g => simp only [Obj.pointers, List.mem_singleton] at hp; subst hp; rw [show M.obj p = _ from hg]; simp
  | element gv g =>
    simp only [Obj.pointers, List.mem_singleton] at hp; subst hp
    rw [show M.obj p = _ from hM.good gv _ hg]; simp
  | basis gv g =>
    simp only [Obj.pointers, List.mem_singleton] at hp; subst hp
    rw [show M.obj p = _ from hM.good gv _ hg]; simp
  | subspace b => simp only [Obj.pointers, List.mem_singleton] at hp; subst hp; exact IsBasis.ne hg
  | view b x =>
    cases x with
    | none => simp only [Obj.pointers, List.mem_singleton] at hp; subst hp; exact IsBasis.ne hg
    | some x =>
      obtain ⟨e, g⟩ := x
      obtain ⟨h1, gv, h2⟩ := hg
      simp only [Obj.pointers, List.mem_cons, List.not_mem_nil, or_false] at hp
      rcases hp with rfl | rfl
      · exact h1.ne
      · rw [show M.obj p = _ from hM.good gv _ (hM.good e _ h2)]; simp
  | buffer => cases hp
  | function b v =>
    simp only [Obj.pointers, List.mem_cons, List.not_mem_nil, or_false] at hp
    rcases hp with rfl | rfl
    · exact hg.1.ne
    · rw [hg.2]; simp
  | functionGrid f b =>
    obtain ⟨v, hf⟩ := hg
    simp only [Obj.pointers, List.mem_singleton] at hp; subst hp
    exact (hM.good f _ hf).1.ne
  | tree v => exact hg.elim
  | gridViewFunction b v => exact hg.elim
  | gridViewCopy g => exact hg.elim

/-- **C83**. In every program of allowed statements, whatever is deleted or overwritten, and in whatever order Python destroys objects:
using an object of a variable, or any other object that exists, follows pointers to objects that exist only. -/
theorem C83_safe {M : Mem} (h : Reachable Allowed M) {n : Nat} (hn : M.obj n ≠ none) : M.Safe n := by
  intro p hp
  induction hp with
  | self => exact hn
  | next _ ho hp _ => exact h.inv.pointer ho _ hp

/-- **C83**. In such programs, a variable always refers to an object that exists, and that is safe to use. -/
theorem C83_variables {M : Mem} (h : Reachable Allowed M) {x n : Nat} (hx : M.vars x = some n) :
    M.obj n ≠ none ∧ M.Safe n :=
  ⟨h.inv.vars x n hx, C83_safe h (h.inv.vars x n hx)⟩

/-! ### Every object is destroyed in the end -/

/-- Statements that add no reference from a basis to a function, and lose no reference. -/
def Counted (_ : Mem) : Stmt → Prop
  | .functionBasis _ _ => False
  | .unbind _ => False
  | _ => True

/-- Objects of dune-grid. -/
def Obj.cls : Obj → Nat
  | .grid => 0
  | .gridView _ => 0
  | .element _ _ => 0
  | _ => 1

/-- `n` is older than the object `m`, or an object of dune-grid and `m` is none. -/
def Below (M : Mem) (m : Nat) (o : Obj) (k : Nat) : Prop := ∃ q, M.obj k = some q ∧ (q.cls < o.cls ∨ q.cls = o.cls ∧ k < m)

structure Ordered (M : Mem) : Prop where
  bound : ∀ n, M.next ≤ n → M.obj n = none
  patients : M.patients = []
  leaked : M.leaked = []
  ord : ∀ m o, M.obj m = some o → ∀ k ∈ o.keeps, Below M m o k

theorem Sim.cls {o o' : Obj} (h : Sim o o') : o'.cls = o.cls := by cases h <;> rfl

theorem Below.mono {M M' : Mem} {m k : Nat} {o : Obj} (h : Below M m o k) (hp : Pres M M' k) : Below M' m o k := by
  obtain ⟨q, h1, h2⟩ := h
  obtain ⟨q', h3, h4⟩ := hp q h1
  exact ⟨q', h3, by rw [h4.cls]; exact h2⟩

theorem Ordered.lt {M : Mem} (hM : Ordered M) {n : Nat} {o : Obj} (h : M.obj n = some o) : n < M.next := by
  by_contra hc
  rw [hM.bound n (by omega)] at h; cases h

theorem Ordered.create {M : Mem} (hM : Ordered M) (x : Nat) {o : Obj} (ho : ∀ k ∈ o.keeps, ∃ q, M.obj k = some q ∧ q.cls ≤ o.cls) :
    Ordered (M.create x o) := by
  have hb := hM.bound M.next (Nat.le_refl _)
  refine ⟨fun n hn => ?_, hM.patients, hM.leaked, fun n q hq k hk => ?_⟩
  · simp only [Mem.create] at hn ⊢
    rw [if_neg (by omega)]
    exact hM.bound n (by omega)
  · by_cases h : n = M.next
    · subst h
      rw [create_obj_self] at hq; cases hq
      obtain ⟨q, h1, h2⟩ := ho k hk
      have := hM.lt h1
      exact Below.mono ⟨q, h1, by omega⟩ (pres_create hb x o k)
    · rw [create_obj_ne o h] at hq
      exact (hM.ord n q hq k hk).mono (pres_create hb x o k)

theorem Ordered.set {M : Mem} (hM : Ordered M) {m : Nat} {o o' : Obj} (ho : M.obj m = some o) (hs : Sim o o')
    (hk : ∀ k ∈ o'.keeps, Below M m o' k) : Ordered (M.set m (some o')) := by
  refine ⟨fun n hn => ?_, hM.patients, hM.leaked, fun n q hq k hk' => ?_⟩
  · have : n ≠ m := by rintro rfl; rw [hM.bound n hn] at ho; cases ho
    rw [set_obj_ne _ this]; exact hM.bound n hn
  · by_cases h : n = m
    · subst h
      rw [set_obj_self] at hq; cases hq
      exact (hk k hk').mono (pres_set ho hs k)
    · rw [set_obj_ne _ h] at hq
      exact (hM.ord n q hq k hk').mono (pres_set ho hs k)

theorem Ordered.exec {M M' : Mem} (hM : Ordered M) {c : Stmt} (ha : Counted M c) (h : M.exec c = some M') : Ordered M' := by
  cases c with
  | grid x => cases h; exact hM.create x (by simp [Obj.keeps])
  | gridView x y =>
    simp only [Mem.exec] at h
    split at h
    · rename_i hy; cases h
      exact hM.create x (by intro k hk; simp only [Obj.keeps, List.mem_singleton] at hk; subst hk; exact ⟨_, (get_eq.mp hy).2, by simp [Obj.cls]⟩)
    · cases h
  | element x y =>
    simp only [Mem.exec] at h
    split at h
    · rename_i hy; cases h
      exact hM.create x (by intro k hk; simp only [Obj.keeps, List.mem_singleton] at hk; subst hk; exact ⟨_, (get_eq.mp hy).2, by simp [Obj.cls]⟩)
    · cases h
  | basis x y =>
    simp only [Mem.exec] at h
    split at h
    · rename_i hy; cases h
      exact hM.create x (by intro k hk; simp only [Obj.keeps, List.mem_singleton] at hk; subst hk; exact ⟨_, (get_eq.mp hy).2, by simp [Obj.cls]⟩)
    · cases h
  | subspace x y =>
    simp only [Mem.exec] at h
    split at h
    · rename_i hy; cases h
      exact hM.create x (by intro k hk; simp only [Obj.keeps, List.mem_singleton] at hk; subst hk; exact ⟨_, (get_eq.mp hy).2, by simp [Obj.cls]⟩)
    · rename_i hy; cases h
      exact hM.create x (by intro k hk; simp only [Obj.keeps, List.mem_singleton] at hk; subst hk; exact ⟨_, (get_eq.mp hy).2, by simp [Obj.cls]⟩)
    · cases h
  | localView x y =>
    simp only [Mem.exec] at h
    split at h
    · rename_i hy; cases h
      exact hM.create x (by intro k hk; simp only [Obj.keeps, List.mem_singleton] at hk; subst hk; exact ⟨_, (get_eq.mp hy).2, by simp [Obj.cls]⟩)
    · rename_i hy; cases h
      exact hM.create x (by intro k hk; simp only [Obj.keeps, List.mem_singleton] at hk; subst hk; exact ⟨_, (get_eq.mp hy).2, by simp [Obj.cls]⟩)
    · cases h
  | buffer x => cases h; exact hM.create x (by simp [Obj.keeps])
  | asFunction x y z =>
    simp only [Mem.exec] at h
    split at h
    · rename_i hy hz; cases h
      refine hM.create x ?_
      intro k hk; simp only [Obj.keeps, List.mem_cons, List.not_mem_nil, or_false] at hk
      rcases hk with rfl | rfl
      · exact ⟨_, (get_eq.mp hy).2, by simp [Obj.cls]⟩
      · exact ⟨_, (get_eq.mp hz).2, by simp [Obj.cls]⟩
    · rename_i hy hz; cases h
      refine hM.create x ?_
      intro k hk; simp only [Obj.keeps, List.mem_cons, List.not_mem_nil, or_false] at hk
      rcases hk with rfl | rfl
      · exact ⟨_, (get_eq.mp hy).2, by simp [Obj.cls]⟩
      · exact ⟨_, (get_eq.mp hz).2, by simp [Obj.cls]⟩
    · cases h
  | bind x y =>
    simp only [Mem.exec] at h
    split at h
    · rename_i l b old e gv g hx hy
      cases h
      have hl := (get_eq.mp hx).2
      refine hM.set hl (.view _ _ _) fun k hk => ?_
      simp only [Obj.keeps, List.mem_cons, List.not_mem_nil, or_false] at hk
      rcases hk with rfl | rfl
      · have := hM.ord _ _ hl k (by cases old <;> simp [Obj.keeps])
        exact this
      · exact ⟨_, (get_eq.mp hy).2, .inl (by simp [Obj.cls])⟩
    · cases h
  | unbind x => exact ha.elim
  | assign x y =>
    simp only [Mem.exec] at h
    obtain ⟨n, hn, rfl⟩ := Option.map_eq_some_iff.mp h
    exact ⟨hM.bound, hM.patients, hM.leaked, hM.ord⟩
  | del x =>
    simp only [Mem.exec] at h
    obtain ⟨n, hn, rfl⟩ := Option.map_eq_some_iff.mp h
    exact ⟨hM.bound, hM.patients, hM.leaked, hM.ord⟩
  | functionGrid x y =>
    simp only [Mem.exec] at h
    split at h
    · rename_i hy; cases h
      exact hM.create x (by intro k hk; simp only [Obj.keeps, List.mem_singleton] at hk; subst hk; exact ⟨_, (get_eq.mp hy).2, by simp [Obj.cls]⟩)
    · cases h
  | functionBasis x y => exact ha.elim
  | setGridView x y =>
    simp only [Mem.exec] at h
    split at h
    · rename_i b gv g n g' hx hy
      cases h
      have hb := (get_eq.mp hx).2
      exact hM.set hb (.basis _ _ _) fun k hk => hM.ord _ _ hb k hk
    · cases h
  | getGridView x y =>
    simp only [Mem.exec] at h
    split at h
    · cases h; exact hM.create x (by simp [Obj.keeps])
    · cases h
  | tree x y =>
    simp only [Mem.exec] at h
    split at h
    · cases h; exact hM.create x (by simp [Obj.keeps])
    · cases h
  | gridViewFunction x y =>
    simp only [Mem.exec] at h
    split at h
    · rename_i hy; cases h
      have hf := (get_eq.mp hy).2
      refine hM.create x ?_
      intro k hk; simp only [Obj.keeps, List.mem_singleton] at hk; subst hk
      obtain ⟨q, h1, h2⟩ := hM.ord _ _ hf k (by simp [Obj.keeps])
      exact ⟨q, h1, by simp only [Obj.cls] at h2 ⊢; omega⟩
    · cases h

theorem Ordered.destroy {M : Mem} (hM : Ordered M) {n : Nat} (hn : ¬ M.Referenced n) : Ordered (M.set n none) := by
  refine ⟨fun m hm => ?_, hM.patients, hM.leaked, fun m o ho k hk => ?_⟩
  · by_cases h : m = n
    · rw [h, set_obj_self]
    · rw [set_obj_ne _ h]; exact hM.bound m hm
  · have hmn : m ≠ n := by rintro rfl; rw [set_obj_self] at ho; cases ho
    rw [set_obj_ne _ hmn] at ho
    have hkn : k ≠ n := by rintro rfl; exact hn (.inr (.inl ⟨m, o, ho, hk⟩))
    exact (hM.ord m o ho k hk).mono fun o ho => ⟨o, by rw [set_obj_ne _ hkn]; exact ho, .refl o⟩

theorem Reachable.ordered {M : Mem} (h : Reachable Counted M) : Ordered M := by
  induction h with
  | refl => exact ⟨fun _ _ => rfl, rfl, rfl, (fun _ _ h => by cases h)⟩
  | tail _ hs ih =>
    cases hs with
    | stmt c ha h => exact ih.exec ha h
    | destroy n _ hn => exact ih.destroy hn

/-- Without variables some object of the highest class can be destroyed. -/
theorem Ordered.top {M : Mem} (hM : Ordered M) (hv : ∀ x, M.vars x = none) (hs : ∀ n, M.obj n ≠ none → M.Referenced n) {c : Nat}
    (hc : ∀ m o, M.obj m = some o → o.cls ≤ c) : ∀ d n o, M.next - n ≤ d → M.obj n = some o → o.cls ≠ c := by
  intro d
  induction d with
  | zero => intro n o hn ho; have := hM.lt ho; omega
  | succ d ih =>
    intro n o hn ho hoc
    rcases hs n (by rw [ho]; simp) with ⟨x, hx⟩ | ⟨m, q, hq, hk⟩ | ⟨m, hm, -⟩ | hl
    · rw [hv x] at hx; cases hx
    · obtain ⟨o', h1, h2⟩ := hM.ord m q hq n hk
      rw [ho] at h1; cases h1
      have hqc := hc m q hq
      exact ih m q (by have := hM.lt hq; omega) hq (by omega)
    · rw [hM.patients] at hm; cases hm
    · rw [hM.leaked] at hl; cases hl

/-- **C83**. Without `function.basis` and `localView.unbind()` no memory is lost: when no variables are left and Python has destroyed
everything that it can destroy, nothing is left. -/
theorem C83_free {M : Mem} (h : Reachable Counted M) (hv : ∀ x, M.vars x = none) (hs : ∀ n, M.obj n ≠ none → M.Referenced n) :
    ∀ n, M.obj n = none := by
  have hM := h.ordered
  have h1 : ∀ m o, M.obj m = some o → o.cls ≤ 1 := by intro m o _; cases o <;> simp [Obj.cls]
  have h2 := fun n o => hM.top hv hs h1 _ n o (Nat.le_refl _)
  have h3 : ∀ m o, M.obj m = some o → o.cls ≤ 0 := by
    intro m o ho
    have := h1 m o ho; have := h2 m o ho; omega
  have h4 := fun n o => hM.top hv hs h3 _ n o (Nat.le_refl _)
  intro n
  cases ho : M.obj n with
  | none => rfl
  | some o => exact absurd (Nat.le_zero.mp (h3 n o ho)) (h4 n o ho)

/-! ### Objects that are never destroyed -/

structure Grows (M M' : Mem) : Prop where
  bound : ∀ n, M'.next ≤ n → M'.obj n = none
  pres : ∀ n, Pres M M' n
  patients : ∀ p ∈ M.patients, p ∈ M'.patients
  leaked : ∀ n ∈ M.leaked, n ∈ M'.leaked

theorem grows_create {M : Mem} (hb : ∀ n, M.next ≤ n → M.obj n = none) (x : Nat) (o : Obj) : Grows M (M.create x o) := by
  refine ⟨fun n hn => ?_, fun n => pres_create (hb _ (Nat.le_refl _)) x o n, fun _ h => h, fun _ h => h⟩
  simp only [Mem.create] at hn ⊢
  rw [if_neg (by omega)]
  exact hb n (by omega)

theorem grows_set {M : Mem} (hb : ∀ n, M.next ≤ n → M.obj n = none) {m : Nat} {o o' : Obj} (ho : M.obj m = some o) (hs : Sim o o') :
    Grows M (M.set m (some o')) := by
  refine ⟨fun n hn => ?_, fun n => pres_set ho hs n, fun _ h => h, fun _ h => h⟩
  have : n ≠ m := by rintro rfl; rw [hb n hn] at ho; cases ho
  rw [set_obj_ne _ this]; exact hb n hn

theorem grows_exec {M M' : Mem} (hb : ∀ n, M.next ≤ n → M.obj n = none) {c : Stmt} (h : M.exec c = some M') : Grows M M' := by
  cases c with
  | grid x => cases h; exact grows_create hb x _
  | buffer x => cases h; exact grows_create hb x _
  | gridView x y => simp only [Mem.exec] at h; split at h <;> cases h; exact grows_create hb x _
  | element x y => simp only [Mem.exec] at h; split at h <;> cases h; exact grows_create hb x _
  | basis x y => simp only [Mem.exec] at h; split at h <;> cases h; exact grows_create hb x _
  | subspace x y => simp only [Mem.exec] at h; split at h <;> cases h <;> exact grows_create hb x _
  | localView x y => simp only [Mem.exec] at h; split at h <;> cases h <;> exact grows_create hb x _
  | asFunction x y z => simp only [Mem.exec] at h; split at h <;> cases h <;> exact grows_create hb x _
  | functionGrid x y => simp only [Mem.exec] at h; split at h <;> cases h; exact grows_create hb x _
  | getGridView x y => simp only [Mem.exec] at h; split at h <;> cases h; exact grows_create hb x _
  | tree x y => simp only [Mem.exec] at h; split at h <;> cases h; exact grows_create hb x _
  | gridViewFunction x y => simp only [Mem.exec] at h; split at h <;> cases h; exact grows_create hb x _
  | bind x y =>
    simp only [Mem.exec] at h
    split at h
    · rename_i hx hy; cases h; exact grows_set hb (get_eq.mp hx).2 (.view _ _ _)
    · cases h
  | unbind x =>
    simp only [Mem.exec] at h
    split at h
    · rename_i hx; cases h
      have := grows_set hb (get_eq.mp hx).2 (.view _ _ none)
      exact ⟨this.bound, this.pres, this.patients, fun n hn => List.mem_cons_of_mem _ hn⟩
    · cases h; exact ⟨hb, fun n => Pres.refl M n, fun _ h => h, fun _ h => h⟩
    · cases h
  | assign x y =>
    simp only [Mem.exec] at h
    obtain ⟨n, hn, rfl⟩ := Option.map_eq_some_iff.mp h
    exact ⟨hb, fun n => pres_of_obj rfl n, fun _ h => h, fun _ h => h⟩
  | del x =>
    simp only [Mem.exec] at h
    obtain ⟨n, hn, rfl⟩ := Option.map_eq_some_iff.mp h
    exact ⟨hb, fun n => pres_of_obj rfl n, fun _ h => h, fun _ h => h⟩
  | functionBasis x y =>
    simp only [Mem.exec] at h
    split at h
    · cases h; exact ⟨hb, fun n => pres_of_obj rfl n, fun _ h => List.mem_cons_of_mem _ h, fun _ h => h⟩
    · cases h
  | setGridView x y =>
    simp only [Mem.exec] at h
    split at h
    · rename_i hx hy; cases h; exact grows_set hb (get_eq.mp hx).2 (.basis _ _ _)
    · cases h

theorem bound_set {M : Mem} (hb : ∀ n, M.next ≤ n → M.obj n = none) (m : Nat) : ∀ n, (M.set m none).next ≤ n → (M.set m none).obj n = none := by
  intro n hn
  by_cases h : n = m
  · rw [h, set_obj_self]
  · rw [set_obj_ne _ h]; exact hb n hn

theorem reachable_bound {ok : Mem → Stmt → Prop} {M : Mem} (h : Reachable ok M) : ∀ n, M.next ≤ n → M.obj n = none := by
  induction h with
  | refl => exact fun _ _ => rfl
  | tail _ hs ih =>
    cases hs with
    | stmt c _ h => exact (grows_exec ih h).bound
    | destroy n _ _ => exact bound_set ih n

/-- All statements. -/
def Any (_ : Mem) (_ : Stmt) : Prop := True

/-- **C83**, memory is lost: once `f.basis` has been evaluated, neither the function nor its basis (nor what they keep alive) is ever destroyed,
whatever is deleted afterwards: the basis holds a reference to the function, which holds one to the basis. -/
theorem C83_basis_false {M M' M'' : Mem} (h : Reachable Any M) {x y f b v : Nat} (hy : M.get y = some (f, .function b v))
    (hb : M.obj b ≠ none) (h' : M.exec (.functionBasis x y) = some M') (h'' : Relation.ReflTransGen (Step Any) M' M'') :
    M''.obj f = some (.function b v) ∧ M''.obj b ≠ none := by
  have hM := reachable_bound h
  have hM' := (grows_exec hM h').bound
  suffices ∀ N, Relation.ReflTransGen (Step Any) M' N →
      (∀ n, N.next ≤ n → N.obj n = none) ∧ (b, f) ∈ N.patients ∧ N.obj f = some (.function b v) ∧ N.obj b ≠ none from (this M'' h'').2.2
  intro N hN
  induction hN with
  | refl =>
    refine ⟨hM', ?_⟩
    simp only [Mem.exec, hy, Option.some.injEq] at h'
    subst h'
    exact ⟨List.mem_cons_self, (get_eq.mp hy).2, hb⟩
  | tail _ hs ih =>
    obtain ⟨i1, i2, i3, i4⟩ := ih
    cases hs with
    | stmt c _ h =>
      have hg := grows_exec i1 h
      refine ⟨hg.bound, hg.patients _ i2, ?_, (hg.pres b).ne i4⟩
      obtain ⟨o', h1, h2⟩ := hg.pres f _ i3
      cases h2
      exact h1
    | destroy n _ hn =>
      refine ⟨bound_set i1 n, i2, ?_, ?_⟩
      · rw [set_obj_ne]
        · exact i3
        · rintro rfl; exact hn (.inr (.inr (.inl ⟨b, i2, i4⟩)))
      · rw [set_obj_ne]
        · exact i4
        · rintro rfl; exact hn (.inr (.inl ⟨f, _, i3, by simp [Obj.keeps]⟩))

/-- **C83**, memory is lost: after `localView.unbind()` the element object that the view was bound to is never destroyed. -/
theorem C83_unbind_false {M M' M'' : Mem} (h : Reachable Any M) {x l b e g : Nat} (hx : M.get x = some (l, .view b (some (e, g))))
    (he : M.obj e ≠ none) (h' : M.exec (.unbind x) = some M') (h'' : Relation.ReflTransGen (Step Any) M' M'') : M''.obj e ≠ none := by
  have hM := reachable_bound h
  have hG := grows_exec hM h'
  suffices ∀ N, Relation.ReflTransGen (Step Any) M' N →
      (∀ n, N.next ≤ n → N.obj n = none) ∧ e ∈ N.leaked ∧ N.obj e ≠ none from (this M'' h'').2.2
  intro N hN
  induction hN with
  | refl =>
    refine ⟨hG.bound, ?_, (hG.pres e).ne he⟩
    simp only [Mem.exec, hx, Option.some.injEq] at h'
    subst h'
    exact List.mem_cons_self
  | tail _ hs ih =>
    obtain ⟨i1, i2, i4⟩ := ih
    cases hs with
    | stmt c _ h =>
      have hg := grows_exec i1 h
      exact ⟨hg.bound, hg.leaked _ i2, (hg.pres e).ne i4⟩
    | destroy n _ hn =>
      refine ⟨bound_set i1 n, i2, ?_⟩
      rw [set_obj_ne]
      · exact i4
      · rintro rfl; exact hn (.inr (.inr (.inr i2)))

/-! ### Statements after which objects are used that do not exist any more -/

/-- The variable that a statement changes. -/
def Stmt.target : Stmt → Option Nat
  | .grid x => some x
  | .gridView x _ => some x
  | .element x _ => some x
  | .basis x _ => some x
  | .subspace x _ => some x
  | .localView x _ => some x
  | .buffer x => some x
  | .asFunction x _ _ => some x
  | .assign x _ => some x
  | .del x => some x
  | .functionGrid x _ => some x
  | .functionBasis x _ => some x
  | .getGridView x _ => some x
  | .tree x _ => some x
  | .gridViewFunction x _ => some x
  | .bind _ _ => none
  | .unbind _ => none
  | .setGridView _ _ => none

theorem create_vars_ne {M : Mem} {x z : Nat} (o : Obj) (h : some x ≠ some z) : (M.create x o).vars z = M.vars z := by
  have : ¬ z = x := fun h' => h (by rw [h'])
  simp [Mem.create, this]

theorem exec_vars {M M' : Mem} {c : Stmt} (h : M.exec c = some M') {z : Nat} (hz : c.target ≠ some z) : M'.vars z = M.vars z := by
  cases c with
  | grid x => cases h; exact create_vars_ne _ hz
  | buffer x => cases h; exact create_vars_ne _ hz
  | gridView x y => simp only [Mem.exec] at h; split at h <;> cases h; exact create_vars_ne _ hz
  | element x y => simp only [Mem.exec] at h; split at h <;> cases h; exact create_vars_ne _ hz
  | basis x y => simp only [Mem.exec] at h; split at h <;> cases h; exact create_vars_ne _ hz
  | subspace x y => simp only [Mem.exec] at h; split at h <;> cases h <;> exact create_vars_ne _ hz
  | localView x y => simp only [Mem.exec] at h; split at h <;> cases h <;> exact create_vars_ne _ hz
  | asFunction x y w => simp only [Mem.exec] at h; split at h <;> cases h <;> exact create_vars_ne _ hz
  | functionGrid x y => simp only [Mem.exec] at h; split at h <;> cases h; exact create_vars_ne _ hz
  | getGridView x y => simp only [Mem.exec] at h; split at h <;> cases h; exact create_vars_ne _ hz
  | tree x y => simp only [Mem.exec] at h; split at h <;> cases h; exact create_vars_ne _ hz
  | gridViewFunction x y => simp only [Mem.exec] at h; split at h <;> cases h; exact create_vars_ne _ hz
  | bind x y => simp only [Mem.exec] at h; split at h <;> cases h; rfl
  | unbind x => simp only [Mem.exec] at h; split at h <;> cases h <;> rfl
  | assign x y =>
    simp only [Mem.exec] at h
    obtain ⟨n, hn, rfl⟩ := Option.map_eq_some_iff.mp h
    have : ¬ z = x := fun h' => hz (by rw [h']; rfl)
    simp [this]
  | del x =>
    simp only [Mem.exec] at h
    obtain ⟨n, hn, rfl⟩ := Option.map_eq_some_iff.mp h
    have : ¬ z = x := fun h' => hz (by rw [h']; rfl)
    simp [this]
  | functionBasis x y =>
    have : ¬ z = x := fun h' => hz (by rw [h']; rfl)
    simp only [Mem.exec] at h; split at h <;> cases h; simp [this]
  | setGridView x y => simp only [Mem.exec] at h; split at h <;> cases h; rfl

/-- A statement, or the destruction of an object. -/
inductive Cmd where
  | run (c : Stmt)
  | destroy (n : Nat)

/-- Execution of a program with variables `0, .., V-1`; fails on exceptions and if an object to be destroyed is referenced. -/
def Mem.execs (V : Nat) (M : Mem) : List Cmd → Option Mem
  | [] => some M
  | .run c :: cs => match M.exec c with
    | some M' => if ∀ x ∈ c.target, x < V then M'.execs V cs else none
    | none => none
  | .destroy n :: cs =>
    if (M.obj n).isSome && (List.range V).all (fun x => M.vars x != some n)
        && (List.range M.next).all (fun m => ((M.obj m).map (fun o => !o.keeps.contains n)).getD true)
        && M.patients.all (fun p => p.2 != n || (M.obj p.1).isNone) && !M.leaked.contains n
    then (M.set n none).execs V cs else none

theorem execs_steps {V : Nat} {M M' : Mem} {cs : List Cmd} (hb : ∀ n, M.next ≤ n → M.obj n = none) (hv : ∀ x, V ≤ x → M.vars x = none)
    (h : M.execs V cs = some M') : Relation.ReflTransGen (Step Any) M M' := by
  induction cs generalizing M with
  | nil => cases h; exact .refl
  | cons c cs ih =>
    cases c with
    | run c =>
      simp only [Mem.execs] at h
      split at h
      · rename_i N hN
        split at h
        · rename_i ht
          refine .head (.stmt c trivial hN) (ih (grows_exec hb hN).bound ?_ h)
          intro x hx
          rw [exec_vars hN]
          · exact hv x hx
          · intro hc
            have := ht x hc
            omega
        · cases h
      · cases h
    | destroy n =>
      simp only [Mem.execs] at h
      split at h
      · rename_i hc
        simp only [Bool.and_eq_true, List.all_eq_true, List.mem_range, bne_iff_ne, ne_eq, Bool.not_eq_eq_eq_not, Bool.not_true,
          Bool.or_eq_true, List.contains_eq_mem, decide_eq_false_iff_not] at hc
        obtain ⟨⟨⟨⟨h1, h2⟩, h3⟩, h4⟩, h5⟩ := hc
        refine .head (.destroy n (Option.isSome_iff_ne_none.mp h1) ?_) (ih (bound_set hb n) hv h)
        rintro (⟨x, hx⟩ | ⟨m, o, ho, hk⟩ | ⟨m, hm, hm'⟩ | hl)
        · by_cases hxV : x < V
          · exact h2 x hxV hx
          · rw [hv x (by omega)] at hx; cases hx
        · by_cases hmn : m < M.next
          · have := h3 m hmn
            rw [ho] at this
            simp [hk] at this
          · rw [hb m (by omega)] at ho; cases ho
        · rcases h4 _ hm with h | h
          · exact h rfl
          · exact hm' (Option.isNone_iff_eq_none.mp h)
        · exact h5 hl
      · cases h

/-- A program is executed from the start. -/
theorem reachable_of_execs {V : Nat} {M : Mem} {cs : List Cmd} (h : Mem.empty.execs V cs = some M) : Reachable Any M :=
  execs_steps (fun _ _ => rfl) (fun _ _ => rfl) h

/-- The program ends in a state in which variable `x` refers to an object with a pointer to an object that does not exist any more. -/
def dangles (V : Nat) (cs : List Cmd) (x : Nat) : Bool :=
  match Mem.empty.execs V cs with
  | some M => match M.get x with
    | some (_, o) => o.pointers.any fun p => (M.obj p).isNone
    | none => false
  | none => false

theorem of_dangles {V : Nat} {cs : List Cmd} {x : Nat} (h : dangles V cs x = true) : ∃ M, Reachable Any M ∧ ∃ n, M.vars x = some n ∧ ¬ M.Safe n := by
  unfold dangles at h
  split at h
  · rename_i M hM
    split at h
    · rename_i n o hx
      obtain ⟨p, hp, hn⟩ := List.any_eq_true.mp h
      refine ⟨M, reachable_of_execs hM, n, (get_eq.mp hx).1, fun hs => ?_⟩
      exact hs p (.next .self (get_eq.mp hx).2 hp) (Option.isNone_iff_eq_none.mp hn)
    · cases h
  · cases h

/-- Grid (variable 0, object 0), grid view (1), basis (2), vector (3), function (4). -/
def exStart : List Cmd :=
  [.run (.grid 0), .run (.gridView 1 0), .run (.basis 2 1), .run (.buffer 3), .run (.asFunction 4 2 3)]

/-- **C83**, false of the code: `g = GridViewFunction(f)`; after `del f, basis`, `g` refers to a basis that does not exist any more. -/
theorem C83_gridViewFunction_false : ∃ M, Reachable Any M ∧ ∃ n, M.vars 5 = some n ∧ ¬ M.Safe n :=
  of_dangles (V := 6) (cs := exStart ++ [.run (.gridViewFunction 5 4), .run (.del 4), .run (.del 2), .destroy 4, .destroy 2])
    (by decide +kernel)

/-- **C83**, false of the code: `basis.gridView = gv2` for a grid view of another grid; after `del gv2, grid2` the basis refers to a grid
that does not exist any more. -/
theorem C83_setGridView_false : ∃ M, Reachable Any M ∧ ∃ n, M.vars 2 = some n ∧ ¬ M.Safe n :=
  of_dangles (V := 7) (cs := exStart ++ [.run (.grid 5), .run (.gridView 6 5), .run (.setGridView 2 6), .run (.del 5), .run (.del 6),
    .destroy 6, .destroy 5]) (by decide +kernel)

/-- **C83**, false of the code: `gv = basis.gridView` does not keep the grid alive. -/
theorem C83_getGridView_false : ∃ M, Reachable Any M ∧ ∃ n, M.vars 5 = some n ∧ ¬ M.Safe n :=
  of_dangles (V := 6) (cs := exStart ++ [.run (.getGridView 5 2), .run (.del 4), .run (.del 2), .run (.del 1), .run (.del 0),
    .destroy 4, .destroy 2, .destroy 1, .destroy 0]) (by decide +kernel)

/-- **C83**, false of the code: `tree = localView.tree()` does not keep the local view alive. -/
theorem C83_tree_false : ∃ M, Reachable Any M ∧ ∃ n, M.vars 6 = some n ∧ ¬ M.Safe n :=
  of_dangles (V := 7) (cs := exStart ++ [.run (.localView 5 2), .run (.tree 6 5), .run (.del 5), .destroy 5]) (by decide +kernel)

/-! ### Examples -/

/-- The grid, the grid view and the vector are deleted first; the function can still be used. -/
def exDel : List Cmd := exStart ++ [.run (.del 0), .run (.del 3), .run (.del 1), .run (.del 2)]

example : dangles 5 exDel 4 = false := by decide +kernel

/-- Nothing can be destroyed before the function. -/
example : ∀ n : Fin 4, (Mem.empty.execs 5 (exDel ++ [.destroy n.1])).isNone = true := by decide +kernel

/-- Afterwards everything is destroyed. -/
example : ((Mem.empty.execs 5 (exDel ++ [.run (.del 4), .destroy 4, .destroy 2, .destroy 1, .destroy 3, .destroy 0])).map
    fun M => (List.range 5).all fun n => (M.obj n).isNone) = some true := by decide +kernel

/-- ... unless `x = f.basis` was evaluated. -/
example : ∀ n : Fin 5, (Mem.empty.execs 6 (exStart ++ [.run (.functionBasis 5 4), .run (.del 0), .run (.del 3), .run (.del 1),
    .run (.del 2), .run (.del 4), .run (.del 5), .destroy n.1])).isNone = true := by decide +kernel

/-- A view bound to an element keeps the element alive; bound to another element, it does not. -/
example : (Mem.empty.execs 8 (exStart ++ [.run (.localView 5 2), .run (.element 6 1), .run (.bind 5 6), .run (.del 6), .destroy 6])).isNone
    = true := by decide +kernel

example : (Mem.empty.execs 8 (exStart ++ [.run (.localView 5 2), .run (.element 6 1), .run (.element 7 1), .run (.bind 5 6), .run (.del 6),
    .run (.bind 5 7), .destroy 6])).isSome = true := by decide +kernel

/-- After `unbind` the element stays. -/
example : (Mem.empty.execs 8 (exStart ++ [.run (.localView 5 2), .run (.element 6 1), .run (.bind 5 6), .run (.unbind 5), .run (.del 6),
    .destroy 6])).isNone = true := by decide +kernel

/-- Without binding it does not. -/
example : (Mem.empty.execs 8 (exStart ++ [.run (.localView 5 2), .run (.element 6 1), .run (.del 6), .destroy 6])).isSome = true := by
  decide +kernel

end Verif.PyLife
