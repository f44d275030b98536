import Verif.Update
import Verif.IndexTree.Model

/-!
# Lifetimes of bases, subspace bases, vectors, local views and discrete functions

Which objects may be destroyed, moved or updated while others still refer to them. Model of the members and pointers of
`DefaultGlobalBasis`, `SubspaceBasis`, `DefaultLocalView`, `SubspaceLocalView`, `ISTLVectorBackend`, `DiscreteGlobalBasisFunction` and
its local functions, and of `makeDiscreteGlobalBasisFunction`. What bases compute is a parameter (`Sys`), except that all pre-bases of
the library are shown to have the property needed of the parameter.
-/

namespace Verif.BasisLifetime

open IndexTree (MI)

/-! ## Model -/

/-- What bases do. `St` are states of a pre-basis, `N` is what `makeNode()` copies from the pre-basis by value, `B` the contents of the
tree and of the indices of a bound local view, `T` sub-trees, `V` grid views. `none` is undefined behaviour of the basis itself. -/
structure Sys (E V X Y K : Type) where
  St : Type
  N : Type
  B : Type
  T : Type
  /-- `makeNode()`; nodes have pointers to the pre-basis besides -/
  makeNode : St → N
  /-- `bindTree` and `indices`, defaultlocalview.hh:98-100: pointers in nodes lead to the present state of the pre-basis -/
  bindNode : St → N → E → Option B
  indices : B → List MI
  /-- `TypeTree::child` -/
  subtree : B → List Nat → Option T
  maxSize : St → Nat
  dimension : St → Nat
  /-- `update(gridView)` -/
  update : V → St → Option St
  /-- value of a discrete function for a tree and coefficients -/
  value : T → List K → X → Y

variable {E V X Y K : Type}

/-- A newly created local view, bound to `e`. -/
def Sys.fresh (S : Sys E V X Y K) (st : S.St) (e : E) : Option S.B := S.bindNode st (S.makeNode st) e

/-- Contract: `update` changes nothing that nodes have copied. Proved for all pre-bases below (`makeNode_basisUpdate`). -/
def Sys.OK (S : Sys E V X Y K) : Prop := ∀ v st st', S.update v st = some st' → S.makeNode st' = S.makeNode st

/-- How a local view or a function holds its basis: a pointer to a basis (`root`) or subspace basis (`sub`) elsewhere, or a
`std::shared_ptr` to one that was moved into it (`dune-common`: `wrap_or_move` moves rvalues and does not own lvalues). -/
inductive Held (S : Sys E V X Y K) where
  | root (a : Nat)
  | ownRoot (st : S.St)
  | sub (s : Nat)
  | ownSub (a : Nat) (path : List Nat)

/-- `DefaultLocalView::globalBasis_` (defaultlocalview.hh:174), also stored by the nodes. -/
inductive RootPtr (S : Sys E V X Y K) where
  | var (a : Nat)
  | own (st : S.St)

/-- `DefaultLocalView` (defaultlocalview.hh:174-177), `SubspaceLocalView` (subspacelocalview.hh:151-152) with pointer `held`. `data` is `none`
until the first `bind`, `unbind` keeps it. -/
structure View (S : Sys E V X Y K) where
  held : Held S
  root : RootPtr S
  node : S.N
  element : Option E
  data : Option S.B

/-- `Data::coefficients` (discreteglobalbasisfunction.hh:61-64): a pointer to a vector (lvalue, or inside of an owned `ISTLVectorBackend`,
istlvectorbackend.hh:311), a pointer to a backend, or an owned vector. -/
inductive Coef (K : Type) where
  | vec (v : Nat)
  | back (b : Nat)
  | own (c : MI → K)

/-- The shared data of a discrete function. -/
structure Fn (S : Sys E V X Y K) where
  basis : Held S
  coef : Coef K

/-- Objects of the user's program. -/
inductive Obj (S : Sys E V X Y K) where
  | root (st : S.St)
  /-- subspacebasis.hh:121-122 -/
  | sub (a : Nat) (path : List Nat)
  | vec (c : MI → K)
  /-- istlvectorbackend.hh:311 -/
  | back (v : Nat)
  | fn (f : Fn S)
  | view (l : View S)
  /-- discreteglobalbasisfunction.hh:186-188 -/
  | lf (f : Fn S) (l : View S) (dofs : List K)
  /-- moved from -/
  | moved

/-- Memory. Objects are numbered in the order of their creation; destroyed objects are `none`. -/
structure Mem (S : Sys E V X Y K) where
  obj : Nat → Option (Obj S)
  next : Nat

inductive Err where
  /-- a pointer to an object that was destroyed or moved from -/
  | dangling
  /-- undefined behaviour of the basis, e.g. a path that does not exist -/
  | contract
  /-- not a C++ program: a name that is not in scope or has the wrong type -/
  | scope
  deriving DecidableEq

/-- Arguments of `makeDiscreteGlobalBasisFunction`. -/
inductive Arg where
  | lvalue (n : Nat)
  | rvalue (n : Nat)

inductive Cmd (S : Sys E V X Y K) where
  | makeBasis (st : S.St)
  /-- `subspaceBasis(n, path)` -/
  | subspace (n : Nat) (path : List Nat)
  | vector (c : MI → K)
  /-- `istlVectorBackend(v)` -/
  | backend (v : Nat)
  | copy (n : Nat)
  | move (n : Nat)
  | destroy (n : Nat)
  | update (n : Nat) (v : V)
  /-- the entries of a vector change -/
  | assign (v : Nat) (c : MI → K)
  | localView (n : Nat)
  /-- `makeDiscreteGlobalBasisFunction(b, v)`. `conforms`: the vector type can be accessed by multi-indices. -/
  | function (b v : Arg) (conforms : Bool)
  | localFunction (f : Nat)
  | bind (l : Nat) (e : E)
  | unbind (l : Nat)
  | dimension (n : Nat)
  | indices (l : Nat)
  | tree (l : Nat)
  | maxSize (l : Nat)
  | eval (l : Nat) (x : X)

inductive Obs (S : Sys E V X Y K) where
  | created (n : Nat)
  | nat (n : Nat)
  | indices (l : List MI)
  | tree (t : S.T)
  | value (y : Y)

namespace Mem

variable {S : Sys E V X Y K}

def empty : Mem S := ⟨fun _ => none, 0⟩

/-- A new object. -/
def create (M : Mem S) (o : Obj S) : Mem S := ⟨Function.update M.obj M.next (some o), M.next + 1⟩

def set (M : Mem S) (n : Nat) (o : Option (Obj S)) : Mem S := ⟨Function.update M.obj n o, M.next⟩

/-- Following a pointer to a basis. -/
def getRoot (M : Mem S) (a : Nat) : Except Err S.St := match M.obj a with
  | some (.root st) => .ok st
  | _ => .error .dangling

/-- Following a pointer to a subspace basis. -/
def getSub (M : Mem S) (s : Nat) : Except Err (Nat × List Nat) := match M.obj s with
  | some (.sub a p) => .ok (a, p)
  | _ => .error .dangling

/-- Following a pointer to a vector. -/
def getVec (M : Mem S) (v : Nat) : Except Err (MI → K) := match M.obj v with
  | some (.vec c) => .ok c
  | _ => .error .dangling

/-- Following a pointer to a backend. -/
def getBack (M : Mem S) (b : Nat) : Except Err Nat := match M.obj b with
  | some (.back v) => .ok v
  | _ => .error .dangling

/-- State of the basis behind `globalBasis_`. -/
def rootState (M : Mem S) : RootPtr S → Except Err S.St
  | .var a => M.getRoot a
  | .own st => .ok st

/-- `basis->rootBasis()`: defaultglobalbasis.hh:168-171, subspacebasis.hh:104-107. -/
def rootOf (M : Mem S) : Held S → Except Err (RootPtr S)
  | .root a => .ok (.var a)
  | .ownRoot st => .ok (.own st)
  | .sub s => (M.getSub s).map fun p => .var p.1
  | .ownSub a _ => .ok (.var a)

/-- `basis->prefixPath()`: defaultglobalbasis.hh:174-177, subspacebasis.hh:109-112. The local view of a root basis returns its own
tree (defaultlocalview.hh:132-135) without looking at the basis. -/
def pathOf (M : Mem S) : Held S → Except Err (List Nat)
  | .root _ => .ok []
  | .ownRoot _ => .ok []
  | .sub s => (M.getSub s).map fun p => p.2
  | .ownSub _ p => .ok p

/-- `basis->localView()`: defaultlocalview.hh:72-78, subspacelocalview.hh:63-68, subspacebasis.hh:99-102. -/
def newView (M : Mem S) (h : Held S) : Except Err (View S) :=
  (M.rootOf h).bind fun r => (M.rootState r).map fun st => ⟨h, r, S.makeNode st, none, none⟩

/-- `bind`: defaultlocalview.hh:95-101, subspacelocalview.hh:75-78. -/
def bindView (M : Mem S) (l : View S) (e : E) : Except Err (View S) :=
  (M.rootState l.root).bind fun st => match S.bindNode st l.node e with
    | some b => .ok { l with element := some e, data := some b }
    | none => .error .contract

/-- Copy constructor: defaultlocalview.hh:81-88; implicit for `SubspaceLocalView`. -/
def copyView (M : Mem S) (l : View S) : Except Err (View S) :=
  (M.rootState l.root).bind fun st =>
    let l' : View S := ⟨l.held, l.root, S.makeNode st, none, none⟩
    match l.element with
    | none => .ok l'
    | some e => M.bindView l' e

/-- `tree()`: defaultlocalview.hh:132-135, subspacelocalview.hh:109-112. -/
def treeOf (M : Mem S) (l : View S) : Except Err S.T :=
  (M.pathOf l.held).bind fun p => match l.data with
    | none => .error .contract
    | some b => match S.subtree b p with
      | some t => .ok t
      | none => .error .contract

/-- The coefficients of a function. -/
def coefs (M : Mem S) : Coef K → Except Err (MI → K)
  | .vec v => M.getVec v
  | .back b => (M.getBack b).bind M.getVec
  | .own c => .ok c

/-- `Data::basis` for an argument, discreteglobalbasisfunction.hh:386-390, and what is left of the argument. `basis.gridView()` in line 389
follows the pointer of a subspace basis. -/
def passBasis (M : Mem S) : Arg → Except Err (Held S × Mem S)
  | .lvalue n => match M.obj n with
    | some (.root _) => .ok (.root n, M)
    | some (.sub a _) => (M.getRoot a).map fun _ => (.sub n, M)
    | _ => .error .scope
  | .rvalue n => match M.obj n with
    | some (.root st) => .ok (.ownRoot st, M.set n (some .moved))
    | some (.sub a p) => (M.getRoot a).map fun _ => (.ownSub a p, M)
    | _ => .error .scope

/-- `Data::coefficients` for an argument, discreteglobalbasisfunction.hh:465-477 and 386-390. A vector that cannot be accessed by
multi-indices is wrapped by `istlVectorBackend(v)`, also if it is an rvalue. A moved backend is a copy. -/
def passVec (M : Mem S) (conforms : Bool) : Arg → Except Err (Coef K × Mem S)
  | .lvalue n => match M.obj n with
    | some (.vec _) => .ok (.vec n, M)
    | some (.back _) => .ok (.back n, M)
    | _ => .error .scope
  | .rvalue n => match M.obj n with
    | some (.vec c) => if conforms then .ok (.own c, M.set n (some .moved)) else .ok (.vec n, M)
    | some (.back v) => .ok (.vec v, M)
    | _ => .error .scope

/-- Reading the coefficients in `bind`, discreteglobalbasisfunction.hh:138-147. All indices of the local view are read here, the code reads those of
the sub-tree only. -/
def readDofs (M : Mem S) (f : Fn S) (l : View S) : Except Err (List K) :=
  (M.treeOf l).bind fun _ => (M.coefs f.coef).map fun c => match l.data with
    | some b => (S.indices b).map c
    | none => []

/-- One statement. Constructors create the object with number `next`. -/
def exec (M : Mem S) : Cmd S → Except Err (Mem S × List (Obs S))
  | .makeBasis st => .ok (M.create (.root st), [.created M.next])
  -- subspacebasis.hh:52-56 and 63-66 and 147-157
  | .subspace n p => match M.obj n with
    | some (.root _) => .ok (M.create (.sub n p), [.created M.next])
    | some (.sub a q) => .ok (M.create (.sub a (q ++ p)), [.created M.next])
    | _ => .error .scope
  | .vector c => .ok (M.create (.vec c), [.created M.next])
  | .backend v => match M.obj v with
    | some (.vec _) => .ok (M.create (.back v), [.created M.next])
    | _ => .error .scope
  | .copy n => match M.obj n with
    | none => .error .scope
    | some .moved => .error .scope
    | some (.view l) => (M.copyView l).map fun l' => (M.create (.view l'), [.created M.next])
    -- discreteglobalbasisfunction.hh:92-99
    | some (.lf f l d) => (M.copyView l).map fun l' => (M.create (.lf f l' (if l'.element.isSome then d else [])), [.created M.next])
    | some o => .ok (M.create o, [.created M.next])
  | .move n => match M.obj n with
    | none => .error .scope
    | some .moved => .error .scope
    | some (.root st) => .ok ((M.set n (some .moved)).create (.root st), [.created M.next])
    | some (.vec c) => .ok ((M.set n (some .moved)).create (.vec c), [.created M.next])
    | some (.fn f) => .ok ((M.set n (some .moved)).create (.fn f), [.created M.next])
    -- the copy constructors suppress the move constructors
    | some (.view l) => (M.copyView l).map fun l' => (M.create (.view l'), [.created M.next])
    | some (.lf f l d) => (M.copyView l).map fun l' => (M.create (.lf f l' (if l'.element.isSome then d else [])), [.created M.next])
    | some o => .ok (M.create o, [.created M.next])
  | .destroy n => match M.obj n with
    | none => .error .scope
    | some _ => .ok (M.set n none, [])
  | .update n v => match M.obj n with
    | some (.root st) => match S.update v st with
      | some st' => .ok (M.set n (some (.root st')), [])
      | none => .error .contract
    | _ => .error .scope
  | .assign v c => match M.obj v with
    | some (.vec _) => .ok (M.set v (some (.vec c)), [])
    | _ => .error .scope
  | .localView n => match M.obj n with
    | some (.root _) => (M.newView (.root n)).map fun l => (M.create (.view l), [.created M.next])
    | some (.sub _ _) => (M.newView (.sub n)).map fun l => (M.create (.view l), [.created M.next])
    | _ => .error .scope
  | .function b v conforms => (M.passBasis b).bind fun r => (r.2.passVec conforms v).map fun r' =>
      (r'.2.create (.fn ⟨r.1, r'.1⟩), [.created M.next])
  -- discreteglobalbasisfunction.hh:79-84
  | .localFunction n => match M.obj n with
    | some (.fn f) => (M.newView f.basis).map fun l => (M.create (.lf f l []), [.created M.next])
    | _ => .error .scope
  | .bind n e => match M.obj n with
    | some (.view l) => (M.bindView l e).map fun l' => (M.set n (some (.view l')), [])
    | some (.lf f l _) => (M.bindView l e).bind fun l' => (M.readDofs f l').map fun d => (M.set n (some (.lf f l' d)), [])
    | _ => .error .scope
  -- defaultlocalview.hh:123-126, discreteglobalbasisfunction.hh:151-154
  | .unbind n => match M.obj n with
    | some (.view l) => .ok (M.set n (some (.view { l with element := none })), [])
    | some (.lf f l d) => .ok (M.set n (some (.lf f { l with element := none } d)), [])
    | _ => .error .scope
  -- defaultglobalbasis.hh:144-147, subspacebasis.hh:79-82
  | .dimension n => match M.obj n with
    | some (.root st) => .ok (M, [.nat (S.dimension st)])
    | some (.sub a _) => (M.getRoot a).map fun st => (M, [.nat (S.dimension st)])
    | _ => .error .scope
  -- defaultlocalview.hh:156-159, subspacelocalview.hh:133-136
  | .indices n => match M.obj n with
    | some (.view l) => match l.data with
      | some b => .ok (M, [.indices (S.indices b)])
      | none => .error .contract
    | _ => .error .scope
  | .tree n => match M.obj n with
    | some (.view l) => (M.treeOf l).map fun t => (M, [.tree t])
    | _ => .error .scope
  -- defaultlocalview.hh:150-153, subspacelocalview.hh:127-130
  | .maxSize n => match M.obj n with
    | some (.view l) => (M.rootState l.root).map fun st => (M, [.nat (S.maxSize st)])
    | _ => .error .scope
  -- discreteglobalbasisfunction.hh:336-370
  | .eval n x => match M.obj n with
    | some (.lf _ l d) => if l.element.isSome then (M.treeOf l).map fun t => (M, [.value (S.value t d x)]) else .error .contract
    | _ => .error .scope

def execs : Mem S → List (Cmd S) → Except Err (Mem S × List (Obs S))
  | M, [] => .ok (M, [])
  | M, c :: cs => (M.exec c).bind fun r => (execs r.1 cs).map fun r' => (r'.1, r.2 ++ r'.2)

end Mem

/-! ## Specification -/

/-- The programs that can be run, and what they lead to. -/
def Reachable {S : Sys E V X Y K} (M : Mem S) : Prop := ∃ cs obs, Mem.empty.execs cs = .ok (M, obs)

inductive Kind | root | sub | vec | back
  deriving DecidableEq

section
variable {S : Sys E V X Y K}

def Held.refs : Held S → List (Kind × Nat)
  | .root a => [(.root, a)]
  | .ownRoot _ => []
  | .sub s => [(.sub, s)]
  | .ownSub a _ => [(.root, a)]

def RootPtr.refs : RootPtr S → List (Kind × Nat)
  | .var a => [(.root, a)]
  | .own _ => []

def Coef.refs : Coef K → List (Kind × Nat)
  | .vec v => [(.vec, v)]
  | .back b => [(.back, b)]
  | .own _ => []

/-- The objects an object refers to. -/
def Obj.refs : Obj S → List (Kind × Nat)
  | .sub a _ => [(.root, a)]
  | .back v => [(.vec, v)]
  | .fn f => f.basis.refs ++ f.coef.refs
  | .view l => l.held.refs ++ l.root.refs
  | .lf f l _ => f.basis.refs ++ f.coef.refs ++ (l.held.refs ++ l.root.refs)
  | _ => []

def Obj.kind : Obj S → Option Kind
  | .root _ => some .root
  | .sub _ _ => some .sub
  | .vec _ => some .vec
  | .back _ => some .back
  | _ => none

/-- No existing object refers to object `n`. -/
def Mem.Unreferenced (M : Mem S) (n : Nat) : Prop := ∀ m o, M.obj m = some o → ∀ k, (k, n) ∈ o.refs → False

/-- The objects a statement destroys or moves from. -/
def Cmd.invalidates : Cmd S → List Nat
  | .destroy n => [n]
  | .move n => [n]
  | .function b v _ => (match b with | .rvalue n => [n] | _ => []) ++ (match v with | .rvalue n => [n] | _ => [])
  | _ => []

end

/-- Statements that destroy or move from objects to which no existing object refers, and all other statements. -/
def Mem.Safe {S : Sys E V X Y K} (M : Mem S) (c : Cmd S) : Prop := ∀ n ∈ c.invalidates, M.Unreferenced n

/-- Programs of safe statements, whatever they do after a failure. -/
def Mem.SafeRun {S : Sys E V X Y K} : Mem S → List (Cmd S) → Prop
  | _, [] => True
  | M, c :: cs => M.Safe c ∧ ∀ r, M.exec c = .ok r → Mem.SafeRun r.1 cs

/-- Statements of programs in which all objects are variables of nested scopes: nothing is moved, the object created last is destroyed
first. -/
def Mem.Scoped {S : Sys E V X Y K} (M : Mem S) (c : Cmd S) : Prop := match c with
  | .destroy n => ∀ m, n < m → M.obj m = none
  | .move _ => False
  | .function b v _ => (∃ n, b = .lvalue n) ∧ ∃ n, v = .lvalue n
  | _ => True

def Mem.ScopedRun {S : Sys E V X Y K} : Mem S → List (Cmd S) → Prop
  | _, [] => True
  | M, c :: cs => M.Scoped c ∧ ∀ r, M.exec c = .ok r → Mem.ScopedRun r.1 cs

/-! ## Proofs -/

section
variable {S : Sys E V X Y K}

def Obj.views : Obj S → List (View S)
  | .view l => [l]
  | .lf _ l _ => [l]
  | _ => []

/-- What holds for a local view in all programs. -/
structure ViewOK (M : Mem S) (l : View S) : Prop where
  node : ∀ st, M.rootState l.root = .ok st → l.node = S.makeNode st
  root : ∀ r, M.rootOf l.held = .ok r → r = l.root

structure Inv (M : Mem S) : Prop where
  bound : ∀ n, M.next ≤ n → M.obj n = none
  refs : ∀ n o, M.obj n = some o → ∀ p ∈ o.refs, p.2 < n
  views : ∀ n o, M.obj n = some o → ∀ l ∈ o.views, ViewOK M l

theorem Obj.view_refs {o : Obj S} {l : View S} (hl : l ∈ o.views) {p : Kind × Nat} (hp : p ∈ l.held.refs ++ l.root.refs) :
    p ∈ o.refs := by
  cases o <;> simp only [Obj.views, List.mem_singleton, List.not_mem_nil] at hl
  · subst hl; exact hp
  · subst hl; exact List.mem_append_right _ hp

theorem Inv.lt {M : Mem S} (h : Inv M) {n : Nat} {o : Obj S} (ho : M.obj n = some o) : n < M.next := by
  by_contra hc
  rw [h.bound n (by omega)] at ho
  cases ho

/-- Local views are not affected by changes of the objects they refer to, other than destruction, moves and updates. -/
theorem ViewOK.congr {M M' : Mem S} {l : View S} (h : ViewOK M l)
    (hr : ∀ a, (Kind.root, a) ∈ l.root.refs → ∀ st, M'.getRoot a = .ok st → ∃ st0, M.getRoot a = .ok st0 ∧ S.makeNode st = S.makeNode st0)
    (hs : ∀ s, (Kind.sub, s) ∈ l.held.refs → ∀ p, M'.getSub s = .ok p → M.getSub s = .ok p) : ViewOK M' l := by
  constructor
  · intro st hst
    cases hroot : l.root with
    | own st0 =>
      rw [hroot] at hst
      exact h.node st (by rw [hroot]; exact hst)
    | var a =>
      rw [hroot] at hst
      obtain ⟨st0, h0, he⟩ := hr a (by rw [hroot]; simp [RootPtr.refs]) st hst
      rw [he]
      exact h.node st0 (by rw [hroot]; exact h0)
  · intro r hr'
    refine h.root r ?_
    cases hh : l.held with
    | root a => rw [hh] at hr'; exact hr'
    | ownRoot st => rw [hh] at hr'; exact hr'
    | ownSub a p => rw [hh] at hr'; exact hr'
    | sub s =>
      rw [hh] at hr'
      simp only [Mem.rootOf] at hr' ⊢
      cases hg : M'.getSub s with
      | error e => rw [hg] at hr'; cases hr'
      | ok p => rw [hs s (by rw [hh]; simp [Held.refs]) p hg]; rw [hg] at hr'; exact hr'

theorem create_obj_of_lt (M : Mem S) (o : Obj S) {n : Nat} (hn : n ≠ M.next) : (M.create o).obj n = M.obj n := by
  simp [Mem.create, Function.update_of_ne hn]

theorem create_obj_self (M : Mem S) (o : Obj S) : (M.create o).obj M.next = some o := by
  simp [Mem.create]

theorem set_obj_of_ne (M : Mem S) (o : Option (Obj S)) {n m : Nat} (hn : m ≠ n) : (M.set n o).obj m = M.obj m := by
  simp [Mem.set, Function.update_of_ne hn]

theorem set_obj_self (M : Mem S) (o : Option (Obj S)) (n : Nat) : (M.set n o).obj n = o := by
  simp [Mem.set]

theorem viewOK_create {M : Mem S} {l : View S} (h : ViewOK M l) (o : Obj S)
    (hl : ∀ p ∈ l.held.refs ++ l.root.refs, p.2 < M.next) : ViewOK (M.create o) l := by
  refine h.congr (fun a ha st hst => ⟨st, ?_, rfl⟩) fun s hs p hp => ?_
  · have := hl _ (List.mem_append_right _ ha)
    simp only [Mem.getRoot] at hst ⊢
    rwa [create_obj_of_lt M o (by simp at this; omega)] at hst
  · have := hl _ (List.mem_append_left _ hs)
    simp only [Mem.getSub] at hp ⊢
    rwa [create_obj_of_lt M o (by simp at this; omega)] at hp

theorem Inv.create {M : Mem S} (h : Inv M) (o : Obj S) (hr : ∀ p ∈ o.refs, p.2 < M.next) (hv : ∀ l ∈ o.views, ViewOK M l) :
    Inv (M.create o) := by
  refine ⟨fun n hn => ?_, fun n o' ho' => ?_, fun n o' ho' l hl => ?_⟩
  · have : M.next + 1 ≤ n := hn
    rw [create_obj_of_lt M o (by omega)]
    exact h.bound n (by omega)
  · by_cases hn : n = M.next
    · subst hn
      rw [create_obj_self, Option.some_inj] at ho'
      subst ho'
      exact hr
    · rw [create_obj_of_lt M o hn] at ho'
      exact h.refs n o' ho'
  · by_cases hn : n = M.next
    · subst hn
      rw [create_obj_self, Option.some_inj] at ho'
      subst ho'
      exact viewOK_create (hv l hl) o fun p hp => hr p (Obj.view_refs hl hp)
    · rw [create_obj_of_lt M o hn] at ho'
      refine viewOK_create (h.views n o' ho' l hl) o fun p hp => ?_
      exact lt_trans (h.refs n o' ho' p (Obj.view_refs hl hp)) (h.lt ho')

/-- Changes of an object that leave the objects referring to it alone. -/
def Compat (S : Sys E V X Y K) : Obj S → Option (Obj S) → Prop
  | _, none => True
  | _, some .moved => True
  | .root st, some (.root st') => S.makeNode st' = S.makeNode st
  | _, some (.root _) => False
  | _, some (.sub _ _) => False
  | _, _ => True

theorem viewOK_set {M : Mem S} {l : View S} (h : ViewOK M l) {n : Nat} {o : Obj S} {o' : Option (Obj S)} (ho : M.obj n = some o)
    (hc : Compat S o o') : ViewOK (M.set n o') l := by
  refine h.congr (fun a ha st hst => ?_) fun s hs p hp => ?_
  · by_cases hn : a = n
    · subst hn
      simp only [Mem.getRoot, set_obj_self] at hst
      cases o' with
      | none => cases hst
      | some o' =>
        cases o' <;> simp only [reduceCtorEq] at hst
        cases hst
        cases o <;> simp only [Compat] at hc
        exact ⟨_, by simp only [Mem.getRoot, ho], hc⟩
    · simp only [Mem.getRoot] at hst ⊢
      rw [set_obj_of_ne M o' hn] at hst
      exact ⟨st, hst, rfl⟩
  · by_cases hn : s = n
    · subst hn
      simp only [Mem.getSub, set_obj_self] at hp
      cases o' with
      | none => cases hp
      | some o' =>
        cases o' <;> simp only [reduceCtorEq] at hp
        cases o <;> simp only [Compat] at hc
    · simp only [Mem.getSub] at hp ⊢
      rwa [set_obj_of_ne M o' hn] at hp

theorem Inv.set {M : Mem S} (h : Inv M) {n : Nat} {o : Obj S} {o' : Option (Obj S)} (ho : M.obj n = some o) (hc : Compat S o o')
    (hr : ∀ x, o' = some x → ∀ p ∈ x.refs, p.2 < n) (hv : ∀ x, o' = some x → ∀ l ∈ x.views, ViewOK M l) : Inv (M.set n o') := by
  refine ⟨fun m hm => ?_, fun m x hx => ?_, fun m x hx l hl => ?_⟩
  · have := h.lt ho
    have hm' : M.next ≤ m := hm
    rw [set_obj_of_ne M o' (by omega)]
    exact h.bound m hm'
  · by_cases hn : m = n
    · subst hn
      rw [set_obj_self] at hx
      exact hr x hx
    · rw [set_obj_of_ne M o' hn] at hx
      exact h.refs m x hx
  · by_cases hn : m = n
    · subst hn
      rw [set_obj_self] at hx
      exact viewOK_set (hv x hx l hl) ho hc
    · rw [set_obj_of_ne M o' hn] at hx
      exact viewOK_set (h.views m x hx l hl) ho hc

theorem inv_empty : Inv (Mem.empty : Mem S) := ⟨fun _ _ => rfl, fun _ _ h => (by cases h), fun _ _ h => (by cases h)⟩

theorem except_bind_ok {α β : Type} {x : Except Err α} {f : α → Except Err β} {b : β} (h : x.bind f = .ok b) :
    ∃ a, x = .ok a ∧ f a = .ok b := by
  cases x with
  | error e => cases h
  | ok a => exact ⟨a, rfl, h⟩

theorem except_map_ok {α β : Type} {x : Except Err α} {f : α → β} {b : β} (h : x.map f = .ok b) : ∃ a, x = .ok a ∧ f a = b := by
  cases x with
  | error e => cases h
  | ok a => cases h; exact ⟨a, rfl, rfl⟩

theorem getRoot_ok {M : Mem S} {a : Nat} {st : S.St} (h : M.getRoot a = .ok st) : M.obj a = some (.root st) := by
  unfold Mem.getRoot at h
  split at h <;> cases h
  assumption

theorem getSub_ok {M : Mem S} {s : Nat} {p : Nat × List Nat} (h : M.getSub s = .ok p) : M.obj s = some (.sub p.1 p.2) := by
  unfold Mem.getSub at h
  split at h <;> cases h
  assumption

/-- New local views. -/
theorem newView_ok {M : Mem S} {h : Held S} {l : View S} (hl : M.newView h = .ok l) :
    ViewOK M l ∧ l.held = h ∧ M.rootOf h = .ok l.root ∧ l.element = none ∧ l.data = none := by
  obtain ⟨r, hr, hl⟩ := except_bind_ok hl
  obtain ⟨st, hst, rfl⟩ := except_map_ok hl
  refine ⟨⟨fun st' h' => ?_, fun r' hr' => ?_⟩, rfl, hr, rfl, rfl⟩
  · change M.rootState r = _ at h'
    rw [hst] at h'
    cases h'
    rfl
  · change M.rootOf h = _ at hr'
    rw [hr] at hr'
    cases hr'
    rfl

theorem bindView_ok {M : Mem S} {l l' : View S} {e : E} (hv : ViewOK M l) (h : M.bindView l e = .ok l') :
    ViewOK M l' ∧ l'.held = l.held ∧ l'.root = l.root ∧ l'.element = some e ∧
      ∃ st b, M.rootState l.root = .ok st ∧ S.fresh st e = some b ∧ l'.data = some b := by
  obtain ⟨st, hst, h⟩ := except_bind_ok h
  split at h
  · rename_i b hb
    cases h
    refine ⟨⟨hv.node, hv.root⟩, rfl, rfl, rfl, st, b, hst, ?_, rfl⟩
    rw [Sys.fresh, ← hv.node st hst]
    exact hb
  · cases h

theorem copyView_ok {M : Mem S} {l l' : View S} (hv : ViewOK M l) (h : M.copyView l = .ok l') :
    ViewOK M l' ∧ l'.held = l.held ∧ l'.root = l.root ∧ l'.element = l.element := by
  obtain ⟨st, hst, h⟩ := except_bind_ok h
  have hv' : ViewOK M (⟨l.held, l.root, S.makeNode st, none, none⟩ : View S) := by
    refine ⟨fun st' h' => ?_, hv.root⟩
    change M.rootState l.root = _ at h'
    rw [hst] at h'
    cases h'
    rfl
  simp only at h
  split at h
  · rename_i he
    cases h
    exact ⟨hv', rfl, rfl, he.symm⟩
  · rename_i e he
    obtain ⟨h1, h2, h3, h4, -⟩ := bindView_ok hv' h
    exact ⟨h1, h2, h3, by rw [h4, he]⟩

theorem rootOf_refs {M : Mem S} (hM : Inv M) {h : Held S} {r : RootPtr S} {n : Nat} (hr : M.rootOf h = .ok r)
    (hh : ∀ p ∈ h.refs, p.2 < n) : ∀ p ∈ r.refs, p.2 < n := by
  intro p hp
  cases h with
  | root a => cases hr; exact hh p hp
  | ownRoot st => cases hr; simp [RootPtr.refs] at hp
  | ownSub a q => cases hr; exact hh p hp
  | sub s =>
    obtain ⟨q, hq, rfl⟩ := except_map_ok hr
    have h1 := hM.refs s _ (getSub_ok hq) (.root, q.1) (by simp [Obj.refs])
    have h2 := hh (.sub, s) (by simp [Held.refs])
    simp only [RootPtr.refs, List.mem_singleton] at hp
    subst hp
    exact lt_trans h1 h2


theorem Inv.view_lt {M : Mem S} (h : Inv M) {n : Nat} {o : Obj S} (ho : M.obj n = some o) : ∀ p ∈ o.refs, p.2 < M.next :=
  fun p hp => lt_trans (h.refs n o ho p hp) (h.lt ho)

theorem inv_passBasis {M M' : Mem S} (hM : Inv M) {b : Arg} {h : Held S} (hb : M.passBasis b = .ok (h, M')) :
    Inv M' ∧ M'.next = M.next ∧ ∀ p ∈ h.refs, p.2 < M.next := by
  cases b with
  | lvalue n =>
    simp only [Mem.passBasis] at hb
    split at hb
    · rename_i st ho
      cases hb
      exact ⟨hM, rfl, by simpa [Held.refs] using hM.lt ho⟩
    · rename_i a q ho
      obtain ⟨-, -, hb⟩ := except_map_ok hb
      cases hb
      exact ⟨hM, rfl, by simpa [Held.refs] using hM.lt ho⟩
    · cases hb
  | rvalue n =>
    simp only [Mem.passBasis] at hb
    split at hb
    · rename_i st ho
      cases hb
      exact ⟨hM.set ho trivial (fun x hx => by cases hx; simp [Obj.refs]) fun x hx => by cases hx; simp [Obj.views], rfl, by simp [Held.refs]⟩
    · rename_i a q ho
      obtain ⟨-, -, hb⟩ := except_map_ok hb
      cases hb
      exact ⟨hM, rfl, by simpa [Held.refs] using hM.view_lt ho (.root, a) (by simp [Obj.refs])⟩
    · cases hb

theorem inv_passVec {M M' : Mem S} (hM : Inv M) {v : Arg} {conforms : Bool} {c : Coef K} (hv : M.passVec conforms v = .ok (c, M')) :
    Inv M' ∧ M'.next = M.next ∧ ∀ p ∈ c.refs, p.2 < M.next := by
  cases v with
  | lvalue n =>
    simp only [Mem.passVec] at hv
    split at hv
    · rename_i ho
      cases hv
      exact ⟨hM, rfl, by simpa [Coef.refs] using hM.lt ho⟩
    · rename_i ho
      cases hv
      exact ⟨hM, rfl, by simpa [Coef.refs] using hM.lt ho⟩
    · cases hv
  | rvalue n =>
    simp only [Mem.passVec] at hv
    split at hv
    · rename_i c0 ho
      split at hv
      · cases hv
        exact ⟨hM.set ho trivial (fun x hx => by cases hx; simp [Obj.refs]) fun x hx => by cases hx; simp [Obj.views], rfl, by simp [Coef.refs]⟩
      · cases hv
        exact ⟨hM, rfl, by simpa [Coef.refs] using hM.lt ho⟩
    · rename_i w ho
      cases hv
      exact ⟨hM, rfl, by simpa [Coef.refs] using hM.view_lt ho (.vec, w) (by simp [Obj.refs])⟩
    · cases hv

/-- The references of a new local view. -/
theorem newView_refs {M : Mem S} (hM : Inv M) {h : Held S} {l : View S} {n : Nat} (hl : M.newView h = .ok l) (hh : ∀ p ∈ h.refs, p.2 < n) :
    ∀ p ∈ l.held.refs ++ l.root.refs, p.2 < n := by
  obtain ⟨-, h1, h2, -⟩ := newView_ok hl
  intro p hp
  rcases List.mem_append.mp hp with hp | hp
  · rw [h1] at hp
    exact hh p hp
  · exact rootOf_refs hM h2 hh p hp

/-- All statements preserve the invariant. -/
theorem inv_exec (hS : S.OK) {M M' : Mem S} {c : Cmd S} {obs : List (Obs S)} (hM : Inv M) (h : M.exec c = .ok (M', obs)) : Inv M' := by
  cases c with
  | makeBasis st => cases h; exact hM.create _ (by simp [Obj.refs]) (by simp [Obj.views])
  | vector c => cases h; exact hM.create _ (by simp [Obj.refs]) (by simp [Obj.views])
  | subspace n p =>
    simp only [Mem.exec] at h
    split at h
    · rename_i st ho
      cases h
      exact hM.create _ (by simpa [Obj.refs] using hM.lt ho) (by simp [Obj.views])
    · rename_i a q ho
      cases h
      exact hM.create _ (by simpa [Obj.refs] using hM.view_lt ho (.root, a) (by simp [Obj.refs])) (by simp [Obj.views])
    · cases h
  | backend v =>
    simp only [Mem.exec] at h
    split at h
    · rename_i c ho
      cases h
      exact hM.create _ (by simpa [Obj.refs] using hM.lt ho) (by simp [Obj.views])
    · cases h
  | copy n =>
    simp only [Mem.exec] at h
    split at h
    · cases h
    · cases h
    · rename_i l ho
      obtain ⟨l', hl, h⟩ := except_map_ok h
      cases h
      obtain ⟨h1, h2, h3, -⟩ := copyView_ok (hM.views n _ ho l (by simp [Obj.views])) hl
      refine hM.create _ ?_ (by simpa [Obj.views] using h1)
      have := hM.view_lt ho
      simpa [Obj.refs, h2, h3] using this
    · rename_i f l d ho
      obtain ⟨l', hl, h⟩ := except_map_ok h
      cases h
      obtain ⟨h1, h2, h3, -⟩ := copyView_ok (hM.views n _ ho l (by simp [Obj.views])) hl
      refine hM.create _ ?_ (by simpa [Obj.views] using h1)
      have := hM.view_lt ho
      simpa [Obj.refs, h2, h3] using this
    · rename_i o _ _ _ ho
      cases h
      exact hM.create _ (hM.view_lt ho) (hM.views n _ ho)
  | move n =>
    simp only [Mem.exec] at h
    have hmv : ∀ o, M.obj n = some o → Inv (M.set n (some .moved)) := fun o ho =>
      hM.set ho (by cases o <;> trivial) (fun x hx => by cases hx; simp [Obj.refs]) fun x hx => by cases hx; simp [Obj.views]
    split at h
    · cases h
    · cases h
    · rename_i st ho
      cases h
      exact (hmv _ ho).create _ (by simp [Obj.refs]) (by simp [Obj.views])
    · rename_i c ho
      cases h
      exact (hmv _ ho).create _ (by simp [Obj.refs]) (by simp [Obj.views])
    · rename_i f ho
      cases h
      exact (hmv _ ho).create _ (hM.view_lt ho) (by simp [Obj.views])
    · rename_i l ho
      obtain ⟨l', hl, h⟩ := except_map_ok h
      cases h
      obtain ⟨h1, h2, h3, -⟩ := copyView_ok (hM.views n _ ho l (by simp [Obj.views])) hl
      refine hM.create _ ?_ (by simpa [Obj.views] using h1)
      have := hM.view_lt ho
      simpa [Obj.refs, h2, h3] using this
    · rename_i f l d ho
      obtain ⟨l', hl, h⟩ := except_map_ok h
      cases h
      obtain ⟨h1, h2, h3, -⟩ := copyView_ok (hM.views n _ ho l (by simp [Obj.views])) hl
      refine hM.create _ ?_ (by simpa [Obj.views] using h1)
      have := hM.view_lt ho
      simpa [Obj.refs, h2, h3] using this
    · rename_i o _ _ _ _ _ _ ho
      cases h
      exact hM.create _ (hM.view_lt ho) (hM.views n _ ho)
  | destroy n =>
    simp only [Mem.exec] at h
    split at h
    · cases h
    · rename_i o ho
      cases h
      exact hM.set ho (by cases o <;> trivial) (fun x hx => by cases hx) fun x hx => by cases hx
  | update n v =>
    simp only [Mem.exec] at h
    split at h
    · rename_i st ho
      split at h
      · rename_i st' hst
        cases h
        exact hM.set ho (hS v st st' hst) (fun x hx => by cases hx; simp [Obj.refs]) fun x hx => by cases hx; simp [Obj.views]
      · cases h
    · cases h
  | assign v c =>
    simp only [Mem.exec] at h
    split at h
    · rename_i c0 ho
      cases h
      exact hM.set ho trivial (fun x hx => by cases hx; simp [Obj.refs]) fun x hx => by cases hx; simp [Obj.views]
    · cases h
  | localView n =>
    simp only [Mem.exec] at h
    split at h
    · rename_i st ho
      obtain ⟨l, hl, h⟩ := except_map_ok h
      cases h
      refine hM.create _ (newView_refs hM hl ?_) (by simpa [Obj.views] using (newView_ok hl).1)
      simpa [Held.refs] using hM.lt ho
    · rename_i a q ho
      obtain ⟨l, hl, h⟩ := except_map_ok h
      cases h
      refine hM.create _ (newView_refs hM hl ?_) (by simpa [Obj.views] using (newView_ok hl).1)
      simpa [Held.refs] using hM.lt ho
    · cases h
  | function b v conforms =>
    obtain ⟨⟨hb, M1⟩, h1, h⟩ := except_bind_ok h
    obtain ⟨⟨c, M2⟩, h2, h⟩ := except_map_ok h
    cases h
    obtain ⟨i1, n1, r1⟩ := inv_passBasis hM h1
    obtain ⟨i2, n2, r2⟩ := inv_passVec i1 h2
    refine i2.create _ ?_ (by simp [Obj.views])
    intro p hp
    rcases List.mem_append.mp hp with hp | hp
    · rw [n2, n1]; exact r1 p hp
    · rw [n2]; exact r2 p hp
  | localFunction n =>
    simp only [Mem.exec] at h
    split at h
    · rename_i f ho
      obtain ⟨l, hl, h⟩ := except_map_ok h
      cases h
      have hf := hM.view_lt ho
      refine hM.create _ ?_ (by simpa [Obj.views] using (newView_ok hl).1)
      intro p hp
      rcases List.mem_append.mp hp with hp | hp
      · exact hf p hp
      · exact newView_refs hM hl (fun q hq => hf q (List.mem_append_left _ hq)) p hp
    · cases h
  | bind n e =>
    simp only [Mem.exec] at h
    split at h
    · rename_i l ho
      obtain ⟨l', hl, h⟩ := except_map_ok h
      cases h
      obtain ⟨h1, h2, h3, -⟩ := bindView_ok (hM.views n _ ho l (by simp [Obj.views])) hl
      refine hM.set ho trivial (fun x hx => ?_) fun x hx => ?_
      · cases hx
        have := hM.refs n _ ho
        simpa [Obj.refs, h2, h3] using this
      · cases hx
        simpa [Obj.views] using h1
    · rename_i f l d ho
      obtain ⟨l', hl, h⟩ := except_bind_ok h
      obtain ⟨d', -, h⟩ := except_map_ok h
      cases h
      obtain ⟨h1, h2, h3, -⟩ := bindView_ok (hM.views n _ ho l (by simp [Obj.views])) hl
      refine hM.set ho trivial (fun x hx => ?_) fun x hx => ?_
      · cases hx
        have := hM.refs n _ ho
        simpa [Obj.refs, h2, h3] using this
      · cases hx
        simpa [Obj.views] using h1
    · cases h
  | unbind n =>
    simp only [Mem.exec] at h
    split at h
    · rename_i l ho
      cases h
      have hv := hM.views n _ ho l (by simp [Obj.views])
      refine hM.set ho trivial (fun x hx => ?_) fun x hx => ?_
      · cases hx
        have := hM.refs n _ ho
        exact this
      · cases hx
        simpa [Obj.views] using (⟨hv.node, hv.root⟩ : ViewOK M { l with element := none })
    · rename_i f l d ho
      cases h
      have hv := hM.views n _ ho l (by simp [Obj.views])
      refine hM.set ho trivial (fun x hx => ?_) fun x hx => ?_
      · cases hx
        have := hM.refs n _ ho
        exact this
      · cases hx
        simpa [Obj.views] using (⟨hv.node, hv.root⟩ : ViewOK M { l with element := none })
    · cases h
  | dimension n =>
    simp only [Mem.exec] at h
    split at h
    · cases h; exact hM
    · obtain ⟨_, _, h⟩ := except_map_ok h
      cases h; exact hM
    · cases h
  | indices n =>
    simp only [Mem.exec] at h
    split at h
    · split at h
      · cases h; exact hM
      · cases h
    · cases h
  | tree n =>
    simp only [Mem.exec] at h
    split at h
    · obtain ⟨_, _, h⟩ := except_map_ok h
      cases h; exact hM
    · cases h
  | maxSize n =>
    simp only [Mem.exec] at h
    split at h
    · obtain ⟨_, _, h⟩ := except_map_ok h
      cases h; exact hM
    · cases h
  | eval n x =>
    simp only [Mem.exec] at h
    split at h
    · split at h
      · obtain ⟨_, _, h⟩ := except_map_ok h
        cases h; exact hM
      · cases h
    · cases h

theorem inv_execs (hS : S.OK) : ∀ (cs : List (Cmd S)) {M M' : Mem S} {obs : List (Obs S)}, Inv M → M.execs cs = .ok (M', obs) → Inv M'
  | [], _, _, _, hM, h => by cases h; exact hM
  | c :: cs, M, M', obs, hM, h => by
    obtain ⟨r, hr, h⟩ := except_bind_ok h
    obtain ⟨r', hr', h⟩ := except_map_ok h
    cases h
    exact inv_execs hS cs (inv_exec hS hM hr) hr'

theorem Reachable.inv (hS : S.OK) {M : Mem S} (h : Reachable M) : Inv M := by
  obtain ⟨cs, obs, h⟩ := h
  exact inv_execs hS cs inv_empty h


/-! ### Live references -/

/-- Every reference leads to an object of the right type. -/
def Live (M : Mem S) : Prop := ∀ n o, M.obj n = some o → ∀ p ∈ o.refs, ∃ o', M.obj p.2 = some o' ∧ o'.kind = some p.1

theorem kind_root {o : Obj S} (h : o.kind = some .root) : ∃ st, o = .root st := by cases o <;> simp [Obj.kind] at h; exact ⟨_, rfl⟩
theorem kind_sub {o : Obj S} (h : o.kind = some .sub) : ∃ a p, o = .sub a p := by cases o <;> simp [Obj.kind] at h; exact ⟨_, _, rfl⟩
theorem kind_vec {o : Obj S} (h : o.kind = some .vec) : ∃ c, o = .vec c := by cases o <;> simp [Obj.kind] at h; exact ⟨_, rfl⟩
theorem kind_back {o : Obj S} (h : o.kind = some .back) : ∃ v, o = .back v := by cases o <;> simp [Obj.kind] at h; exact ⟨_, rfl⟩

/-- All references in a list are alive. -/
def Alive (M : Mem S) (rs : List (Kind × Nat)) : Prop := ∀ p ∈ rs, ∃ o', M.obj p.2 = some o' ∧ o'.kind = some p.1

theorem Alive.left {M : Mem S} {a b : List (Kind × Nat)} (h : Alive M (a ++ b)) : Alive M a := fun p hp => h p (List.mem_append_left _ hp)
theorem Alive.right {M : Mem S} {a b : List (Kind × Nat)} (h : Alive M (a ++ b)) : Alive M b := fun p hp => h p (List.mem_append_right _ hp)

theorem alive_rootState {M : Mem S} {r : RootPtr S} (h : Alive M r.refs) : ∃ st, M.rootState r = .ok st := by
  cases r with
  | own st => exact ⟨st, rfl⟩
  | var a =>
    obtain ⟨o, ho, hk⟩ := h (.root, a) (by simp [RootPtr.refs])
    obtain ⟨st, rfl⟩ := kind_root hk
    exact ⟨st, by simp only [Mem.rootState, Mem.getRoot]; rw [ho]⟩

theorem alive_getRoot {M : Mem S} {a : Nat} (h : Alive M [(.root, a)]) : ∃ st, M.getRoot a = .ok st :=
  alive_rootState (r := .var a) h

theorem alive_pathOf {M : Mem S} {h : Held S} (hh : Alive M h.refs) : ∃ p, M.pathOf h = .ok p := by
  cases h with
  | root a => exact ⟨[], rfl⟩
  | ownRoot st => exact ⟨[], rfl⟩
  | ownSub a p => exact ⟨p, rfl⟩
  | sub s =>
    obtain ⟨o, ho, hk⟩ := hh (.sub, s) (by simp [Held.refs])
    obtain ⟨a, p, rfl⟩ := kind_sub hk
    exact ⟨p, by simp only [Mem.pathOf, Mem.getSub]; rw [ho]; rfl⟩

theorem alive_rootOf {M : Mem S} (hL : Live M) {h : Held S} (hh : Alive M h.refs) : ∃ r, M.rootOf h = .ok r ∧ Alive M r.refs := by
  cases h with
  | root a => exact ⟨.var a, rfl, hh⟩
  | ownRoot st => exact ⟨.own st, rfl, fun p hp => by simp [RootPtr.refs] at hp⟩
  | ownSub a p => exact ⟨.var a, rfl, hh⟩
  | sub s =>
    obtain ⟨o, ho, hk⟩ := hh (.sub, s) (by simp [Held.refs])
    obtain ⟨a, p, rfl⟩ := kind_sub hk
    refine ⟨.var a, by simp only [Mem.rootOf, Mem.getSub]; rw [ho]; rfl, fun q hq => hL s _ ho q ?_⟩
    simpa [Obj.refs, RootPtr.refs] using hq

theorem alive_coefs {M : Mem S} (hL : Live M) {c : Coef K} (h : Alive M c.refs) : ∃ x, M.coefs c = .ok x := by
  have hv : ∀ v, Alive M [(.vec, v)] → ∃ x, M.getVec v = .ok x := by
    intro v h
    obtain ⟨o, ho, hk⟩ := h (.vec, v) (by simp)
    obtain ⟨c, rfl⟩ := kind_vec hk
    exact ⟨c, by simp only [Mem.getVec]; rw [ho]⟩
  cases c with
  | own c => exact ⟨c, rfl⟩
  | vec v => exact hv v h
  | back b =>
    obtain ⟨o, ho, hk⟩ := h (.back, b) (by simp [Coef.refs])
    obtain ⟨v, rfl⟩ := kind_back hk
    obtain ⟨x, hx⟩ := hv v (fun q hq => hL b _ ho q (by simpa [Obj.refs] using hq))
    refine ⟨x, ?_⟩
    simp only [Mem.coefs, Mem.getBack]
    rw [ho]
    exact hx

theorem newView_not_dangling {M : Mem S} (hL : Live M) {h : Held S} (hh : Alive M h.refs) : ∃ l, M.newView h = .ok l ∧
    Alive M (l.held.refs ++ l.root.refs) := by
  obtain ⟨r, hr, ha⟩ := alive_rootOf hL hh
  obtain ⟨st, hst⟩ := alive_rootState ha
  refine ⟨⟨h, r, S.makeNode st, none, none⟩, ?_, fun p hp => ?_⟩
  · simp only [Mem.newView, hr, Except.bind, hst, Except.map]
  · rcases List.mem_append.mp hp with hp | hp
    · exact hh p hp
    · exact ha p hp

theorem bindView_not_dangling {M : Mem S} {l : View S} (ha : Alive M l.root.refs) (e : E) : M.bindView l e ≠ .error .dangling := by
  obtain ⟨st, hst⟩ := alive_rootState ha
  simp only [Mem.bindView, hst, Except.bind]
  split <;> simp

theorem copyView_not_dangling {M : Mem S} {l : View S} (ha : Alive M l.root.refs) : M.copyView l ≠ .error .dangling := by
  obtain ⟨st, hst⟩ := alive_rootState ha
  simp only [Mem.copyView, hst, Except.bind]
  split
  · simp
  · exact bindView_not_dangling (l := ⟨l.held, l.root, S.makeNode st, none, none⟩) ha _

theorem treeOf_not_dangling {M : Mem S} {l : View S} (ha : Alive M l.held.refs) : M.treeOf l ≠ .error .dangling := by
  obtain ⟨p, hp⟩ := alive_pathOf ha
  simp only [Mem.treeOf, hp, Except.bind]
  split
  · simp
  · split <;> simp

theorem map_not_dangling {α β : Type} {x : Except Err α} {f : α → β} (h : x ≠ .error .dangling) : x.map f ≠ .error .dangling := by
  cases x with
  | error e => simpa [Except.map] using h
  | ok a => simp [Except.map]

theorem bind_not_dangling {α β : Type} {x : Except Err α} {f : α → Except Err β} (h : x ≠ .error .dangling)
    (hf : ∀ a, x = .ok a → f a ≠ .error .dangling) : x.bind f ≠ .error .dangling := by
  cases x with
  | error e => simpa [Except.bind] using h
  | ok a => exact hf a rfl

theorem ok_not_dangling {α : Type} {x : Except Err α} (h : ∃ a, x = .ok a) : x ≠ .error .dangling := by
  obtain ⟨a, rfl⟩ := h
  simp

theorem readDofs_not_dangling {M : Mem S} (hL : Live M) {f : Fn S} {l : View S} (hl : Alive M l.held.refs) (hc : Alive M f.coef.refs) :
    M.readDofs f l ≠ .error .dangling :=
  bind_not_dangling (treeOf_not_dangling hl) fun _ _ => map_not_dangling (ok_not_dangling (alive_coefs hL hc))

theorem live_root {M : Mem S} (hL : Live M) {n a : Nat} {p : List Nat} (ho : M.obj n = some (.sub a p)) : ∃ st, M.getRoot a = .ok st :=
  alive_getRoot fun q hq => hL n _ ho q (by simpa [Obj.refs] using hq)

/-- If all references are live, no statement uses a dangling pointer. -/
theorem exec_not_dangling {M : Mem S} (hL : Live M) (c : Cmd S) : M.exec c ≠ .error .dangling := by
  cases c with
  | makeBasis st => simp [Mem.exec]
  | vector c => simp [Mem.exec]
  | subspace n p => simp only [Mem.exec]; split <;> simp
  | backend v => simp only [Mem.exec]; split <;> simp
  | copy n =>
    simp only [Mem.exec]
    split
    · simp
    · simp
    · rename_i l ho
      exact map_not_dangling (copyView_not_dangling (Alive.right (fun p hp => hL n _ ho p hp : Alive M (l.held.refs ++ l.root.refs))))
    · rename_i f l d ho
      have ha : Alive M (f.basis.refs ++ f.coef.refs ++ (l.held.refs ++ l.root.refs)) := fun p hp => hL n _ ho p hp
      exact map_not_dangling (copyView_not_dangling ha.right.right)
    · simp
  | move n =>
    simp only [Mem.exec]
    split
    · simp
    · simp
    · simp
    · simp
    · simp
    · rename_i l ho
      exact map_not_dangling (copyView_not_dangling (Alive.right (fun p hp => hL n _ ho p hp : Alive M (l.held.refs ++ l.root.refs))))
    · rename_i f l d ho
      have ha : Alive M (f.basis.refs ++ f.coef.refs ++ (l.held.refs ++ l.root.refs)) := fun p hp => hL n _ ho p hp
      exact map_not_dangling (copyView_not_dangling ha.right.right)
    · simp
  | destroy n => simp only [Mem.exec]; split <;> simp
  | update n v =>
    simp only [Mem.exec]
    split
    · split <;> simp
    · simp
  | assign v c => simp only [Mem.exec]; split <;> simp
  | localView n =>
    simp only [Mem.exec]
    split
    · rename_i st ho
      refine map_not_dangling (ok_not_dangling ?_)
      obtain ⟨l, hl, -⟩ := newView_not_dangling hL (h := .root n) fun p hp => by
        simp only [Held.refs, List.mem_singleton] at hp
        subst hp
        exact ⟨_, ho, rfl⟩
      exact ⟨l, hl⟩
    · rename_i a q ho
      refine map_not_dangling (ok_not_dangling ?_)
      obtain ⟨l, hl, -⟩ := newView_not_dangling hL (h := .sub n) fun p hp => by
        simp only [Held.refs, List.mem_singleton] at hp
        subst hp
        exact ⟨_, ho, rfl⟩
      exact ⟨l, hl⟩
    · simp
  | function b v conforms =>
    refine bind_not_dangling ?_ fun r hr => map_not_dangling ?_
    · cases b with
      | lvalue n =>
        simp only [Mem.passBasis]
        split
        · simp
        · rename_i ho; exact map_not_dangling (ok_not_dangling (live_root hL ho))
        · simp
      | rvalue n =>
        simp only [Mem.passBasis]
        split
        · simp
        · rename_i ho; exact map_not_dangling (ok_not_dangling (live_root hL ho))
        · simp
    · cases v with
      | lvalue n => simp only [Mem.passVec]; split <;> simp
      | rvalue n =>
        simp only [Mem.passVec]
        split
        · split <;> simp
        · simp
        · simp
  | localFunction n =>
    simp only [Mem.exec]
    split
    · rename_i f ho
      have ha : Alive M (f.basis.refs ++ f.coef.refs) := fun p hp => hL n _ ho p hp
      obtain ⟨l, hl, -⟩ := newView_not_dangling hL ha.left
      exact map_not_dangling (ok_not_dangling ⟨l, hl⟩)
    · simp
  | bind n e =>
    simp only [Mem.exec]
    split
    · rename_i l ho
      exact map_not_dangling (bindView_not_dangling (Alive.right (fun p hp => hL n _ ho p hp : Alive M (l.held.refs ++ l.root.refs))) e)
    · rename_i f l d ho
      have ha : Alive M (f.basis.refs ++ f.coef.refs ++ (l.held.refs ++ l.root.refs)) := fun p hp => hL n _ ho p hp
      refine bind_not_dangling (bindView_not_dangling ha.right.right e) fun l' hl' => map_not_dangling ?_
      refine readDofs_not_dangling hL ?_ ha.left.right
      obtain ⟨st, -, h⟩ := except_bind_ok hl'
      split at h
      · cases h; exact ha.right.left
      · cases h
    · simp
  | unbind n => simp only [Mem.exec]; split <;> simp
  | dimension n =>
    simp only [Mem.exec]
    split
    · simp
    · rename_i ho; exact map_not_dangling (ok_not_dangling (live_root hL ho))
    · simp
  | indices n =>
    simp only [Mem.exec]
    split
    · split <;> simp
    · simp
  | tree n =>
    simp only [Mem.exec]
    split
    · rename_i l ho
      exact map_not_dangling (treeOf_not_dangling (Alive.left (fun p hp => hL n _ ho p hp : Alive M (l.held.refs ++ l.root.refs))))
    · simp
  | maxSize n =>
    simp only [Mem.exec]
    split
    · rename_i l ho
      exact map_not_dangling (ok_not_dangling (alive_rootState (Alive.right (fun p hp => hL n _ ho p hp : Alive M (l.held.refs ++ l.root.refs)))))
    · simp
  | eval n x =>
    simp only [Mem.exec]
    split
    · rename_i f l d ho
      have ha : Alive M (f.basis.refs ++ f.coef.refs ++ (l.held.refs ++ l.root.refs)) := fun p hp => hL n _ ho p hp
      split
      · exact map_not_dangling (treeOf_not_dangling ha.right.left)
      · simp
    · simp

theorem Live.create {M : Mem S} (hM : Inv M) (hL : Live M) (o : Obj S) (ha : Alive M o.refs) : Live (M.create o) := by
  have key : ∀ {p : Kind × Nat} {x : Obj S}, M.obj p.2 = some x → (M.create o).obj p.2 = some x := fun {p x} hx => by
    rw [create_obj_of_lt M o (by have := hM.lt hx; omega)]
    exact hx
  intro n x hx p hp
  by_cases hn : n = M.next
  · subst hn
    rw [create_obj_self, Option.some_inj] at hx
    subst hx
    obtain ⟨o', h1, h2⟩ := ha p hp
    exact ⟨o', key h1, h2⟩
  · rw [create_obj_of_lt M o hn] at hx
    obtain ⟨o', h1, h2⟩ := hL n x hx p hp
    exact ⟨o', key h1, h2⟩

/-- Changing an object to one of the same type. -/
theorem Live.set {M : Mem S} (hL : Live M) {n : Nat} {o o' : Obj S} (ho : M.obj n = some o) (hk : o'.kind = o.kind) (ha : Alive M o'.refs) :
    Live (M.set n (some o')) := by
  have key : ∀ {p : Kind × Nat}, (∃ x, M.obj p.2 = some x ∧ x.kind = some p.1) → ∃ x, (M.set n (some o')).obj p.2 = some x ∧ x.kind = some p.1 := by
    rintro p ⟨x, h1, h2⟩
    by_cases hn : p.2 = n
    · rw [hn] at h1 ⊢
      rw [set_obj_self]
      rw [ho] at h1
      cases h1
      exact ⟨o', rfl, hk.trans h2⟩
    · rw [set_obj_of_ne M _ hn]
      exact ⟨x, h1, h2⟩
  intro m x hx p hp
  by_cases hn : m = n
  · subst hn
    rw [set_obj_self] at hx
    cases hx
    exact key (ha p hp)
  · rw [set_obj_of_ne M _ hn] at hx
    exact key (hL m x hx p hp)

/-- Destroying or moving from an object nobody refers to. -/
theorem Live.kill {M : Mem S} (hL : Live M) {n : Nat} (hu : M.Unreferenced n) {o' : Option (Obj S)} (ho' : o' = none ∨ o' = some .moved) :
    Live (M.set n o') := by
  intro m x hx p hp
  have hx' : M.obj m = some x ∨ x = .moved := by
    by_cases hn : m = n
    · subst hn
      rw [set_obj_self] at hx
      rcases ho' with rfl | rfl
      · cases hx
      · cases hx; exact Or.inr rfl
    · rw [set_obj_of_ne M _ hn] at hx
      exact Or.inl hx
  rcases hx' with hx' | rfl
  · obtain ⟨y, h1, h2⟩ := hL m x hx' p hp
    have : p.2 ≠ n := fun h => hu m x hx' p.1 (by rw [← h]; exact hp)
    exact ⟨y, by rw [set_obj_of_ne M _ this]; exact h1, h2⟩
  · simp [Obj.refs] at hp


theorem live_empty : Live (Mem.empty : Mem S) := fun _ _ h => by cases h

theorem Alive.set {M : Mem S} {rs : List (Kind × Nat)} (h : Alive M rs) {n : Nat} {o : Option (Obj S)} (hn : ∀ p ∈ rs, p.2 ≠ n) :
    Alive (M.set n o) rs := fun p hp => by
  obtain ⟨x, h1, h2⟩ := h p hp
  exact ⟨x, by rw [set_obj_of_ne M _ (hn p hp)]; exact h1, h2⟩

/-- References lead to other objects than one of another type. -/
theorem Alive.ne {M : Mem S} {rs : List (Kind × Nat)} (h : Alive M rs) {n : Nat} {o : Obj S} (ho : M.obj n = some o)
    (hk : ∀ p ∈ rs, o.kind ≠ some p.1) : ∀ p ∈ rs, p.2 ≠ n := by
  rintro p hp rfl
  obtain ⟨x, h1, h2⟩ := h p hp
  rw [ho] at h1
  cases h1
  exact hk p hp h2

theorem unreferenced_set {M : Mem S} {n m : Nat} (hu : M.Unreferenced n) : (M.set m (some .moved)).Unreferenced n := by
  intro k o ho q hq
  by_cases hk : k = m
  · subst hk
    rw [set_obj_self] at ho
    cases ho
    simp [Obj.refs] at hq
  · rw [set_obj_of_ne M _ hk] at ho
    exact hu k o ho q hq

/-- The argument for the basis: afterwards all references are live, also those of the basis, which is not a vector. -/
theorem live_passBasis {M M' : Mem S} (hL : Live M) {b : Arg} {h : Held S} (hb : M.passBasis b = .ok (h, M'))
    (hu : ∀ n, b = .rvalue n → M.Unreferenced n) : Live M' ∧ Alive M' h.refs ∧ ∀ n, M.Unreferenced n → M'.Unreferenced n := by
  cases b with
  | lvalue n =>
    simp only [Mem.passBasis] at hb
    split at hb
    · rename_i st ho
      cases hb
      exact ⟨hL, fun p hp => by simp only [Held.refs, List.mem_singleton] at hp; subst hp; exact ⟨_, ho, rfl⟩, fun _ h => h⟩
    · rename_i a q ho
      obtain ⟨-, -, hb⟩ := except_map_ok hb
      cases hb
      exact ⟨hL, fun p hp => by simp only [Held.refs, List.mem_singleton] at hp; subst hp; exact ⟨_, ho, rfl⟩, fun _ h => h⟩
    · cases hb
  | rvalue n =>
    simp only [Mem.passBasis] at hb
    split at hb
    · rename_i st ho
      cases hb
      exact ⟨hL.kill (hu n rfl) (Or.inr rfl), fun p hp => by simp [Held.refs] at hp, fun _ h => unreferenced_set h⟩
    · rename_i a q ho
      obtain ⟨-, -, hb⟩ := except_map_ok hb
      cases hb
      exact ⟨hL, fun p hp => hL n _ ho p hp, fun _ h => h⟩
    · cases hb

theorem live_passVec {M M' : Mem S} (hL : Live M) {v : Arg} {conforms : Bool} {c : Coef K} (hv : M.passVec conforms v = .ok (c, M'))
    (hu : ∀ n, v = .rvalue n → M.Unreferenced n) {h : Held S} (hh : Alive M h.refs) : Live M' ∧ Alive M' c.refs ∧ Alive M' h.refs := by
  cases v with
  | lvalue n =>
    simp only [Mem.passVec] at hv
    split at hv
    · rename_i ho
      cases hv
      exact ⟨hL, fun p hp => by simp only [Coef.refs, List.mem_singleton] at hp; subst hp; exact ⟨_, ho, rfl⟩, hh⟩
    · rename_i ho
      cases hv
      exact ⟨hL, fun p hp => by simp only [Coef.refs, List.mem_singleton] at hp; subst hp; exact ⟨_, ho, rfl⟩, hh⟩
    · cases hv
  | rvalue n =>
    simp only [Mem.passVec] at hv
    split at hv
    · rename_i c0 ho
      split at hv
      · cases hv
        refine ⟨hL.kill (hu n rfl) (Or.inr rfl), fun p hp => by simp [Coef.refs] at hp, hh.set (hh.ne ho ?_)⟩
        cases h <;> simp [Held.refs, Obj.kind]
      · cases hv
        exact ⟨hL, fun p hp => by simp only [Coef.refs, List.mem_singleton] at hp; subst hp; exact ⟨_, ho, rfl⟩, hh⟩
    · rename_i w ho
      cases hv
      exact ⟨hL, fun p hp => hL n _ ho p hp, hh⟩
    · cases hv

/-- Safe statements keep all references live. -/
theorem live_exec {M M' : Mem S} {c : Cmd S} {obs : List (Obs S)} (hM : Inv M) (hL : Live M) (hs : M.Safe c)
    (h : M.exec c = .ok (M', obs)) : Live M' := by
  have nil : ∀ {N : Mem S}, Alive N [] := fun p hp => by simp at hp
  cases c with
  | makeBasis st => cases h; exact hL.create hM _ nil
  | vector c => cases h; exact hL.create hM _ nil
  | subspace n p =>
    simp only [Mem.exec] at h
    split at h
    · rename_i st ho
      cases h
      exact hL.create hM _ fun p hp => by simp only [Obj.refs, List.mem_singleton] at hp; subst hp; exact ⟨_, ho, rfl⟩
    · rename_i a q ho
      cases h
      exact hL.create hM _ fun p hp => hL n _ ho p hp
    · cases h
  | backend v =>
    simp only [Mem.exec] at h
    split at h
    · rename_i c ho
      cases h
      exact hL.create hM _ fun p hp => by simp only [Obj.refs, List.mem_singleton] at hp; subst hp; exact ⟨_, ho, rfl⟩
    · cases h
  | copy n =>
    simp only [Mem.exec] at h
    split at h
    · cases h
    · cases h
    · rename_i l ho
      obtain ⟨l', hl, h⟩ := except_map_ok h
      cases h
      obtain ⟨-, h2, h3, -⟩ := copyView_ok (hM.views n _ ho l (by simp [Obj.views])) hl
      refine hL.create hM _ fun p hp => hL n _ ho p ?_
      simpa [Obj.refs, h2, h3] using hp
    · rename_i f l d ho
      obtain ⟨l', hl, h⟩ := except_map_ok h
      cases h
      obtain ⟨-, h2, h3, -⟩ := copyView_ok (hM.views n _ ho l (by simp [Obj.views])) hl
      refine hL.create hM _ fun p hp => hL n _ ho p ?_
      simpa [Obj.refs, h2, h3] using hp
    · rename_i o _ _ _ ho
      cases h
      exact hL.create hM _ fun p hp => hL n _ ho p hp
  | move n =>
    have hu : M.Unreferenced n := hs n (by simp [Cmd.invalidates])
    simp only [Mem.exec] at h
    have hmv : ∀ o, M.obj n = some o → Inv (M.set n (some .moved)) := fun o ho =>
      hM.set ho (by cases o <;> trivial) (fun x hx => by cases hx; simp [Obj.refs]) fun x hx => by cases hx; simp [Obj.views]
    have hk : Live (M.set n (some .moved)) := hL.kill hu (Or.inr rfl)
    split at h
    · cases h
    · cases h
    · rename_i st ho
      cases h
      exact hk.create (hmv _ ho) _ nil
    · rename_i c ho
      cases h
      exact hk.create (hmv _ ho) _ nil
    · rename_i f ho
      cases h
      have ha : Alive M (Obj.fn f).refs := fun p hp => hL n _ ho p hp
      exact hk.create (hmv _ ho) _ (ha.set fun p hp hpn => hu n _ ho p.1 (by rw [← hpn]; exact hp))
    · rename_i l ho
      obtain ⟨l', hl, h⟩ := except_map_ok h
      cases h
      obtain ⟨-, h2, h3, -⟩ := copyView_ok (hM.views n _ ho l (by simp [Obj.views])) hl
      refine hL.create hM _ fun p hp => hL n _ ho p ?_
      simpa [Obj.refs, h2, h3] using hp
    · rename_i f l d ho
      obtain ⟨l', hl, h⟩ := except_map_ok h
      cases h
      obtain ⟨-, h2, h3, -⟩ := copyView_ok (hM.views n _ ho l (by simp [Obj.views])) hl
      refine hL.create hM _ fun p hp => hL n _ ho p ?_
      simpa [Obj.refs, h2, h3] using hp
    · rename_i o _ _ _ _ _ _ ho
      cases h
      exact hL.create hM _ fun p hp => hL n _ ho p hp
  | destroy n =>
    simp only [Mem.exec] at h
    split at h
    · cases h
    · cases h
      exact hL.kill (hs n (by simp [Cmd.invalidates])) (Or.inl rfl)
  | update n v =>
    simp only [Mem.exec] at h
    split at h
    · rename_i st ho
      split at h
      · cases h
        exact hL.set ho rfl nil
      · cases h
    · cases h
  | assign v c =>
    simp only [Mem.exec] at h
    split at h
    · rename_i c0 ho
      cases h
      exact hL.set ho rfl nil
    · cases h
  | localView n =>
    simp only [Mem.exec] at h
    split at h
    · rename_i st ho
      obtain ⟨l, hl, h⟩ := except_map_ok h
      cases h
      obtain ⟨l', hl', ha⟩ := newView_not_dangling hL (h := .root n) fun p hp => by
        simp only [Held.refs, List.mem_singleton] at hp
        subst hp
        exact ⟨_, ho, rfl⟩
      rw [hl] at hl'
      cases hl'
      exact hL.create hM _ ha
    · rename_i a q ho
      obtain ⟨l, hl, h⟩ := except_map_ok h
      cases h
      obtain ⟨l', hl', ha⟩ := newView_not_dangling hL (h := .sub n) fun p hp => by
        simp only [Held.refs, List.mem_singleton] at hp
        subst hp
        exact ⟨_, ho, rfl⟩
      rw [hl] at hl'
      cases hl'
      exact hL.create hM _ ha
    · cases h
  | function b v conforms =>
    simp only [Mem.exec] at h
    obtain ⟨⟨hd, M1⟩, hb, h⟩ := except_bind_ok h
    obtain ⟨⟨c, M2⟩, hv, h⟩ := except_map_ok h
    cases h
    obtain ⟨i1, -, -⟩ := inv_passBasis hM hb
    obtain ⟨i2, -, -⟩ := inv_passVec i1 hv
    obtain ⟨l1, a1, u1⟩ := live_passBasis hL hb fun n hn => hs n (by subst hn; simp [Cmd.invalidates])
    obtain ⟨l2, a2, a3⟩ := live_passVec l1 hv (fun n hn => u1 n (hs n (by subst hn; simp [Cmd.invalidates]))) a1
    refine l2.create i2 _ fun p hp => ?_
    rcases List.mem_append.mp hp with hp | hp
    · exact a3 p hp
    · exact a2 p hp
  | localFunction n =>
    simp only [Mem.exec] at h
    split at h
    · rename_i f ho
      obtain ⟨l, hl, h⟩ := except_map_ok h
      cases h
      have ha : Alive M (f.basis.refs ++ f.coef.refs) := fun p hp => hL n _ ho p hp
      obtain ⟨l', hl', ha'⟩ := newView_not_dangling hL ha.left
      rw [hl] at hl'
      cases hl'
      refine hL.create hM _ fun p hp => ?_
      rcases List.mem_append.mp hp with hp | hp
      · exact ha p hp
      · exact ha' p hp
    · cases h
  | bind n e =>
    simp only [Mem.exec] at h
    split at h
    · rename_i l ho
      obtain ⟨l', hl, h⟩ := except_map_ok h
      cases h
      obtain ⟨-, h2, h3, -⟩ := bindView_ok (hM.views n _ ho l (by simp [Obj.views])) hl
      refine hL.set ho rfl fun p hp => hL n _ ho p ?_
      simpa [Obj.refs, h2, h3] using hp
    · rename_i f l d ho
      obtain ⟨l', hl, h⟩ := except_bind_ok h
      obtain ⟨d', -, h⟩ := except_map_ok h
      cases h
      obtain ⟨-, h2, h3, -⟩ := bindView_ok (hM.views n _ ho l (by simp [Obj.views])) hl
      refine hL.set ho rfl fun p hp => hL n _ ho p ?_
      simpa [Obj.refs, h2, h3] using hp
    · cases h
  | unbind n =>
    simp only [Mem.exec] at h
    split at h
    · rename_i l ho
      cases h
      exact hL.set ho rfl fun p hp => hL n _ ho p hp
    · rename_i f l d ho
      cases h
      exact hL.set ho rfl fun p hp => hL n _ ho p hp
    · cases h
  | dimension n =>
    simp only [Mem.exec] at h
    split at h
    · cases h; exact hL
    · obtain ⟨_, _, h⟩ := except_map_ok h
      cases h; exact hL
    · cases h
  | indices n =>
    simp only [Mem.exec] at h
    split at h
    · split at h
      · cases h; exact hL
      · cases h
    · cases h
  | tree n =>
    simp only [Mem.exec] at h
    split at h
    · obtain ⟨_, _, h⟩ := except_map_ok h
      cases h; exact hL
    · cases h
  | maxSize n =>
    simp only [Mem.exec] at h
    split at h
    · obtain ⟨_, _, h⟩ := except_map_ok h
      cases h; exact hL
    · cases h
  | eval n x =>
    simp only [Mem.exec] at h
    split at h
    · split at h
      · obtain ⟨_, _, h⟩ := except_map_ok h
        cases h; exact hL
      · cases h
    · cases h

theorem safeRun_not_dangling (hS : S.OK) {M : Mem S} (hM : Inv M) (hL : Live M) (cs : List (Cmd S)) (hs : M.SafeRun cs) :
    M.execs cs ≠ .error .dangling := by
  induction cs generalizing M with
  | nil => simp [Mem.execs]
  | cons c cs ih =>
    refine bind_not_dangling (exec_not_dangling hL c) fun r hr => map_not_dangling ?_
    exact ih (inv_exec hS hM (M' := r.1) (obs := r.2) hr) (live_exec hM hL hs.1 (M' := r.1) (obs := r.2) hr) (hs.2 r hr)

theorem scoped_safe {M : Mem S} (hM : Inv M) {c : Cmd S} (h : M.Scoped c) : M.Safe c := by
  intro n hn
  cases c <;> simp only [Cmd.invalidates, List.not_mem_nil] at hn
  · exact absurd h id
  · simp only [List.mem_singleton] at hn
    subst hn
    intro m o ho k hk
    have h1 := hM.refs m o ho _ hk
    rw [h m h1] at ho
    cases ho
  · obtain ⟨⟨a, rfl⟩, b, rfl⟩ := h
    simp at hn

theorem scopedRun_safeRun (hS : S.OK) {M : Mem S} (hM : Inv M) (cs : List (Cmd S)) (h : M.ScopedRun cs) : M.SafeRun cs := by
  induction cs generalizing M with
  | nil => trivial
  | cons c cs ih => exact ⟨scoped_safe hM h.1, fun r hr => ih (inv_exec hS hM (M' := r.1) (obs := r.2) hr) (h.2 r hr)⟩

end

/-! ### What becomes of objects -/

section
variable {S : Sys E V X Y K}

/-- How an object may change until it is destroyed. -/
def Evolves : Obj S → Obj S → Prop
  | _, .moved => True
  | .root _, .root _ => True
  | .vec _, .vec _ => True
  | .view l, .view l' => l'.held = l.held ∧ l'.root = l.root
  | .lf f l _, .lf f' l' _ => f' = f ∧ l'.held = l.held ∧ l'.root = l.root
  | o, o' => o' = o

theorem Evolves.rfl' (o : Obj S) : Evolves o o := by cases o <;> simp [Evolves]

theorem Evolves.refs {o o' : Obj S} (h : Evolves o o') : o' = .moved ∨ o'.refs = o.refs := by
  cases o <;> cases o' <;> simp_all [Evolves, Obj.refs]

theorem Evolves.trans {o o' o'' : Obj S} (h : Evolves o o') (h' : Evolves o' o'') : Evolves o o'' := by
  cases o <;> cases o' <;> cases o'' <;> simp_all [Evolves]

theorem Evolves.fn {o : Obj S} {f : Fn S} (h : Evolves o (.fn f)) : o = .fn f := by
  cases o <;> simp_all [Evolves]

theorem bindView_same {M : Mem S} {l l' : View S} {e : E} (h : M.bindView l e = .ok l') : l'.held = l.held ∧ l'.root = l.root := by
  obtain ⟨st, -, h⟩ := except_bind_ok h
  split at h
  · cases h; exact ⟨rfl, rfl⟩
  · cases h

/-- The objects existing before a statement. -/
def Kept (M M' : Mem S) : Prop := ∀ n < M.next, ∀ o', M'.obj n = some o' → ∃ o, M.obj n = some o ∧ Evolves o o'

theorem Kept.refl (M : Mem S) : Kept M M := fun _ _ o' h => ⟨o', h, Evolves.rfl' o'⟩

theorem Kept.trans {M M' M'' : Mem S} (h : Kept M M') (hn : M.next ≤ M'.next) (h' : Kept M' M'') : Kept M M'' := by
  intro n hlt o'' ho''
  obtain ⟨o', ho', e'⟩ := h' n (by omega) o'' ho''
  obtain ⟨o, ho, e⟩ := h n hlt o' ho'
  exact ⟨o, ho, e.trans e'⟩

theorem kept_create (M : Mem S) (o : Obj S) : Kept M (M.create o) := fun n hn o' ho' => by
  rw [create_obj_of_lt M o (by omega)] at ho'
  exact ⟨o', ho', Evolves.rfl' o'⟩

theorem kept_set {M : Mem S} {n : Nat} {o : Obj S} (ho : M.obj n = some o) {x : Option (Obj S)} (hx : ∀ o', x = some o' → Evolves o o') :
    Kept M (M.set n x) := fun m _ o' ho' => by
  by_cases h : m = n
  · subst h
    rw [set_obj_self] at ho'
    exact ⟨o, ho, hx o' ho'⟩
  · rw [set_obj_of_ne M x h] at ho'
    exact ⟨o', ho', Evolves.rfl' o'⟩

theorem kept_moved {M : Mem S} {n : Nat} {o : Obj S} (ho : M.obj n = some o) : Kept M (M.set n (some .moved)) :=
  kept_set ho fun o' h => by cases h; cases o <;> simp [Evolves]

theorem kept_passBasis {M M' : Mem S} {b : Arg} {h : Held S} (hb : M.passBasis b = .ok (h, M')) : Kept M M' ∧ M'.next = M.next := by
  cases b <;> simp only [Mem.passBasis] at hb <;> split at hb
  · cases hb; exact ⟨Kept.refl M, rfl⟩
  · obtain ⟨_, _, hb⟩ := except_map_ok hb
    cases hb; exact ⟨Kept.refl _, rfl⟩
  · cases hb
  · rename_i ho
    cases hb; exact ⟨kept_moved ho, rfl⟩
  · obtain ⟨_, _, hb⟩ := except_map_ok hb
    cases hb; exact ⟨Kept.refl _, rfl⟩
  · cases hb

theorem kept_passVec {M M' : Mem S} {v : Arg} {conforms : Bool} {c : Coef K} (hv : M.passVec conforms v = .ok (c, M')) :
    Kept M M' ∧ M'.next = M.next := by
  cases v <;> simp only [Mem.passVec] at hv <;> split at hv
  · cases hv; exact ⟨Kept.refl M, rfl⟩
  · cases hv; exact ⟨Kept.refl M, rfl⟩
  · cases hv
  · rename_i ho
    split at hv
    · cases hv; exact ⟨kept_moved ho, rfl⟩
    · cases hv; exact ⟨Kept.refl M, rfl⟩
  · cases hv; exact ⟨Kept.refl M, rfl⟩
  · cases hv

theorem exec_kept {M M' : Mem S} {c : Cmd S} {obs : List (Obs S)} (h : M.exec c = .ok (M', obs)) : Kept M M' ∧ M.next ≤ M'.next := by
  have cr : ∀ o : Obj S, Kept M (M.create o) ∧ M.next ≤ (M.create o).next := fun o => ⟨kept_create M o, Nat.le_succ _⟩
  have st : ∀ {n o} (x : Option (Obj S)), M.obj n = some o → (∀ o', x = some o' → Evolves o o') → Kept M (M.set n x) ∧ M.next ≤ (M.set n x).next :=
    fun x ho hx => ⟨kept_set ho hx, le_refl _⟩
  have id' : Kept M M ∧ M.next ≤ M.next := ⟨Kept.refl M, le_refl _⟩
  cases c with
  | makeBasis st => cases h; exact cr _
  | vector c => cases h; exact cr _
  | subspace n p => simp only [Mem.exec] at h; split at h <;> cases h <;> exact cr _
  | backend v => simp only [Mem.exec] at h; split at h <;> cases h; exact cr _
  | copy n =>
    simp only [Mem.exec] at h
    split at h
    · cases h
    · cases h
    · obtain ⟨l', _, h⟩ := except_map_ok h
      cases h; exact cr _
    · obtain ⟨l', _, h⟩ := except_map_ok h
      cases h; exact cr _
    · cases h; exact cr _
  | move n =>
    have mv : ∀ {n o} (x : Obj S), M.obj n = some o → Kept M ((M.set n (some .moved)).create x) ∧ M.next ≤ ((M.set n (some .moved)).create x).next :=
      fun x ho => ⟨(kept_moved ho).trans (le_refl _) (kept_create _ x), Nat.le_succ _⟩
    simp only [Mem.exec] at h
    split at h
    · cases h
    · cases h
    · rename_i ho; cases h; exact mv _ ho
    · rename_i ho; cases h; exact mv _ ho
    · rename_i ho; cases h; exact mv _ ho
    · obtain ⟨l', _, h⟩ := except_map_ok h
      cases h; exact cr _
    · obtain ⟨l', _, h⟩ := except_map_ok h
      cases h; exact cr _
    · cases h; exact cr _
  | destroy n =>
    simp only [Mem.exec] at h
    split at h
    · cases h
    · rename_i ho; cases h; exact st none ho fun _ h => by cases h
  | update n v =>
    simp only [Mem.exec] at h
    split at h
    · rename_i ho
      split at h
      · cases h; exact st _ ho fun _ h => by cases h; trivial
      · cases h
    · cases h
  | assign v c =>
    simp only [Mem.exec] at h
    split at h
    · rename_i ho; cases h; exact st _ ho fun _ h => by cases h; trivial
    · cases h
  | localView n =>
    simp only [Mem.exec] at h
    split at h
    · obtain ⟨l', _, h⟩ := except_map_ok h
      cases h; exact cr _
    · obtain ⟨l', _, h⟩ := except_map_ok h
      cases h; exact cr _
    · cases h
  | function b v conforms =>
    simp only [Mem.exec] at h
    obtain ⟨⟨hd, M1⟩, hb, h⟩ := except_bind_ok h
    obtain ⟨⟨c, M2⟩, hv, h⟩ := except_map_ok h
    cases h
    obtain ⟨k1, n1⟩ := kept_passBasis hb
    obtain ⟨k2, n2⟩ := kept_passVec hv
    refine ⟨(k1.trans (by omega) k2).trans (by simp at n2; omega) (kept_create _ _), ?_⟩
    change M.next ≤ M2.next + 1
    simp only at n2
    omega
  | localFunction n =>
    simp only [Mem.exec] at h
    split at h
    · obtain ⟨l', _, h⟩ := except_map_ok h
      cases h; exact cr _
    · cases h
  | bind n e =>
    simp only [Mem.exec] at h
    split at h
    · rename_i ho
      obtain ⟨l', hl, h⟩ := except_map_ok h
      cases h; exact st _ ho fun _ h => by cases h; exact bindView_same hl
    · rename_i ho
      obtain ⟨l', hl, h⟩ := except_bind_ok h
      obtain ⟨d', _, h⟩ := except_map_ok h
      cases h; exact st _ ho fun _ h => by cases h; exact ⟨rfl, bindView_same hl⟩
    · cases h
  | unbind n =>
    simp only [Mem.exec] at h
    split at h
    · rename_i ho; cases h; exact st _ ho fun _ h => by cases h; exact ⟨rfl, rfl⟩
    · rename_i ho; cases h; exact st _ ho fun _ h => by cases h; exact ⟨rfl, rfl, rfl⟩
    · cases h
  | dimension n =>
    simp only [Mem.exec] at h
    split at h
    · cases h; exact id'
    · obtain ⟨_, _, h⟩ := except_map_ok h
      cases h; exact id'
    · cases h
  | indices n =>
    simp only [Mem.exec] at h
    split at h
    · split at h <;> cases h
      exact id'
    · cases h
  | tree n =>
    simp only [Mem.exec] at h
    split at h
    · obtain ⟨_, _, h⟩ := except_map_ok h
      cases h; exact id'
    · cases h
  | maxSize n =>
    simp only [Mem.exec] at h
    split at h
    · obtain ⟨_, _, h⟩ := except_map_ok h
      cases h; exact id'
    · cases h
  | eval n x =>
    simp only [Mem.exec] at h
    split at h
    · split at h
      · obtain ⟨_, _, h⟩ := except_map_ok h
        cases h; exact id'
      · cases h
    · cases h

theorem execs_kept {M M' : Mem S} {cs : List (Cmd S)} {obs : List (Obs S)} (h : M.execs cs = .ok (M', obs)) :
    Kept M M' ∧ M.next ≤ M'.next := by
  induction cs generalizing M obs with
  | nil => cases h; exact ⟨Kept.refl _, le_refl _⟩
  | cons c cs ih =>
    obtain ⟨⟨M1, o1⟩, h1, h⟩ := except_bind_ok h
    obtain ⟨⟨M2, o2⟩, h2, h⟩ := except_map_ok h
    cases h
    obtain ⟨k1, n1⟩ := exec_kept h1
    obtain ⟨k2, n2⟩ := ih h2
    exact ⟨k1.trans n1 k2, le_trans n1 n2⟩

/-- Local functions have local views of the basis of the function. -/
def Good (M : Mem S) : Prop := ∀ n f l d, M.obj n = some (.lf f l d) → l.held = f.basis

theorem good_create {M : Mem S} (hg : Good M) (o : Obj S) (ho : ∀ f l d, o = .lf f l d → l.held = f.basis) : Good (M.create o) := by
  intro n f l d h
  by_cases hn : n = M.next
  · subst hn
    rw [create_obj_self, Option.some_inj] at h
    exact ho f l d h
  · rw [create_obj_of_lt M o hn] at h
    exact hg n f l d h

theorem good_of_kept {M M' : Mem S} (hg : Good M) (hk : Kept M M') (hn : ∀ n, M.next ≤ n → ∀ f l d, M'.obj n = some (.lf f l d) → l.held = f.basis) :
    Good M' := by
  intro n f l d h
  by_cases hlt : n < M.next
  · obtain ⟨o, ho, he⟩ := hk n hlt _ h
    cases o <;> simp [Evolves] at he
    rename_i f0 l0 d0
    obtain ⟨rfl, h2, -⟩ := he
    rw [h2]
    exact hg n _ l0 d0 ho
  · exact hn n (by omega) f l d h

/-- Statements create at most the object `next`. -/
theorem good_exec {M M' : Mem S} (hM : Inv M) {c : Cmd S} {obs : List (Obs S)} (hg : Good M) (h : M.exec c = .ok (M', obs)) : Good M' := by
  refine good_of_kept hg (exec_kept h).1 ?_
  intro m hm f l d ho
  have hnone : M.obj m = none := hM.bound m hm
  have cr : ∀ {N : Mem S} {o : Obj S}, N.obj m = none → (N.create o).obj m = some (.lf f l d) → o = .lf f l d := by
    intro N o hN h
    by_cases hn : m = N.next
    · subst hn
      rwa [create_obj_self, Option.some_inj] at h
    · rw [create_obj_of_lt N o hn, hN] at h
      cases h
  have st : ∀ {n : Nat} {o : Obj S} {x : Option (Obj S)}, M.obj n = some o → (M.set n x).obj m = some (.lf f l d) → False := by
    intro n o x ho' h
    rw [set_obj_of_ne M x (by rintro rfl; rw [hnone] at ho'; cases ho'), hnone] at h
    cases h
  have cpv : ∀ {l0 l' : View S}, M.copyView l0 = .ok l' → l'.held = l0.held := by
    intro l0 l' h
    obtain ⟨st, -, h⟩ := except_bind_ok h
    simp only at h
    split at h
    · cases h; rfl
    · exact (bindView_same h).1
  cases c with
  | makeBasis st => cases h; cases cr hnone ho
  | vector c => cases h; cases cr hnone ho
  | subspace n p => simp only [Mem.exec] at h; split at h <;> cases h <;> cases cr hnone ho
  | backend v => simp only [Mem.exec] at h; split at h <;> cases h; cases cr hnone ho
  | copy n =>
    simp only [Mem.exec] at h
    split at h
    · cases h
    · cases h
    · obtain ⟨l', _, h⟩ := except_map_ok h
      cases h; cases cr hnone ho
    · rename_i hl
      obtain ⟨l', hl', h⟩ := except_map_ok h
      cases h; cases cr hnone ho
      rw [cpv hl']
      exact hg n _ _ _ hl
    · rename_i o _ _ hne hl
      cases h
      have := cr hnone ho
      exact absurd (hl.trans (congrArg some this)) (by simpa [hl] using hne f l d)
  | move n =>
    have mv : ∀ {n : Nat} {o x : Obj S}, M.obj n = some o → ((M.set n (some .moved)).create x).obj m = some (.lf f l d) → x = .lf f l d := by
      intro n o x ho' h
      refine cr ?_ h
      rw [set_obj_of_ne M _ (by rintro rfl; rw [hnone] at ho'; cases ho')]
      exact hnone
    simp only [Mem.exec] at h
    split at h
    · cases h
    · cases h
    · rename_i hl; cases h; cases mv hl ho
    · rename_i hl; cases h; cases mv hl ho
    · rename_i hl; cases h; cases mv hl ho
    · obtain ⟨l', _, h⟩ := except_map_ok h
      cases h; cases cr hnone ho
    · rename_i hl
      obtain ⟨l', hl', h⟩ := except_map_ok h
      cases h; cases cr hnone ho
      rw [cpv hl']
      exact hg n _ _ _ hl
    · rename_i o _ _ _ _ _ hne hl
      cases h
      have := cr hnone ho
      exact absurd (hl.trans (congrArg some this)) (by simpa [hl] using hne f l d)
  | destroy n =>
    simp only [Mem.exec] at h
    split at h
    · cases h
    · rename_i hl; cases h; exact (st hl ho).elim
  | update n v =>
    simp only [Mem.exec] at h
    split at h
    · rename_i hl
      split at h <;> cases h
      exact (st hl ho).elim
    · cases h
  | assign v c =>
    simp only [Mem.exec] at h
    split at h
    · rename_i hl; cases h; exact (st hl ho).elim
    · cases h
  | localView n =>
    simp only [Mem.exec] at h
    split at h
    · obtain ⟨l', _, h⟩ := except_map_ok h
      cases h; cases cr hnone ho
    · obtain ⟨l', _, h⟩ := except_map_ok h
      cases h; cases cr hnone ho
    · cases h
  | function b v conforms =>
    simp only [Mem.exec] at h
    obtain ⟨⟨hd, M1⟩, hb, h⟩ := except_bind_ok h
    obtain ⟨⟨c, M2⟩, hv, h⟩ := except_map_ok h
    cases h
    obtain ⟨i1, n1, -⟩ := inv_passBasis hM hb
    obtain ⟨i2, n2, -⟩ := inv_passVec i1 hv
    cases cr (i2.bound m (by omega)) ho
  | localFunction n =>
    simp only [Mem.exec] at h
    split at h
    · obtain ⟨l', hl', h⟩ := except_map_ok h
      cases h; cases cr hnone ho
      exact (newView_ok hl').2.1
    · cases h
  | bind n e =>
    simp only [Mem.exec] at h
    split at h
    · rename_i hl
      obtain ⟨l', _, h⟩ := except_map_ok h
      cases h; exact (st hl ho).elim
    · rename_i hl
      obtain ⟨l', _, h⟩ := except_bind_ok h
      obtain ⟨d', _, h⟩ := except_map_ok h
      cases h; exact (st hl ho).elim
    · cases h
  | unbind n =>
    simp only [Mem.exec] at h
    split at h
    · rename_i hl; cases h; exact (st hl ho).elim
    · rename_i hl; cases h; exact (st hl ho).elim
    · cases h
  | dimension n =>
    simp only [Mem.exec] at h
    split at h
    · cases h; rw [hnone] at ho; cases ho
    · obtain ⟨_, _, h⟩ := except_map_ok h
      cases h; rw [hnone] at ho; cases ho
    · cases h
  | indices n =>
    simp only [Mem.exec] at h
    split at h
    · split at h <;> cases h
      rw [hnone] at ho; cases ho
    · cases h
  | tree n =>
    simp only [Mem.exec] at h
    split at h
    · obtain ⟨_, _, h⟩ := except_map_ok h
      cases h; rw [hnone] at ho; cases ho
    · cases h
  | maxSize n =>
    simp only [Mem.exec] at h
    split at h
    · obtain ⟨_, _, h⟩ := except_map_ok h
      cases h; rw [hnone] at ho; cases ho
    · cases h
  | eval n x =>
    simp only [Mem.exec] at h
    split at h
    · split at h
      · obtain ⟨_, _, h⟩ := except_map_ok h
        cases h; rw [hnone] at ho; cases ho
      · cases h
    · cases h

theorem good_execs (hS : S.OK) {M M' : Mem S} (hM : Inv M) (hg : Good M) {cs : List (Cmd S)} {obs : List (Obs S)}
    (h : M.execs cs = .ok (M', obs)) : Good M' := by
  induction cs generalizing M obs with
  | nil => cases h; exact hg
  | cons c cs ih =>
    obtain ⟨⟨M1, o1⟩, h1, h⟩ := except_bind_ok h
    obtain ⟨⟨M2, o2⟩, h2, h⟩ := except_map_ok h
    cases h
    exact ih (inv_exec hS hM h1) (good_exec hM hg h1) h2

theorem Reachable.good (hS : S.OK) {M : Mem S} (h : Reachable M) : Good M := by
  obtain ⟨cs, obs, h⟩ := h
  exact good_execs hS inv_empty (fun n f l d h => by cases h) h

end

/-! ### Observations -/

section
variable {S : Sys E V X Y K}

/-- What a program observes. -/
def observe (r : Except Err (Mem S × List (Obs S))) : Except Err (List (Obs S)) := r.map Prod.snd

theorem observe_cons (M : Mem S) (c : Cmd S) (cs : List (Cmd S)) :
    observe (M.execs (c :: cs)) = (M.exec c).bind fun r => (observe (r.1.execs cs)).map (r.2 ++ ·) := by
  simp only [observe, Mem.execs]
  cases M.exec c with
  | error e => rfl
  | ok r =>
    simp only [Except.bind]
    cases r.1.execs cs <;> rfl

theorem observe_nil (M : Mem S) : observe (M.execs []) = .ok [] := rfl

/-- Changing objects other than bases, vectors and backends cannot be seen by following pointers. -/
theorem get_set {M : Mem S} {m : Nat} {o x : Obj S} (ho : M.obj m = some o) (hk : o.kind = none) (hx : x.kind = none) :
    (M.set m (some x)).getRoot = M.getRoot ∧ (M.set m (some x)).getSub = M.getSub ∧ (M.set m (some x)).getVec = M.getVec ∧
      (M.set m (some x)).getBack = M.getBack := by
  have key : ∀ a, (M.set m (some x)).obj a = M.obj a ∨ (M.obj a = some o ∧ (M.set m (some x)).obj a = some x) := by
    intro a
    by_cases h : a = m
    · subst h; exact Or.inr ⟨ho, set_obj_self _ _ _⟩
    · exact Or.inl (set_obj_of_ne M _ h)
  refine ⟨?_, ?_, ?_, ?_⟩ <;> funext a
  · simp only [Mem.getRoot]
    rcases key a with h | ⟨h1, h2⟩
    · rw [h]
    · rw [h1, h2]; cases o <;> simp [Obj.kind] at hk <;> cases x <;> simp [Obj.kind] at hx <;> rfl
  · simp only [Mem.getSub]
    rcases key a with h | ⟨h1, h2⟩
    · rw [h]
    · rw [h1, h2]; cases o <;> simp [Obj.kind] at hk <;> cases x <;> simp [Obj.kind] at hx <;> rfl
  · simp only [Mem.getVec]
    rcases key a with h | ⟨h1, h2⟩
    · rw [h]
    · rw [h1, h2]; cases o <;> simp [Obj.kind] at hk <;> cases x <;> simp [Obj.kind] at hx <;> rfl
  · simp only [Mem.getBack]
    rcases key a with h | ⟨h1, h2⟩
    · rw [h]
    · rw [h1, h2]; cases o <;> simp [Obj.kind] at hk <;> cases x <;> simp [Obj.kind] at hx <;> rfl

theorem rootState_congr {M M' : Mem S} (h : M'.getRoot = M.getRoot) (r : RootPtr S) : M'.rootState r = M.rootState r := by
  cases r <;> simp [Mem.rootState, h]

theorem pathOf_congr {M M' : Mem S} (h : M'.getSub = M.getSub) (r : Held S) : M'.pathOf r = M.pathOf r := by
  cases r <;> simp [Mem.pathOf, h]

theorem coefs_congr {M M' : Mem S} (h : M'.getVec = M.getVec) (h' : M'.getBack = M.getBack) (c : Coef K) : M'.coefs c = M.coefs c := by
  cases c <;> simp [Mem.coefs, h, h']

theorem treeOf_congr {M M' : Mem S} (h : M'.getSub = M.getSub) (l : View S) : M'.treeOf l = M.treeOf l := by
  simp [Mem.treeOf, pathOf_congr h]

/-- Using a local view: bind it and look at everything. -/
def useView (n : Nat) (e : E) : List (Cmd S) := [.bind n e, .indices n, .tree n, .maxSize n]

/-- Using a local function. -/
def useLocal (n : Nat) (e : E) (x : X) : List (Cmd S) := [.bind n e, .eval n x]

/-- What a bound local view for state `st` shows, if its sub-tree is `p`. -/
def shown (S : Sys E V X Y K) (st : S.St) (p : List Nat) (e : E) : Except Err (List (Obs S)) :=
  match S.fresh st e with
  | none => .error .contract
  | some b => match S.subtree b p with
    | none => .error .contract
    | some t => .ok [.indices (S.indices b), .tree t, .nat (S.maxSize st)]

/-- The value of a discrete function with coefficients `c` in an element. -/
def evaluated (S : Sys E V X Y K) (st : S.St) (p : List Nat) (c : MI → K) (e : E) (x : X) : Except Err (List (Obs S)) :=
  match S.fresh st e with
  | none => .error .contract
  | some b => match S.subtree b p with
    | none => .error .contract
    | some t => .ok [.value (S.value t ((S.indices b).map c) x)]

theorem observe_view {M : Mem S} {n : Nat} {l : View S} (ho : M.obj n = some (.view l)) (hv : ViewOK M l) (e : E) {st : S.St}
    (hst : M.rootState l.root = .ok st) {p : List Nat} (hp : M.pathOf l.held = .ok p) : observe (M.execs (useView n e)) = shown S st p e := by
  have hn := hv.node st hst
  have h1 : M.exec (.bind n e) = (match S.fresh st e with
      | none => .error .contract
      | some b => .ok (M.set n (some (.view { l with element := some e, data := some b })), [])) := by
    simp only [Mem.exec, ho, Mem.bindView, hst, Except.bind, hn, Sys.fresh]
    cases S.bindNode st (S.makeNode st) e <;> rfl
  rw [useView, observe_cons, h1, shown]
  cases hf : S.fresh st e with
  | none => rfl
  | some b =>
    have ho' : (M.set n (some (.view { l with element := some e, data := some b }))).obj n = some (.view { l with element := some e, data := some b }) := set_obj_self _ _ _
    obtain ⟨g1, g2, -, -⟩ := get_set (x := .view { l with element := some e, data := some b }) ho rfl rfl
    have hr : (M.set n (some (.view { l with element := some e, data := some b }))).rootState l.root = .ok st := by rw [rootState_congr g1]; exact hst
    have hq : (M.set n (some (.view { l with element := some e, data := some b }))).pathOf l.held = .ok p := by rw [pathOf_congr g2]; exact hp
    simp only [Except.bind]
    generalize M.set n (some (.view { l with element := some e, data := some b })) = M' at ho' hr hq ⊢
    rw [observe_cons]
    simp only [Mem.exec, ho', Except.bind]
    rw [observe_cons]
    simp only [Mem.exec, ho', Mem.treeOf, hq, Except.bind]
    cases hs : S.subtree b p with
    | none => rfl
    | some t =>
      simp only [Except.map]
      rw [observe_cons]
      simp only [Mem.exec, ho', hr, Except.map, Except.bind, observe_nil]
      rfl

theorem observe_local {M : Mem S} {n : Nat} {f : Fn S} {l : View S} {d : List K} (ho : M.obj n = some (.lf f l d)) (hv : ViewOK M l) (e : E) (x : X)
    {st : S.St} (hst : M.rootState l.root = .ok st) {p : List Nat} (hp : M.pathOf l.held = .ok p) {c : MI → K} (hc : M.coefs f.coef = .ok c) :
    observe (M.execs (useLocal n e x)) = evaluated S st p c e x := by
  have hn := hv.node st hst
  have h1 : M.exec (.bind n e) = (match S.fresh st e with
      | none => .error .contract
      | some b => match S.subtree b p with
        | none => .error .contract
        | some t => .ok (M.set n (some (.lf f { l with element := some e, data := some b } ((S.indices b).map c))), [])) := by
    simp only [Mem.exec, ho, Mem.bindView, hst, Except.bind, hn, Sys.fresh]
    cases S.bindNode st (S.makeNode st) e with
    | none => rfl
    | some b =>
      simp only [Mem.readDofs, Mem.treeOf, hp, Except.bind]
      cases S.subtree b p with
      | none => rfl
      | some t => simp only [hc, Except.map]
  rw [useLocal, observe_cons, h1, evaluated]
  cases hf : S.fresh st e with
  | none => rfl
  | some b =>
    simp only
    cases hs : S.subtree b p with
    | none => rfl
    | some t =>
      set M' := M.set n (some (.lf f { l with element := some e, data := some b } ((S.indices b).map c))) with hM'
      have ho' : M'.obj n = some (.lf f { l with element := some e, data := some b } ((S.indices b).map c)) := set_obj_self _ _ _
      obtain ⟨g1, g2, -, -⟩ := get_set (x := .lf f { l with element := some e, data := some b } ((S.indices b).map c)) ho rfl rfl
      have hq : M'.pathOf l.held = .ok p := by rw [pathOf_congr g2]; exact hp
      simp only [Except.bind]
      rw [observe_cons]
      simp only [Mem.exec, ho', Option.isSome_some, if_true, Mem.treeOf, hq, Except.bind, hs, Except.map, observe_nil]
      rfl

/-- Pointers to old objects after a constructor. -/
theorem get_create {M : Mem S} (o : Obj S) {a : Nat} (ha : a < M.next) :
    (M.create o).getRoot a = M.getRoot a ∧ (M.create o).getSub a = M.getSub a ∧ (M.create o).getVec a = M.getVec a ∧
      (M.create o).getBack a = M.getBack a := by
  simp only [Mem.getRoot, Mem.getSub, Mem.getVec, Mem.getBack, create_obj_of_lt M o (show a ≠ M.next by omega), and_self]

theorem getSub_lt {M : Mem S} (hM : Inv M) {s : Nat} {p : Nat × List Nat} (h : M.getSub s = .ok p) : s < M.next := hM.lt (getSub_ok h)

theorem getVec_ok {M : Mem S} {v : Nat} {c : MI → K} (h : M.getVec v = .ok c) : M.obj v = some (.vec c) := by
  unfold Mem.getVec at h
  split at h <;> cases h
  assumption

theorem getBack_ok {M : Mem S} {b v : Nat} (h : M.getBack b = .ok v) : M.obj b = some (.back v) := by
  unfold Mem.getBack at h
  split at h <;> cases h
  assumption

theorem rootState_create {M : Mem S} (hM : Inv M) (o : Obj S) {r : RootPtr S} {st : S.St} (h : M.rootState r = .ok st) :
    (M.create o).rootState r = .ok st := by
  cases r with
  | own st => exact h
  | var a =>
    simp only [Mem.rootState] at h ⊢
    rw [(get_create o (hM.lt (getRoot_ok h))).1]
    exact h

theorem pathOf_create {M : Mem S} (hM : Inv M) (o : Obj S) {r : Held S} {p : List Nat} (h : M.pathOf r = .ok p) :
    (M.create o).pathOf r = .ok p := by
  cases r with
  | sub s =>
    simp only [Mem.pathOf] at h ⊢
    obtain ⟨q, hq, rfl⟩ := except_map_ok h
    rw [(get_create o (hM.lt (getSub_ok hq))).2.1, hq]
    rfl
  | root a => exact h
  | ownRoot st => exact h
  | ownSub a p => exact h

theorem coefs_create {M : Mem S} (hM : Inv M) (o : Obj S) {k : Coef K} {c : MI → K} (h : M.coefs k = .ok c) : (M.create o).coefs k = .ok c := by
  cases k with
  | own c => exact h
  | vec v =>
    simp only [Mem.coefs] at h ⊢
    rw [(get_create o (hM.lt (getVec_ok h))).2.2.1]
    exact h
  | back b =>
    simp only [Mem.coefs] at h ⊢
    obtain ⟨v, hv, h⟩ := except_bind_ok h
    rw [(get_create o (hM.lt (getBack_ok hv))).2.2.2, hv]
    simp only [Except.bind]
    rw [(get_create o (hM.lt (getVec_ok h))).2.2.1]
    exact h

/-- A new local view of `h` in a reachable memory. -/
theorem observe_new {M : Mem S} (hM : Inv M) {h : Held S} {r : RootPtr S} (hr : M.rootOf h = .ok r) {st : S.St} (hst : M.rootState r = .ok st) :
    ∃ l, M.newView h = .ok l ∧ l.held = h ∧ l.root = r ∧ ∀ (mk : View S → Obj S), (mk l).views = [l] → ViewOK (M.create (mk l)) l := by
  refine ⟨⟨h, r, S.makeNode st, none, none⟩, by simp only [Mem.newView, hr, Except.bind, hst, Except.map], rfl, rfl, fun mk _ => ⟨fun st' h' => ?_, fun r' hr' => ?_⟩⟩
  · have := rootState_create hM (mk ⟨h, r, S.makeNode st, none, none⟩) hst
    rw [this] at h'
    cases h'
    rfl
  · cases h with
    | sub s =>
      simp only [Mem.rootOf] at hr hr'
      obtain ⟨q, hq, rfl⟩ := except_map_ok hr
      rw [(get_create _ (hM.lt (getSub_ok hq))).2.1, hq] at hr'
      cases hr'
      rfl
    | root a => cases hr; cases hr'; rfl
    | ownRoot st => cases hr; cases hr'; rfl
    | ownSub a p => cases hr; cases hr'; rfl

end

/-! ## C81 -/

section
variable {S : Sys E V X Y K}

/-- Programs that destroy objects, or move from them, only when no existing object refers to them never use a dangling pointer. `refs`
is what the user has to know; `C81_references` lists it. -/
theorem C81_safe (hS : S.OK) (cs : List (Cmd S)) (h : (Mem.empty : Mem S).SafeRun cs) : (Mem.empty : Mem S).execs cs ≠ .error .dangling :=
  safeRun_not_dangling hS inv_empty live_empty cs h

/-- Local variables in nested scopes are always safe: if nothing is moved and objects are destroyed in the opposite order of their
creation there are no dangling pointers. -/
theorem C81_scopes (hS : S.OK) (cs : List (Cmd S)) (h : (Mem.empty : Mem S).ScopedRun cs) :
    (Mem.empty : Mem S).execs cs ≠ .error .dangling :=
  C81_safe hS cs (scopedRun_safeRun hS inv_empty cs h)

/-- An existing local view shows what belongs to the present state of its basis: whatever happened since it was created, `bind` makes it
equal to a new one. -/
theorem C81_view (hS : S.OK) {M : Mem S} (hM : Reachable M) {n : Nat} {l : View S} (ho : M.obj n = some (.view l)) {r : RootPtr S}
    (hr : M.rootOf l.held = .ok r) {st : S.St} (hst : M.rootState r = .ok st) {p : List Nat} (hp : M.pathOf l.held = .ok p) (e : E) :
    observe (M.execs (useView n e)) = shown S st p e := by
  have hv := (hM.inv hS).views n _ ho l (by simp [Obj.views])
  rw [hv.root r hr] at hst
  exact observe_view ho hv e hst hp

/-- An existing local view is as good as a new one: `b` is the basis or subspace basis it was created from. -/
theorem C81_asNew (hS : S.OK) {M : Mem S} (hM : Reachable M) {n : Nat} {l : View S} (ho : M.obj n = some (.view l)) {b : Nat}
    (hb : (l.held = .root b ∧ ∃ st, M.obj b = some (.root st)) ∨ (l.held = .sub b ∧ ∃ a p st, M.obj b = some (.sub a p) ∧ M.obj a = some (.root st)))
    (e : E) : (observe (M.execs (useView n e))).map (Obs.created M.next :: ·) = observe (M.execs (.localView b :: useView M.next e)) := by
  have hI := hM.inv hS
  obtain ⟨r, st, p, hr, hst, hp, hx⟩ : ∃ r st p, M.rootOf l.held = .ok r ∧ M.rootState r = .ok st ∧ M.pathOf l.held = .ok p ∧
      M.exec (.localView b) = (M.newView l.held).map fun l => (M.create (.view l), [.created M.next]) := by
    rcases hb with ⟨h, st, hb⟩ | ⟨h, a, p, st, hb, ha⟩
    · refine ⟨.var b, st, [], by rw [h]; rfl, ?_, by rw [h]; rfl, ?_⟩
      · simp only [Mem.rootState, Mem.getRoot]; rw [hb]
      · simp only [Mem.exec, hb, h]
    · refine ⟨.var a, st, p, ?_, ?_, ?_, ?_⟩
      · rw [h]; simp only [Mem.rootOf, Mem.getSub]; rw [hb]; rfl
      · simp only [Mem.rootState, Mem.getRoot]; rw [ha]
      · rw [h]; simp only [Mem.pathOf, Mem.getSub]; rw [hb]; rfl
      · simp only [Mem.exec, hb, h]
  rw [C81_view hS hM ho hr hst hp e, observe_cons, hx]
  obtain ⟨l', hl', e1, e2, hv'⟩ := observe_new hI hr hst
  rw [hl']
  simp only [Except.map, Except.bind]
  have hp' := pathOf_create hI (.view l') hp
  rw [← e1] at hp'
  have hs' := rootState_create hI (.view l') hst
  rw [← e2] at hs'
  rw [observe_view (create_obj_self M _) (hv' .view rfl) e hs' hp']
  rfl

/-- The value of a discrete function: if the objects it refers to exist then it is evaluated with the present state of the basis and
the present coefficients, through a new local function … -/
theorem C81_function (hS : S.OK) {M : Mem S} (hM : Reachable M) {n : Nat} {f : Fn S} (ho : M.obj n = some (.fn f)) {r : RootPtr S}
    (hr : M.rootOf f.basis = .ok r) {st : S.St} (hst : M.rootState r = .ok st) {p : List Nat} (hp : M.pathOf f.basis = .ok p) {c : MI → K}
    (hc : M.coefs f.coef = .ok c) (e : E) (x : X) :
    observe (M.execs (.localFunction n :: useLocal M.next e x)) = (evaluated S st p c e x).map (Obs.created M.next :: ·) := by
  have hI := hM.inv hS
  obtain ⟨l', hl', e1, e2, hv'⟩ := observe_new hI hr hst
  rw [observe_cons]
  simp only [Mem.exec, ho, hl', Except.map, Except.bind]
  have hp' := pathOf_create hI (.lf f l' []) hp
  rw [← e1] at hp'
  have hs' := rootState_create hI (.lf f l' []) hst
  rw [← e2] at hs'
  rw [observe_local (create_obj_self M _) (hv' (fun l => .lf f l []) rfl) e x hs' hp' (coefs_create hI _ hc)]
  rfl

/-- … or through an old one. -/
theorem C81_localFunction (hS : S.OK) {M : Mem S} (hM : Reachable M) {n : Nat} {f : Fn S} {l : View S} {d : List K}
    (ho : M.obj n = some (.lf f l d)) {r : RootPtr S}
    (hr : M.rootOf f.basis = .ok r) {st : S.St} (hst : M.rootState r = .ok st) {p : List Nat} (hp : M.pathOf f.basis = .ok p) {c : MI → K}
    (hc : M.coefs f.coef = .ok c) (e : E) (x : X) : observe (M.execs (useLocal n e x)) = evaluated S st p c e x := by
  have hv := (hM.inv hS).views n _ ho l (by simp [Obj.views])
  have hh := hM.good hS n f l d ho
  rw [← hh] at hr hp
  rw [hv.root r hr] at hst
  exact observe_local ho hv e x hst hp hc

/-- A function that refers to nothing has the same values until it is destroyed or moved, whatever the program does. -/
theorem C81_owned (hS : S.OK) {M M' : Mem S} (hM : Reachable M) {n : Nat} {f : Fn S} (ho : M.obj n = some (.fn f)) (hf : (Obj.fn f).refs = [])
    {cs : List (Cmd S)} {obs : List (Obs S)} (hcs : M.execs cs = .ok (M', obs)) {o' : Obj S} (ho' : M'.obj n = some o') :
    o' = .moved ∨ o' = .fn f ∧ ∀ e x, (observe (M'.execs (.localFunction n :: useLocal M'.next e x))).map List.tail =
      (observe (M.execs (.localFunction n :: useLocal M.next e x))).map List.tail := by
  obtain ⟨o, h1, h2⟩ := (execs_kept hcs).1 n ((hM.inv hS).lt ho) _ ho'
  rw [ho] at h1
  cases h1
  cases o' <;> simp only [Evolves, reduceCtorEq] at h2
  · right
    cases h2
    refine ⟨rfl, fun e x => ?_⟩
    have hM' : Reachable M' := by
      obtain ⟨cs0, obs0, h0⟩ := hM
      refine ⟨cs0 ++ cs, obs0 ++ obs, ?_⟩
      clear ho hf ho' hS
      generalize (Mem.empty : Mem S) = N at h0
      induction cs0 generalizing N obs0 with
      | nil => cases h0; exact hcs
      | cons c cs0 ih =>
        obtain ⟨⟨M1, o1⟩, h1, h⟩ := except_bind_ok h0
        obtain ⟨⟨M2, o2⟩, h2, h⟩ := except_map_ok h
        cases h
        have := ih o2 M1 h2
        simp only [List.cons_append, Mem.execs, h1, Except.bind, this, Except.map, List.append_assoc]
    obtain ⟨hb, hc⟩ := List.append_eq_nil_iff.mp hf
    cases hbb : f.basis <;> rw [hbb] at hb <;> simp only [Held.refs, List.cons_ne_nil] at hb
    rename_i st
    cases hcc : f.coef <;> rw [hcc] at hc <;> simp only [Coef.refs, List.cons_ne_nil] at hc
    rename_i c
    rw [C81_function hS hM' ho' (r := .own st) (by rw [hbb]; rfl) rfl (p := []) (by rw [hbb]; rfl) (c := c) (by rw [hcc]; rfl),
      C81_function hS hM ho (r := .own st) (by rw [hbb]; rfl) rfl (p := []) (by rw [hbb]; rfl) (c := c) (by rw [hcc]; rfl)]
    cases evaluated S st [] c e x <;> rfl
  · exact Or.inl rfl

end

/-! ### References -/

section
variable {S : Sys E V X Y K}

/-- The references of object `n`. -/
def Mem.refsOf (M : Mem S) (n : Nat) : List (Kind × Nat) := match M.obj n with
  | some o => o.refs
  | none => []

/-- A variable itself, if it is one others can refer to. -/
def Mem.self (M : Mem S) (n : Nat) : List (Kind × Nat) := match (M.obj n).bind Obj.kind with
  | some k => [(k, n)]
  | none => []

/-- Table of the references that a new object has, by statement:
- a subspace basis refers to the root basis, never to another subspace basis;
- a local view refers to its basis, and to the root of that;
- a function refers to arguments passed as lvalues, and to what rvalues refer to, but not to rvalues; an exception are vectors that
  cannot be accessed by multi-indices;
- a local function refers to what the function refers to, and to the root of that, but not to the function. -/
def Cmd.references (M : Mem S) : Cmd S → List (Kind × Nat)
  | .subspace n _ => match M.obj n with
    | some (.root _) => [(.root, n)]
    | _ => M.refsOf n
  | .backend v => [(.vec, v)]
  | .copy n => M.refsOf n
  | .move n => M.refsOf n
  | .localView n => M.self n ++ M.refsOf n
  | .function b v conforms => (match b with
      | .lvalue n => M.self n
      | .rvalue n => M.refsOf n) ++ (match v with
      | .lvalue n => M.self n
      | .rvalue n => match M.obj n with
        | some (.vec _) => if conforms then [] else [(.vec, n)]
        | _ => M.refsOf n)
  | .localFunction n => M.refsOf n ++ (M.refsOf n).flatMap fun p => if p.1 = .sub then M.refsOf p.2 else []
  | _ => []

theorem mem_newView {M : Mem S} {h : Held S} {l : View S} (hl : M.newView h = .ok l) (q : Kind × Nat) : q ∈ l.held.refs ++ l.root.refs ↔
    q ∈ h.refs ∨ ∃ p ∈ h.refs, p.1 = .sub ∧ q ∈ M.refsOf p.2 := by
  obtain ⟨-, h1, h2, -⟩ := newView_ok hl
  rw [h1, List.mem_append]
  cases h with
  | root a => simp only [Mem.rootOf, Except.ok.injEq] at h2; rw [← h2]; simp [Held.refs, RootPtr.refs]
  | ownRoot st => simp only [Mem.rootOf, Except.ok.injEq] at h2; rw [← h2]; simp [Held.refs, RootPtr.refs]
  | ownSub a p => simp only [Mem.rootOf, Except.ok.injEq] at h2; rw [← h2]; simp [Held.refs, RootPtr.refs]
  | sub s =>
    simp only [Mem.rootOf] at h2
    obtain ⟨p, hp, h2⟩ := except_map_ok h2
    rw [← h2]
    simp [Held.refs, RootPtr.refs, Mem.refsOf, getSub_ok hp, Obj.refs]

/-- `subspaceBasis(subspaceBasis(b, p), q)` is the same object as `subspaceBasis(b, p ++ q)`. -/
theorem C81_nested {M M1 M2 : Mem S} {n : Nat} {p q : List Nat} {obs1 obs2 : List (Obs S)} (h1 : M.exec (.subspace n p) = .ok (M1, obs1))
    (h2 : M1.exec (.subspace M.next q) = .ok (M2, obs2)) :
    ∃ M3 obs3, M.exec (.subspace n (p ++ q)) = .ok (M3, obs3) ∧ M2.obj M1.next = M3.obj M.next := by
  simp only [Mem.exec] at h1
  split at h1
  · rename_i hn
    cases h1
    simp only [Mem.exec, create_obj_self] at h2
    cases h2
    exact ⟨_, _, by simp only [Mem.exec, hn]; rfl, by rw [create_obj_self, create_obj_self]⟩
  · rename_i a r hn
    cases h1
    simp only [Mem.exec, create_obj_self] at h2
    cases h2
    exact ⟨_, _, by simp only [Mem.exec, hn]; rfl, by rw [create_obj_self, create_obj_self, List.append_assoc]⟩
  · cases h1

/-- The references of new objects are those of the table. -/
theorem C81_references (hS : S.OK) {M M' : Mem S} (hM : Reachable M) {c : Cmd S} {obs : List (Obs S)} (h : M.exec c = .ok (M', obs)) {o : Obj S}
    (ho : M'.obj M.next = some o) (q : Kind × Nat) : q ∈ o.refs ↔ q ∈ c.references M := by
  have hI := hM.inv hS
  have hnone : M.obj M.next = none := hI.bound _ (le_refl _)
  have cr : ∀ {N : Mem S} {x : Obj S}, N.next = M.next → (N.create x).obj M.next = some o → x = o := by
    intro N x hN h
    rw [← hN, create_obj_self, Option.some_inj] at h
    exact h
  have st : ∀ {n : Nat} {x : Obj S} {y : Option (Obj S)}, M.obj n = some x → (M.set n y).obj M.next = some o → False := by
    intro n x y ho' h
    rw [set_obj_of_ne M y (by rintro rfl; rw [hnone] at ho'; cases ho'), hnone] at h
    cases h
  have cpv : ∀ {n : Nat} {l l' : View S} {x : Obj S}, M.obj n = some x → l ∈ x.views → M.copyView l = .ok l' → l'.held = l.held ∧ l'.root = l.root := by
    intro n l l' x hx hl h
    obtain ⟨-, h2, h3, -⟩ := copyView_ok (hI.views n x hx l hl) h
    exact ⟨h2, h3⟩
  cases c with
  | makeBasis st => cases h; cases cr rfl ho; simp [Obj.refs, Cmd.references]
  | vector c => cases h; cases cr rfl ho; simp [Obj.refs, Cmd.references]
  | subspace n p =>
    simp only [Mem.exec] at h
    split at h
    · rename_i hn; cases h; cases cr rfl ho; simp [Obj.refs, Cmd.references, hn]
    · rename_i hn; cases h; cases cr rfl ho; simp [Obj.refs, Cmd.references, hn, Mem.refsOf]
    · cases h
  | backend v =>
    simp only [Mem.exec] at h
    split at h
    · cases h; cases cr rfl ho; simp [Obj.refs, Cmd.references]
    · cases h
  | copy n =>
    simp only [Mem.exec] at h
    split at h
    · cases h
    · cases h
    · rename_i hn
      obtain ⟨l', hl, h⟩ := except_map_ok h
      cases h; cases cr rfl ho
      obtain ⟨h2, h3⟩ := cpv hn (by simp [Obj.views]) hl
      simp [Obj.refs, Cmd.references, hn, Mem.refsOf, h2, h3]
    · rename_i hn
      obtain ⟨l', hl, h⟩ := except_map_ok h
      cases h; cases cr rfl ho
      obtain ⟨h2, h3⟩ := cpv hn (by simp [Obj.views]) hl
      simp [Obj.refs, Cmd.references, hn, Mem.refsOf, h2, h3]
    · rename_i hn
      cases h; cases cr rfl ho
      simp [Cmd.references, hn, Mem.refsOf]
  | move n =>
    simp only [Mem.exec] at h
    split at h
    · cases h
    · cases h
    · rename_i hn; cases h; cases cr (N := M.set n (some .moved)) rfl ho; simp [Obj.refs, Cmd.references, hn, Mem.refsOf]
    · rename_i hn; cases h; cases cr (N := M.set n (some .moved)) rfl ho; simp [Obj.refs, Cmd.references, hn, Mem.refsOf]
    · rename_i hn; cases h; cases cr (N := M.set n (some .moved)) rfl ho; simp [Cmd.references, hn, Mem.refsOf]
    · rename_i hn
      obtain ⟨l', hl, h⟩ := except_map_ok h
      cases h; cases cr rfl ho
      obtain ⟨h2, h3⟩ := cpv hn (by simp [Obj.views]) hl
      simp [Obj.refs, Cmd.references, hn, Mem.refsOf, h2, h3]
    · rename_i hn
      obtain ⟨l', hl, h⟩ := except_map_ok h
      cases h; cases cr rfl ho
      obtain ⟨h2, h3⟩ := cpv hn (by simp [Obj.views]) hl
      simp [Obj.refs, Cmd.references, hn, Mem.refsOf, h2, h3]
    · rename_i hn
      cases h; cases cr rfl ho
      simp [Cmd.references, hn, Mem.refsOf]
  | destroy n =>
    simp only [Mem.exec] at h
    split at h
    · cases h
    · rename_i hl; cases h; exact (st hl ho).elim
  | update n v =>
    simp only [Mem.exec] at h
    split at h
    · rename_i hl
      split at h <;> cases h
      exact (st hl ho).elim
    · cases h
  | assign v c =>
    simp only [Mem.exec] at h
    split at h
    · rename_i hl; cases h; exact (st hl ho).elim
    · cases h
  | localView n =>
    simp only [Mem.exec] at h
    split at h
    · rename_i hn
      obtain ⟨l', hl, h⟩ := except_map_ok h
      cases h; cases cr rfl ho
      rw [Obj.refs, mem_newView hl]
      simp [Cmd.references, Mem.self, Mem.refsOf, hn, Held.refs, Obj.kind, Obj.refs]
    · rename_i hn
      obtain ⟨l', hl, h⟩ := except_map_ok h
      cases h; cases cr rfl ho
      rw [Obj.refs, mem_newView hl]
      simp [Cmd.references, Mem.self, Mem.refsOf, hn, Held.refs, Obj.kind, Obj.refs]
    · cases h
  | function b v conforms =>
    simp only [Mem.exec] at h
    obtain ⟨⟨hd, M1⟩, hb, h⟩ := except_bind_ok h
    obtain ⟨⟨k, M2⟩, hv, h⟩ := except_map_ok h
    cases h
    have e1 : (∀ q, q ∈ hd.refs ↔ q ∈ (match b with
        | .lvalue n => M.self n
        | .rvalue n => M.refsOf n)) ∧ ∀ n x, M1.obj n = some x → x ≠ .moved → M.obj n = some x := by
      cases b <;> simp only [Mem.passBasis] at hb <;> split at hb
      · rename_i hn; cases hb; exact ⟨by simp [Held.refs, Mem.self, hn, Obj.kind], fun _ _ h _ => h⟩
      · rename_i hn
        obtain ⟨_, _, hb⟩ := except_map_ok hb
        cases hb; exact ⟨by simp [Held.refs, Mem.self, hn, Obj.kind], fun _ _ h _ => h⟩
      · cases hb
      · rename_i n _ _ hn
        cases hb
        refine ⟨by simp [Held.refs, Mem.refsOf, hn, Obj.refs], fun m x h hx => ?_⟩
        by_cases hm : m = n
        · subst hm
          rw [set_obj_self, Option.some_inj] at h
          exact absurd h.symm hx
        · rwa [set_obj_of_ne M _ hm] at h
      · rename_i hn
        obtain ⟨_, _, hb⟩ := except_map_ok hb
        cases hb; exact ⟨by simp [Held.refs, Mem.refsOf, hn, Obj.refs], fun _ _ h _ => h⟩
      · cases hb
    have e2 : ∀ q, q ∈ k.refs ↔ q ∈ (match v with
      | .lvalue n => M.self n
      | .rvalue n => match M.obj n with
        | some (.vec _) => if conforms then [] else [(.vec, n)]
        | _ => M.refsOf n) := by
      cases v <;> simp only [Mem.passVec] at hv <;> split at hv
      · rename_i hn; cases hv; have := e1.2 _ _ hn (by simp); simp [Coef.refs, Mem.self, this, Obj.kind]
      · rename_i hn; cases hv; have := e1.2 _ _ hn (by simp); simp [Coef.refs, Mem.self, this, Obj.kind]
      · cases hv
      · rename_i hn
        have := e1.2 _ _ hn (by simp)
        split at hv
        · rename_i hc; cases hv; simp [Coef.refs, this, hc]
        · rename_i hc; cases hv; simp [Coef.refs, this, hc]
      · rename_i hn; cases hv; have := e1.2 _ _ hn (by simp); simp [Coef.refs, Mem.refsOf, this, Obj.refs]
      · cases hv
    obtain ⟨-, n1⟩ := kept_passBasis hb
    obtain ⟨-, n2⟩ := kept_passVec hv
    cases cr (n2.trans n1) ho
    simp only [Obj.refs, Cmd.references, List.mem_append]
    exact or_congr (e1.1 q) (e2 q)
  | localFunction n =>
    simp only [Mem.exec] at h
    split at h
    · rename_i f hn
      obtain ⟨l', hl, h⟩ := except_map_ok h
      cases h; cases cr rfl ho
      rw [Obj.refs, List.mem_append, mem_newView hl]
      simp only [Cmd.references, Mem.refsOf, hn, Obj.refs, List.mem_append, List.mem_flatMap]
      constructor
      · rintro ((h | h) | (h | ⟨p, hp, hs, h⟩))
        · exact Or.inl (Or.inl h)
        · exact Or.inl (Or.inr h)
        · exact Or.inl (Or.inl h)
        · exact Or.inr ⟨p, Or.inl hp, by rw [if_pos hs]; exact h⟩
      · rintro (h | ⟨p, hp, h⟩)
        · exact Or.inl h
        · by_cases hs : p.1 = .sub
          · rw [if_pos hs] at h
            rcases hp with hp | hp
            · exact Or.inr (Or.inr ⟨p, hp, hs, h⟩)
            · exfalso
              cases hc : f.coef <;> rw [hc] at hp <;> simp [Coef.refs] at hp <;> subst hp <;> simp at hs
          · rw [if_neg hs] at h
            simp at h
    · cases h
  | bind n e =>
    simp only [Mem.exec] at h
    split at h
    · rename_i hl
      obtain ⟨l', _, h⟩ := except_map_ok h
      cases h; exact (st hl ho).elim
    · rename_i hl
      obtain ⟨l', _, h⟩ := except_bind_ok h
      obtain ⟨d', _, h⟩ := except_map_ok h
      cases h; exact (st hl ho).elim
    · cases h
  | unbind n =>
    simp only [Mem.exec] at h
    split at h
    · rename_i hl; cases h; exact (st hl ho).elim
    · rename_i hl; cases h; exact (st hl ho).elim
    · cases h
  | dimension n =>
    simp only [Mem.exec] at h
    split at h
    · cases h; rw [hnone] at ho; cases ho
    · obtain ⟨_, _, h⟩ := except_map_ok h
      cases h; rw [hnone] at ho; cases ho
    · cases h
  | indices n =>
    simp only [Mem.exec] at h
    split at h
    · split at h <;> cases h
      rw [hnone] at ho; cases ho
    · cases h
  | tree n =>
    simp only [Mem.exec] at h
    split at h
    · obtain ⟨_, _, h⟩ := except_map_ok h
      cases h; rw [hnone] at ho; cases ho
    · cases h
  | maxSize n =>
    simp only [Mem.exec] at h
    split at h
    · obtain ⟨_, _, h⟩ := except_map_ok h
      cases h; rw [hnone] at ho; cases ho
    · cases h
  | eval n x =>
    simp only [Mem.exec] at h
    split at h
    · split at h
      · obtain ⟨_, _, h⟩ := except_map_ok h
        cases h; rw [hnone] at ho; cases ho
      · cases h
    · cases h

/-- References never change: an object refers to the same objects until it is destroyed or moved from. -/
theorem C81_constant (hS : S.OK) {M M' : Mem S} (hM : Reachable M) {cs : List (Cmd S)} {obs : List (Obs S)} (h : M.execs cs = .ok (M', obs)) {n : Nat}
    {o o' : Obj S} (ho : M.obj n = some o) (ho' : M'.obj n = some o') : o' = .moved ∨ o'.refs = o.refs := by
  obtain ⟨x, h1, h2⟩ := (execs_kept h).1 n ((hM.inv hS).lt ho) _ ho'
  rw [ho] at h1
  cases h1
  exact h2.refs

end

/-! ## The pre-bases of the library -/

/-- What nodes copy from the pre-basis when they are created. All else in a node is set by `bind`, is static, or is a pointer to a member of the
pre-basis: argyrisbasis.hh:911-914 and 794-802, brezzidouglasmarinibasis.hh:214-217, bsplinebasis.hh:701-704,
cubichermitebasis.hh:780-783 and 672-676, lfeprebasismixin.hh:92-95, morleybasis.hh:650-653 and 547-549, nedelecbasis.hh:198-201,
raviartthomasbasis.hh:315-318. -/
inductive LibNode (D : Type)
  /-- no copies -/
  | pointers
  /-- lagrangedgbasis.hh:115-118, the order stands for the layout -/
  | mixin (lay : Mapper.Layout)
  /-- lagrangebasis.hh:824-827 -/
  | lagrange (order : Nat)
  | power (n : Nat) (c : LibNode D)
  | compNil
  | compCons (c cs : LibNode D)
  /-- restrictedbasis.hh:61-95: `subDomainGridView_` is a reference to a member of the pre-basis, `subDomain_` one to the user's sub-domain -/
  | restricted (c : LibNode D) (dom : D)

/-- `makeNode()` of all pre-bases. -/
def libNode {H D : Type} : Update.State H D → LibNode D
  | .mixin s => .mixin s.mapper.lay
  | .lagrange order _ _ _ => .lagrange order
  -- dynamicpowerbasis.hh:110-116, powerbasis.hh:89-95
  | .power n s => .power n (libNode s)
  -- compositebasis.hh:152-159
  | .compNil => .compNil
  | .compCons s t => .compCons (libNode s) (libNode t)
  -- transformedindexbasis.hh:106-109
  | .transformed _ s => libNode s
  | .periodic _ s _ _ => libNode s
  -- restrictedbasis.hh:142-145
  | .restricted _ s dom => .restricted (libNode s) dom
  -- rannacherturekbasis.hh:100-103, taylorhoodbasis.hh:118-121
  | _ => .pointers

section
variable {H D E' S' : Type}
open Update (State World Out)

theorem libNode_init (w : World H D E' S') : ∀ s : State H D, libNode (Update.init w s) = libNode s := by
  intro s
  induction s <;> simp_all [Update.init, libNode, Update.Mixin.init]

/-- `update` of any basis, including calls that throw exceptions, changes nothing that nodes have copied. -/
theorem libNode_update (dim : Nat) (w : World H D E' S') : ∀ (s : State H D) (h : H) (o : Out H D),
    Update.update dim w h s = some o → libNode o.state = libNode s := by
  intro s
  induction s with
  | mixin s => intro h o ho; cases ho; rfl
  | lagrange order g m p =>
    intro h o ho
    simp only [Update.update, Update.lagrangeUpdate, Option.some_inj] at ho
    split at ho <;> subst ho <;> rfl
  | rannacherTurek g => intro h o ho; cases ho; rfl
  | bspline c g => intro h o ho; cases ho; rfl
  | compNil => intro h o ho; cases ho; rfl
  | nedelec f b m | raviartThomas k f b m | bdm k b i or | hermite r b v _ | morley b m _ =>
    intro h o ho
    simp only [Update.update, Option.map_eq_some_iff] at ho
    obtain ⟨o', -, rfl⟩ := ho
    rfl
  | argyris b v e _ _ =>
    intro h o ho
    simp only [Update.update, Option.map_eq_some_iff, Option.bind_eq_some_iff] at ho
    obtain ⟨s', -, o', -, rfl⟩ := ho
    rfl
  | taylorHood g p q ihp ihq =>
    intro h o ho
    simp only [Update.update, Option.bind_eq_some_iff] at ho
    obtain ⟨o1, h1, ho⟩ := ho
    split at ho
    · cases ho; rfl
    · simp only [Option.map_eq_some_iff] at ho
      obtain ⟨o2, h2, rfl⟩ := ho
      rfl
  | compCons p q ihp ihq =>
    intro h o ho
    simp only [Update.update, Option.bind_eq_some_iff] at ho
    obtain ⟨o1, h1, ho⟩ := ho
    have e1 := ihp _ _ h1
    split at ho
    · cases ho; simp [libNode, e1]
    · simp only [Option.map_eq_some_iff] at ho
      obtain ⟨o2, h2, rfl⟩ := ho
      simp [libNode, Out.map, e1, ihq _ _ h2]
  | power n s ih | transformed n s ih | periodic n s _ _ ih | restricted n s _ ih =>
    intro h o ho
    simp only [Update.update, Option.map_eq_some_iff] at ho
    obtain ⟨o1, h1, rfl⟩ := ho
    simp [libNode, Out.map, ih _ _ h1]

theorem makeNode_basisUpdate (dim : Nat) (w : World H D E' S') (s : State H D) (h : H) (o : Out H D)
    (ho : Update.basisUpdate dim w h s = some o) : libNode o.state = libNode s := by
  simp only [Update.basisUpdate, Option.map_eq_some_iff] at ho
  obtain ⟨o', h', rfl⟩ := ho
  have := libNode_update dim w s h o' h'
  cases o'.error with
  | none => simpa [libNode_init] using this
  | some e => exact this

/-- The bases of the library, whatever they compute: the grids may change with each update, exceptions are caught. -/
noncomputable def library (dim : Nat) {B T : Type} (bindNode : State H D → LibNode D → E → Option B) (indices : B → List MI)
    (subtree : B → List Nat → Option T) (maxSize dimension : State H D → Nat) (value : T → List K → X → Y) :
    Sys E (World H D E' S' × H) X Y K :=
  ⟨State H D, LibNode D, B, T, libNode, bindNode, indices, subtree, maxSize, dimension,
    fun v st => (Update.basisUpdate dim v.1 v.2 st).map Out.state, value⟩

/-- All bases of the library satisfy the assumption of the theorems above. -/
theorem C81_library (dim : Nat) {B T : Type} (bindNode : State H D → LibNode D → E → Option B) (indices : B → List MI)
    (subtree : B → List Nat → Option T) (maxSize dimension : State H D → Nat) (value : T → List K → X → Y) :
    (library (E' := E') (S' := S') dim bindNode indices subtree maxSize dimension value).OK := by
  intro v st st' h
  obtain ⟨o, ho, rfl⟩ := Option.map_eq_some_iff.mp h
  exact makeNode_basisUpdate dim v.1 st v.2 o ho

end

/-! ## Examples, and where the code does not keep what one may expect -/

/-- A basis of two components of some order on grids of some size. -/
def exSys : Sys Nat Nat Int Int Int where
  St := Nat × Nat
  N := Nat
  B := List MI
  T := List MI
  makeNode := Prod.fst
  bindNode st n e := if n = st.1 ∧ e < st.2 then some [[0, e], [1, st.2 - 1 - e]] else none
  indices := id
  subtree b p := match p with
    | [] => some b
    | [i] => b[i]?.map fun m => [m]
    | _ => none
  maxSize st := 2 * st.1
  dimension st := 2 * st.2
  update v st := some (st.1, v)
  value t d x := t.length * d.sum + x

theorem exSys_ok : exSys.OK := by
  intro v st st' h
  cases h
  rfl

/-- Some vector. -/
def exVec : MI → Int := fun m => m.foldl (fun a i => 10 * a + i) 0

/-- A subspace basis, a local view of it, an update, another local view: both show the same. -/
example : observe ((Mem.empty : Mem exSys).execs ([.makeBasis (1, 4), .subspace 0 [0], .localView 1, .bind 2 3, .update 0 8] ++ useView 2 3 ++
    [.localView 1] ++ useView 3 3)) = .ok [.created 0, .created 1, .created 2, .indices [[0, 3], [1, 4]], .tree [[0, 3]], .nat 2,
      .created 3, .indices [[0, 3], [1, 4]], .tree [[0, 3]], .nat 2] := by cbv

/-- Nested scopes, as in `C81_scopes`. -/
example : observe ((Mem.empty : Mem exSys).execs ([.makeBasis (1, 4), .vector exVec, .subspace 0 [1], .function (.lvalue 2) (.lvalue 1) false,
    .localFunction 3] ++ useLocal 4 1 7 ++ [.assign 1 (fun _ => 1)] ++ useLocal 4 1 7 ++ [.destroy 4, .destroy 3, .destroy 2, .destroy 1, .destroy 0])) =
    .ok [.created 0, .created 1, .created 2, .created 3, .created 4, .value 20, .value 9] := by cbv

/-- Such a program satisfies the assumption of `C81_scopes` (and so that of `C81_safe`). -/
example : (Mem.empty : Mem exSys).ScopedRun [.makeBasis (1, 4), .localView 0, .bind 1 3, .destroy 1, .destroy 0] := by
  refine ⟨trivial, fun r hr => ?_⟩
  cases hr
  refine ⟨trivial, fun r hr => ?_⟩
  cases hr
  refine ⟨trivial, fun r hr => ?_⟩
  cases hr
  refine ⟨fun m hm => ?_, fun r hr => ?_⟩
  · simp only [Mem.create, Mem.set, Mem.empty, Function.update_apply]
    split_ifs <;> first | omega | rfl
  · cases hr
    refine ⟨fun m hm => ?_, fun r hr => trivial⟩
    simp only [Mem.create, Mem.set, Mem.empty, Function.update_apply]
    split_ifs <;> first | omega | rfl

example : ∃ (M1 M2 : Mem exSys), (((Mem.empty : Mem exSys).create (.root (1, 4))).exec (.subspace 0 [0])) = .ok (M1, [.created 1]) ∧
    (M1.exec (.subspace 1 [2])) = .ok (M2, [.created 2]) ∧ M2.obj 2 = some (.sub 0 [0, 2]) := ⟨_, _, rfl, rfl, rfl⟩

/-- A temporary in a nested subspace basis: the new object refers to the root only. -/
example : observe ((Mem.empty : Mem exSys).execs ([.makeBasis (1, 4), .subspace 0 [], .subspace 1 [1], .destroy 1, .localView 2] ++ useView 3 0)) =
    .ok [.created 0, .created 1, .created 2, .created 3, .indices [[0, 0], [1, 3]], .tree [[1, 3]], .nat 2] := by cbv

/-- A function that owns its basis and its vector. -/
example : observe ((Mem.empty : Mem exSys).execs ([.makeBasis (1, 4), .vector exVec, .function (.rvalue 0) (.rvalue 1) true, .destroy 1, .destroy 0,
    .localFunction 2, .destroy 2] ++ useLocal 3 1 7)) = .ok [.created 0, .created 1, .created 2, .created 3, .value 33] := by cbv

/-- `auto localView = subspaceBasis(basis, path).localView()`: the local view has a pointer to the temporary (subspacebasis.hh:99-102,
subspacelocalview.hh:63-68 and 151). `tree()` follows it (109-112), although `bind` and `index` work. -/
theorem C81_temporarySubspace_false :
    observe ((Mem.empty : Mem exSys).execs [.makeBasis (1, 4), .subspace 0 [0], .localView 1, .destroy 1, .bind 2 3, .indices 2]) =
      .ok [.created 0, .created 1, .created 2, .indices [[0, 3], [1, 0]]] ∧
    (Mem.empty : Mem exSys).execs [.makeBasis (1, 4), .subspace 0 [0], .localView 1, .destroy 1, .bind 2 3, .tree 2] = .error .dangling :=
  ⟨by cbv, by cbv⟩

/-- `makeDiscreteGlobalBasisFunction<Range>(basis, Vector{…})` with a temporary vector: a vector that can be accessed by multi-indices is moved into
the function, for others only a pointer is stored (discreteglobalbasisfunction.hh:465-477). -/
theorem C81_temporaryVector_false :
    observe ((Mem.empty : Mem exSys).execs ([.makeBasis (1, 4), .vector exVec, .function (.lvalue 0) (.rvalue 1) true, .destroy 1,
      .localFunction 2] ++ useLocal 3 1 7)) = .ok [.created 0, .created 1, .created 2, .created 3, .value 33] ∧
    (Mem.empty : Mem exSys).execs ([.makeBasis (1, 4), .vector exVec, .function (.lvalue 0) (.rvalue 1) false, .destroy 1,
      .localFunction 2] ++ useLocal 3 1 7) = .error .dangling :=
  ⟨by cbv, by cbv⟩

/-- A copy of a bound local view shows something else than the original, if the basis was updated meanwhile: copying binds again
(defaultlocalview.hh:81-88). -/
theorem C81_copy_false :
    observe ((Mem.empty : Mem exSys).execs [.makeBasis (1, 4), .localView 0, .bind 1 0, .update 0 8, .copy 1, .indices 1, .indices 2]) =
      .ok [.created 0, .created 1, .created 2, .indices [[0, 0], [1, 3]], .indices [[0, 0], [1, 7]]] := by cbv

section
variable {S : Sys E V X Y K}

/-- Without an update since the last `bind` the copy of a bound local view shows what the original shows. -/
theorem C81_copy_partial (hS : S.OK) {M : Mem S} (hM : Reachable M) {n : Nat} {l : View S} (ho : M.obj n = some (.view l)) {e : E}
    (he : l.element = some e) {r : RootPtr S} (hr : M.rootOf l.held = .ok r) {st : S.St} (hst : M.rootState r = .ok st) {b : S.B} (hb : l.data = some b)
    (hf : S.fresh st e = some b) : M.exec (.copy n) = .ok (M.create (.view l), [.created M.next]) := by
  have hv := (hM.inv hS).views n _ ho l (by simp [Obj.views])
  rw [hv.root r hr] at hst
  have hn := hv.node st hst
  have : M.copyView l = .ok l := by
    simp only [Mem.copyView, hst, Except.bind, he, Mem.bindView]
    rw [Sys.fresh] at hf
    rw [hf]
    cases l
    simp_all
  simp only [Mem.exec, ho, this, Except.map]

end

end Verif.BasisLifetime
