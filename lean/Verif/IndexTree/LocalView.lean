import Verif.IndexTree.Spec

/-!
# Local views

Model of `DefaultLocalView` (defaultlocalview.hh:57-170).
-/

namespace Verif.IndexTree

variable {E : Type}

/-- State of a local view: `tree_`, `element_`, `indices_` (defaultlocalview.hh). -/
structure LocalView (E : Type) where
  tree : Node E
  element : Option E
  indices : Buf

namespace LocalView

/-- Constructor from a basis, defaultlocalview.hh:72-78. -/
def fresh (pb : PreBasis E) : LocalView E where
  tree := (Node.initializeTree 0 pb.makeNode).1
  element := none
  indices := []

/-- `indices_.resize(n)` for a `std::vector` of indices; new entries are default constructed
(size 0). -/
def resizeBuf (buf : Buf) (n : Nat) : Buf := buf.take n ++ List.replicate (n - buf.length) []

/-- `bind(e)`, defaultlocalview.hh:95-101. The index type has capacity
`multiIndexBufferSize` (57-60). -/
def bind (pb : PreBasis E) (lv : LocalView E) (e : E) : Option (LocalView E) :=
  let tree' := Node.bindTree e 0 lv.tree
  (pb.indices pb.bufLen tree' (resizeBuf lv.indices tree'.size) 0).bind fun st =>
    some { tree := tree', element := some e, indices := st.1 }

/-- `unbind()`, defaultlocalview.hh:123-126. -/
def unbind (lv : LocalView E) : LocalView E := { lv with element := none }

/-- Copy constructor, defaultlocalview.hh:81-88. -/
def copy (pb : PreBasis E) (lv : LocalView E) : Option (LocalView E) :=
  match lv.element with
  | none => some (fresh pb)
  | some e => bind pb (fresh pb) e

/-- `size()`, defaultlocalview.hh:139-142. -/
def size (lv : LocalView E) : Nat := lv.tree.size

/-- `index(i)`, defaultlocalview.hh:156-159; out of range: undefined. -/
def index (lv : LocalView E) (i : Nat) : Option MI := lv.indices[i]?

end LocalView

/-- Operations of a user on a collection of local views of one basis. -/
inductive LVOp (E : Type) where
  | new
  | copy (i : Nat)
  | bind (i : Nat) (e : E)
  | unbind (i : Nat)

/-- Execute one operation; operations on views that do not exist are undefined. -/
def stepLV (pb : PreBasis E) (s : List (LocalView E)) : LVOp E → Option (List (LocalView E))
  | .new => some (s ++ [LocalView.fresh pb])
  | .copy i => (s[i]?).bind fun lv => (lv.copy pb).bind fun lv' => some (s ++ [lv'])
  | .bind i e => (s[i]?).bind fun lv => (lv.bind pb e).bind fun lv' => some (s.set i lv')
  | .unbind i => (s[i]?).bind fun lv => some (s.set i lv.unbind)

def runLV (pb : PreBasis E) : List (LocalView E) → List (LVOp E) → Option (List (LocalView E))
  | s, [] => some s
  | s, op :: ops => (stepLV pb s op).bind fun s' => runLV pb s' ops

/-- Reading all multi-indices of an element through a new local view. -/
def localIndices (pb : PreBasis E) (e : E) : Option (List MI) :=
  ((LocalView.fresh pb).bind pb e).bind fun lv => some lv.indices

end Verif.IndexTree
