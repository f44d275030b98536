/-!
# Local ansatz trees

Model of the node classes in `dune/functions/functionspacebases/nodes.hh`
(lines 130-426), of the leaf node `bind` in `lfeprebasismixin.hh` (153-157) and of
`RestrictedPreBasis::Node::bind` in `restrictedbasis.hh` (74-85).
-/

namespace Verif.IndexTree

/-- Data stored in one node of the local tree (`BasisNodeMixin`, nodes.hh:130-209:
`offset_`, `size_`, `treeIndex_`, all initialised with 0).
`element` is the element pointer stored by a leaf (lfeprebasismixin.hh:153-157),
`none` until the leaf was bound.
`feSize` is the size of the leaf's local finite element as a function of the element
the leaf is bound to; `none` for inner nodes.  Modelled as a function of the element
since some finite elements are selected/rebound per element in `bind`.
`filters` are the `contains` tests of the `RestrictedPreBasis::Node` classes derived
from this node, the outermost (most derived) class first; a restricted node *is* its
base node (restrictedbasis.hh:59-60). -/
structure NodeData (E : Type) where
  offset : Nat := 0
  size : Nat := 0
  treeIndex : Nat := 0
  element : Option E := none
  feSize : Option (E → Nat) := none
  filters : List (E → Bool) := []

/-- A local tree: leaf, power, dynamic power and composite nodes
(nodes.hh:212-409).  All inner node kinds are a node with a list of children. -/
inductive Node (E : Type) where
  | mk (data : NodeData E) (children : List (Node E))

namespace Node

variable {E : Type}

def data : Node E → NodeData E
  | mk d _ => d

def children : Node E → List (Node E)
  | mk _ c => c

/-- `node.size()`, nodes.hh:158-161. -/
def size (n : Node E) : Nat := n.data.size

/-- `node.offset()`, nodes.hh:183-186. -/
def offset (n : Node E) : Nat := n.data.offset

/-- `node.treeIndex()`, nodes.hh:176-179. -/
def treeIndex (n : Node E) : Nat := n.data.treeIndex

/-- `node.localIndex(i)`, nodes.hh:145-149. `none`: the assertion `i < size_` fails. -/
def localIndex (n : Node E) (i : Nat) : Option Nat :=
  if i < n.size then some (n.offset + i) else none

mutual
/-- The `forEachNode` loop of restrictedbasis.hh:80-83: every node of the subtree gets
offset `off` and size 0. -/
def emptyAll (off : Nat) : Node E → Node E
  | mk d c => mk { d with offset := off, size := 0 } (emptyAllList off c)
def emptyAllList (off : Nat) : List (Node E) → List (Node E)
  | [] => []
  | n :: ns => emptyAll off n :: emptyAllList off ns
end

mutual
/-- `bindTree(tree, entity, offset)`, nodes.hh:412-417: `setOffset(tree, offset)` followed
by `tree.bind(entity)`, where `bind` is

* restricted node (restrictedbasis.hh:74-85): if the subdomain contains the element
  call `Base::bind`, otherwise make the whole subtree empty. Several derived restricted
  classes test one after the other, hence `filters.all`.
* leaf node (lfeprebasismixin.hh:153-157): store the element, set size to the size of
  the finite element.
* inner node (nodes.hh:236-245): bind the children one after the other at increasing
  offsets, afterwards set the own size to the accumulated difference. -/
def bindTree (e : E) (off : Nat) : Node E → Node E
  | mk d c =>
    if d.filters.all (fun f => f e) then
      match d.feSize with
      | some sz => mk { d with offset := off, element := some e, size := sz e } c
      | none =>
        let r := bindChildren e off c
        mk { d with offset := off, size := r.2 - off } r.1
    else
      emptyAll off (mk d c)
/-- Loop over the children in nodes.hh:240-243: returns the bound children and the final
value of the local variable `offset`. -/
def bindChildren (e : E) (off : Nat) : List (Node E) → List (Node E) × Nat
  | [] => ([], off)
  | n :: ns =>
    let n' := bindTree e off n
    let r := bindChildren e (off + n'.size) ns
    (n' :: r.1, r.2)
end

mutual
/-- `initializeTree(tree, treeIndexOffset)`, nodes.hh:419-426: `forEachNode` visits the
nodes in pre-order (dune-typetree) and numbers them consecutively. Returns the tree and
the incremented counter. -/
def initializeTree (k : Nat) : Node E → Node E × Nat
  | mk d c =>
    let r := initializeTreeList (k+1) c
    (mk { d with treeIndex := k } r.1, r.2)
def initializeTreeList (k : Nat) : List (Node E) → List (Node E) × Nat
  | [] => ([], k)
  | n :: ns =>
    let r := initializeTree k n
    let rs := initializeTreeList r.2 ns
    (r.1 :: rs.1, rs.2)
end

end Node
end Verif.IndexTree
