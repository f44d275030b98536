import Verif.IndexTree.Model

/-!
# Basis trees and the specification of global basis functions

A global basis function of a basis tree is identified by the path of its leaf in the
ansatz tree followed by its index in the leaf basis.  The specification below does not
refer to the model of the code in `Model.lean`.
-/

namespace Verif.IndexTree

/-- Specification data of a (pre-)basis. -/
structure Spec (E : Type) where
  /-- all global basis functions: leaf path followed by the index in the leaf basis -/
  dofs : List (List Nat)
  /-- the global basis functions on an element in the order of the local numbering -/
  loc : E → List (List Nat)
  /-- the documented multi-index of a global basis function -/
  mi : List Nat → MI
  /-- number of first digits -/
  root : Nat

/-- Apply `f` to the first digit. -/
def onFirst (f : Nat → Nat) : MI → MI
  | [] => []
  | x :: r => f x :: r

/-- The documented merging strategies (basistags.hh:43-184) for `c` copies of a basis with
`root` first digits: the multi-index of function number `k` with index `m` in its copy. -/
def IMS.merge (s : IMS) (c root k : Nat) (m : MI) : MI :=
  match s with
  | .flatLex => onFirst (· + k * root) m
  | .flatInt => onFirst (· * c + k) m
  | .blockedLex => k :: m
  | .blockedInt => m ++ [k]

def specLeaf {E : Type} (L : Leaf E) : Spec E where
  dofs := (List.range L.dim).map fun i => [i]
  loc := fun e => (L.loc e).map fun i => [i]
  mi := fun d => d
  root := L.dim

def specPower {E : Type} (s : IMS) (c : Nat) (sp : Spec E) : Spec E where
  dofs := (List.range c).flatMap fun k => sp.dofs.map (k :: ·)
  loc := fun e => (List.range c).flatMap fun k => (sp.loc e).map (k :: ·)
  mi := fun d => match d with
    | [] => []
    | k :: d => s.merge c sp.root k (sp.mi d)
  root := match s with
    | .flatLex => c * sp.root
    | .flatInt => c * sp.root
    | .blockedLex => c
    | .blockedInt => sp.root

/-- Concatenate the functions of the children numbered from `k`. -/
def tagged : Nat → List (List (List Nat)) → List (List Nat)
  | _, [] => []
  | k, l :: ls => l.map (k :: ·) ++ tagged (k+1) ls

def specComposite {E : Type} (blocked : Bool) (sps : List (Spec E)) : Spec E where
  dofs := tagged 0 (sps.map (·.dofs))
  loc := fun e => tagged 0 (sps.map (·.loc e))
  mi := fun d => match d with
    | [] => []
    | k :: d => match sps[k]? with
      | none => []
      | some sp =>
        if blocked then k :: sp.mi d
        else onFirst (· + ((sps.take k).map (·.root)).sum) (sp.mi d)
  root := if blocked then sps.length else (sps.map (·.root)).sum

def specRestricted {E : Type} (contains : E → Bool) (sp : Spec E) : Spec E where
  dofs := sp.dofs
  loc := fun e => if contains e then sp.loc e else []
  mi := sp.mi
  root := sp.root

/-- Basis trees: any nesting of power, composite and restricted bases over leaf bases.
`ext` allows to use another pre-basis implementation as leaf of the tree if it is verified
separately. -/
inductive PB (E : Type) where
  | leaf (L : Leaf E)
  | power (s : IMS) (c : Nat) (sub : PB E)
  | composite (blocked : Bool) (subs : List (PB E))
  | restricted (contains : E → Bool) (sub : PB E)
  | ext (pb : PreBasis E) (sp : Spec E)

variable {E : Type}

mutual
/-- The pre-basis object of a basis tree: model of the code. -/
def PB.model : PB E → PreBasis E
  | .leaf L => leafPB L
  | .power s c sub => powerPB s c sub.model
  | .composite blocked subs => compositePB blocked (PB.models subs)
  | .restricted contains sub => restrictedPB contains sub.model
  | .ext pb _ => pb
def PB.models : List (PB E) → List (PreBasis E)
  | [] => []
  | b :: bs => b.model :: PB.models bs
end

mutual
/-- The specification of a basis tree. -/
def PB.spec : PB E → Spec E
  | .leaf L => specLeaf L
  | .power s c sub => specPower s c sub.spec
  | .composite blocked subs => specComposite blocked (PB.specs subs)
  | .restricted contains sub => specRestricted contains sub.spec
  | .ext _ sp => sp
def PB.specs : List (PB E) → List (Spec E)
  | [] => []
  | b :: bs => b.spec :: PB.specs bs
end

namespace Node

mutual
/-- Forget offsets, sizes, tree indices and elements: what remains is the structure of the
tree as created by `makeNode`. -/
def blank : Node E → Node E
  | mk d c => mk { feSize := d.feSize, filters := d.filters } (blankList c)
def blankList : List (Node E) → List (Node E)
  | [] => []
  | n :: ns => blank n :: blankList ns
end

mutual
/-- Leaf nodes have no children (nodes.hh:219-222). -/
def Leafy : Node E → Prop
  | mk d c => (d.feSize ≠ none → c = []) ∧ LeafyList c
def LeafyList : List (Node E) → Prop
  | [] => True
  | n :: ns => Leafy n ∧ LeafyList ns
end

end Node

/-- The contract between a pre-basis implementation and its specification. -/
structure Refines (pb : PreBasis E) (sp : Spec E) : Prop where
  minPos : 1 ≤ pb.minLen
  minMax : pb.minLen ≤ pb.maxLen
  maxBuf : pb.maxLen ≤ pb.bufLen
  nodup : sp.dofs.Nodup
  locMem : ∀ e, ∀ d ∈ sp.loc e, d ∈ sp.dofs
  dim : pb.dimension = sp.dofs.length
  maxN : ∀ e, (sp.loc e).length ≤ pb.maxNodeSize
  lenMin : ∀ d ∈ sp.dofs, pb.minLen ≤ (sp.mi d).length
  lenMax : ∀ d ∈ sp.dofs, (sp.mi d).length ≤ pb.maxLen
  prefixFree : ∀ d ∈ sp.dofs, ∀ d' ∈ sp.dofs, sp.mi d <+: sp.mi d' → d = d'
  root : pb.size [] = some sp.root
  sizeLt : ∀ d ∈ sp.dofs, ∀ p x, p ++ [x] <+: sp.mi d → ∃ n, pb.size p = some n ∧ x < n
  sizeFull : ∀ d ∈ sp.dofs, pb.size (sp.mi d) = some 0
  leafy : pb.makeNode.Leafy
  nodeSize : ∀ e off m, m.blank = pb.makeNode.blank →
    (Node.bindTree e off m).size = (sp.loc e).length
  filterIrrel : ∀ cap f n buf pos, pb.indices cap (addFilter f n) buf pos = pb.indices cap n buf pos
  fill : ∀ cap, pb.bufLen ≤ cap → ∀ e off m, m.blank = pb.makeNode.blank →
    ∀ pre mid post, mid.length = (sp.loc e).length →
    pb.indices cap (Node.bindTree e off m) (pre ++ mid ++ post) pre.length
      = some (pre ++ (sp.loc e).map sp.mi ++ post, pre.length + (sp.loc e).length)

/-- All digits allowed by `size(prefix)` occur. -/
structure Complete (pb : PreBasis E) (sp : Spec E) : Prop where
  nonempty : sp.dofs ≠ []
  digits : ∀ d ∈ sp.dofs, ∀ p, p <+: sp.mi d → ∀ n, pb.size p = some n → ∀ x, x < n →
    ∃ d' ∈ sp.dofs, p ++ [x] <+: sp.mi d'

mutual
/-- Well-formed basis trees: leaf indices are below the leaf dimension and the local size is
below the reported maximum; power bases have at least one child, composite bases have at
least one child (required by the C++ templates, `std::max({})` does not compile). -/
def PB.WF : PB E → Prop
  | .leaf L => (∀ e, ∀ i ∈ L.loc e, i < L.dim) ∧ ∀ e, (L.loc e).length ≤ L.maxN
  | .power _ c sub => 0 < c ∧ sub.WF
  | .composite _ subs => subs ≠ [] ∧ PB.WFs subs
  | .restricted _ sub => sub.WF
  | .ext pb sp => Refines pb sp
def PB.WFs : List (PB E) → Prop
  | [] => True
  | b :: bs => b.WF ∧ PB.WFs bs
end

mutual
/-- All leaf bases are non-empty. -/
def PB.Pos : PB E → Prop
  | .leaf L => 0 < L.dim
  | .power _ _ sub => sub.Pos
  | .composite _ subs => PB.Poss subs
  | .restricted _ sub => sub.Pos
  | .ext pb sp => Complete pb sp
def PB.Poss : List (PB E) → Prop
  | [] => True
  | b :: bs => b.Pos ∧ PB.Poss bs
end

mutual
/-- Every index of every leaf basis is used on some element satisfying `P` (and lying in the
subdomains of the restricted bases on the way). -/
def PB.Covered (P : E → Prop) : PB E → Prop
  | .leaf L => ∀ i < L.dim, ∃ e, P e ∧ i ∈ L.loc e
  | .power _ _ sub => sub.Covered P
  | .composite _ subs => PB.Covereds P subs
  | .restricted f sub => sub.Covered (fun e => P e ∧ f e = true)
  | .ext _ sp => ∀ d ∈ sp.dofs, ∃ e, P e ∧ d ∈ sp.loc e
def PB.Covereds (P : E → Prop) : List (PB E) → Prop
  | [] => True
  | b :: bs => b.Covered P ∧ PB.Covereds P bs
end

end Verif.IndexTree
