import Verif.IndexTree.Node

/-!
# Pre-bases: sizes and in-place index assembly

Model of `LeafPreBasisMixin`, `LeafPreBasisMapperMixin::indices`,
`DynamicPowerPreBasis`/`PowerPreBasis`, `CompositePreBasis`, `RestrictedPreBasis`.

`none` is undefined behaviour: failed assertion, reading digit 0 of an empty index,
writing past the end of the index buffer, growing an index beyond the fixed capacity of
its type, division by zero, accessing child 0 of a node without children.
-/

namespace Verif.IndexTree

/-- Index merging strategies, basistags.hh:43-184. -/
inductive IMS where
  | flatLex | flatInt | blockedLex | blockedInt
  deriving DecidableEq, Repr

/-- `isBlocked` in dynamicpowerbasis.hh:51 and compositebasis.hh:58. -/
def IMS.isBlocked : IMS → Nat
  | .flatLex => 0
  | .flatInt => 0
  | .blockedLex => 1
  | .blockedInt => 1

/-- Multi-indices (`ReservedVector` or `OverflowArray`). -/
abbrev MI := List Nat

/-- The index buffer of the local view, `indices_` in defaultlocalview.hh:97-99. -/
abbrev Buf := List MI

/-- The part of the pre-basis interface used for indices. -/
structure PreBasis (E : Type) where
  /-- `minMultiIndexSize` -/
  minLen : Nat
  /-- `maxMultiIndexSize` -/
  maxLen : Nat
  /-- `multiIndexBufferSize` -/
  bufLen : Nat
  /-- `dimension()` -/
  dimension : Nat
  /-- `maxNodeSize()` -/
  maxNodeSize : Nat
  /-- `size(prefix)`; `size()` is `size []` -/
  size : MI → Option Nat
  /-- `makeNode()` -/
  makeNode : Node E
  /-- `indices(node, it)`: capacity of the index type, bound node, buffer, position of the
  iterator. Returns the buffer and the position of the returned iterator. -/
  indices : Nat → Node E → Buf → Nat → Option (Buf × Nat)

/-! ## Elementary operations on buffers and indices -/

/-- `for (std::size_t i = 0; i<n; ++i) body(i)` where the body may hit undefined behaviour. -/
def forLoop {S : Type} (n : Nat) (body : Nat → S → Option S) (s : S) : Option S :=
  match n with
  | 0 => some s
  | n+1 => (forLoop n body s).bind (body n)

/-- `*it = v` for the iterator at position `pos`; past the end: undefined. -/
def store (buf : Buf) (pos : Nat) (v : MI) : Option Buf :=
  if pos < buf.length then some (buf.set pos v) else none

/-- Read-modify-write of the entry at position `pos`. -/
def update (buf : Buf) (pos : Nat) (f : MI → Option MI) : Option Buf :=
  (buf[pos]?).bind fun m => (f m).bind fun m' => store buf pos m'

/-- `m[i] = v`; out of range: undefined. -/
def setDigit (m : MI) (i v : Nat) : Option MI :=
  if i < m.length then some (m.set i v) else none

/-- `m[0] = f(m[0])`. -/
def updFirst (f : Nat → Nat) (m : MI) : Option MI :=
  (m[0]?).bind fun x => setDigit m 0 (f x)

/-- `m.push_back(v)` into an index type with capacity `cap`. -/
def pushBack (cap : Nat) (v : Nat) (m : MI) : Option MI :=
  if m.length < cap then some (m ++ [v]) else none

/-- `m.back() = v`. -/
def setBack (v : Nat) (m : MI) : Option MI :=
  if m.length = 0 then none else setDigit m (m.length - 1) v

/-- `m.resize(n)`: grown digits are arbitrary (modelled as 0); beyond capacity: undefined. -/
def resize (cap n : Nat) (m : MI) : Option MI :=
  if n ≤ cap then some (m.take n ++ List.replicate (n - m.length) 0) else none

/-- One step of the backward shifting loop `for(i=M.size()-1; i>0; --i) M[i] = M[i-1]`,
with the loop counter running as `i = n, n-1, ..., 1`. -/
def shiftUp : Nat → MI → Option MI
  | 0, m => some m
  | i+1, m => (m[i]?).bind fun x => (setDigit m (i+1) x).bind (shiftUp i)

/-- `multiIndexPushFront`, compositebasis.hh:314-321 and dynamicpowerbasis.hh:314-321. -/
def multiIndexPushFront (cap M0 : Nat) (m : MI) : Option MI :=
  (resize cap (m.length + 1) m).bind fun m1 =>
    (shiftUp (m1.length - 1) m1).bind fun m2 => setDigit m2 0 M0

/-- `multiIndexPopFront`, compositebasis.hh:176-182 and dynamicpowerbasis.hh:176-182:
`for(i=0; i<M.size()-1; ++i) M[i] = M[i+1]; M.resize(M.size()-1)`.
For an empty index `M.size()-1` wraps around: undefined. -/
def multiIndexPopFront (m : MI) : Option MI :=
  if m.length = 0 then none else
  (forLoop (m.length - 1) (fun i m => (m[i+1]?).bind fun x => setDigit m i x) m).bind
    fun m1 => some (m1.take (m1.length - 1))

/-! ## Leaf bases -/

/-- A leaf basis with flat indices: global dimension, reported maximal local size and the
global indices of the local basis functions on each element in local order
(`subIndexRange` in leafprebasismappermixin.hh:30-39, or an `indices` override in the leaf
bases).  How particular leaf bases compute these is modelled elsewhere. -/
structure Leaf (E : Type) where
  dim : Nat
  maxN : Nat
  loc : E → List Nat

/-- Loop writing `*it = {{globalIndex}}; ++it`, leafprebasismappermixin.hh:120-129. -/
def leafFill (cap : Nat) : List Nat → Buf → Nat → Option (Buf × Nat)
  | [], buf, pos => some (buf, pos)
  | g :: gs, buf, pos =>
    if 1 ≤ cap then
      (store buf pos [g]).bind fun buf' => leafFill cap gs buf' (pos+1)
    else none

/-- `LeafPreBasisMixin` (leafprebasismixin.hh:41-63) with `makeNode`/`indices` of
`LeafPreBasisMapperMixin` (leafprebasismappermixin.hh:114-129). Accessing the element of
a leaf node that was never bound is undefined. -/
def leafPB {E : Type} (L : Leaf E) : PreBasis E where
  minLen := 1
  maxLen := 1
  bufLen := 1
  dimension := L.dim
  maxNodeSize := L.maxN
  size := fun p => if p.length = 0 then some L.dim else if p.length = 1 then some 0 else none
  makeNode := .mk { feSize := some fun e => (L.loc e).length } []
  indices := fun cap node buf pos =>
    node.data.element.bind fun e => leafFill cap (L.loc e) buf pos

/-! ## Power bases -/

/-- `sizeImpl`, dynamicpowerbasis.hh:138-219 (also used by `PowerPreBasis::size`,
powerbasis.hh:98-108). -/
def powerSize (s : IMS) (c : Nat) (sub : MI → Option Nat) (p : MI) : Option Nat :=
  match s with
  | .flatInt =>
    if p.length = 0 then (sub []).bind fun n => some (c * n)
    else if c = 0 then none
    else (updFirst (· / c) p).bind sub
  | .flatLex =>
    if p.length = 0 then (sub []).bind fun n => some (c * n)
    else (sub []).bind fun n =>
      if n = 0 then none else (updFirst (· % n) p).bind sub
  | .blockedLex =>
    if p.length = 0 then some c
    else (multiIndexPopFront p).bind sub
  | .blockedInt =>
    if p.length = 0 then sub []
    else
      -- tail = prefix.back(); prefix.pop_back(); restored by push_back(tail)
      (sub (p.take (p.length - 1))).bind fun n =>
        if n = 0 then some 0
        else (sub p).bind fun m => if m = 0 then some c else some m

/-- First loop of the four `indicesImpl` variants over the indices of child 0
(dynamicpowerbasis.hh:272-273, none for FlatLexicographic, 331-332, 357-358). -/
def powerFirst (s : IMS) (cap c : Nat) : MI → Option MI :=
  match s with
  | .flatInt => updFirst (· * c)
  | .flatLex => some
  | .blockedLex => multiIndexPushFront cap 0
  | .blockedInt => pushBack cap 0

/-- Body of the copy loops of the four `indicesImpl` variants: the index of child `child`
made from the index of child 0 (dynamicpowerbasis.hh:282-284, 306-308, 340-342, 364-366). -/
def powerCopy (s : IMS) (child rootSize : Nat) (m : MI) : Option MI :=
  match s with
  | .flatInt => updFirst (· + child) m
  | .flatLex => updFirst (· + child * rootSize) m
  | .blockedLex => updFirst (fun _ => child) m
  | .blockedInt => setBack child m

/-- The double loop `for child=1..c-1, for i<subTreeSize: *next = multiIndices[i];
modify *next; ++next`. The copied entry is modified in place after it was stored. -/
def powerCopyLoop (s : IMS) (c rootSize n start : Nat) (st : Buf × Nat) : Option (Buf × Nat) :=
  forLoop (c - 1) (fun k st =>
    forLoop n (fun i (st : Buf × Nat) =>
      (st.1[start + i]?).bind fun m =>
      (store st.1 st.2 m).bind fun buf1 =>
      (update buf1 st.2 (powerCopy s (k+1) rootSize)).bind fun buf2 =>
        some (buf2, st.2 + 1)) st) st

/-- `indicesImpl`, dynamicpowerbasis.hh:263-371; `node.child(_0)` must exist. -/
def powerIndices {E : Type} (s : IMS) (c : Nat) (sub : PreBasis E)
    (cap : Nat) (node : Node E) (buf : Buf) (pos : Nat) : Option (Buf × Nat) :=
  (node.children[0]?).bind fun child0 =>
  (sub.size []).bind fun rootSize =>
  let n := child0.size
  (sub.indices cap child0 buf pos).bind fun st =>
  (forLoop n (fun i buf => update buf (pos + i) (powerFirst s cap c)) st.1).bind fun buf1 =>
  powerCopyLoop s c rootSize n pos (buf1, st.2)

/-- `DynamicPowerPreBasis` (dynamicpowerbasis.hh:70-371) and `PowerPreBasis`
(powerbasis.hh:51-123).  `makeNode` (110-116) sets `c` children made by the sub-basis. -/
def powerPB {E : Type} (s : IMS) (c : Nat) (sub : PreBasis E) : PreBasis E where
  minLen := sub.minLen + s.isBlocked
  maxLen := sub.maxLen + s.isBlocked
  bufLen := sub.bufLen + s.isBlocked
  dimension := sub.dimension * c
  maxNodeSize := sub.maxNodeSize * c
  size := powerSize s c sub.size
  makeNode := .mk {} (List.replicate c sub.makeNode)
  indices := powerIndices s c sub

/-! ## Composite bases -/

/-- The accumulation `result += subPreBasis(i).size()` in compositebasis.hh:203-206. -/
def sumSizes {E : Type} : List (PreBasis E) → Option Nat
  | [] => some 0
  | b :: bs => (b.size []).bind fun n => (sumSizes bs).bind fun m => some (n + m)

/-- `staticFindInRange` loop in compositebasis.hh:208-217 (common/staticforloop.hh:22-63);
if no child is found the result stays 0. -/
def flatFind {E : Type} : List (PreBasis E) → MI → Option Nat
  | [], _ => some 0
  | b :: bs, p =>
    (b.size []).bind fun n =>
    (p[0]?).bind fun x =>
      if x < n then b.size p
      else (setDigit p 0 (x - n)).bind (flatFind bs)

/-- `CompositePreBasis::size(prefix)`, compositebasis.hh:184-220.
For other strategies there is no overload (184-220, 293-338) and nothing is compiled. -/
def compositeSize {E : Type} (blocked : Bool) (subs : List (PreBasis E)) (p : MI) : Option Nat :=
  if blocked then
    if p.length = 0 then some subs.length
    else
      (p[0]?).bind fun front =>
      (multiIndexPopFront p).bind fun p' =>
        match subs[front]? with
        | some b => b.size p'
        | none => some 0
  else
    if p.length = 0 then sumSizes subs
    else flatFind subs p

/-- Loop over the children in `indices`, compositebasis.hh:293-312 (flat lexicographic,
state: `firstComponentOffset`) and 323-338 (blocked lexicographic, state: child number). -/
def compositeFill {E : Type} (blocked : Bool) (cap : Nat) :
    List (PreBasis E) → List (Node E) → Nat → Buf → Nat → Option (Buf × Nat)
  | [], _, _, buf, pos => some (buf, pos)
  | _ :: _, [], _, _, _ => none
  | b :: bs, nd :: nds, k, buf, pos =>
    let n := nd.size
    (b.indices cap nd buf pos).bind fun st =>
    (forLoop n (fun i buf => update buf (pos + i)
        (if blocked then multiIndexPushFront cap k else updFirst (· + k))) st.1).bind fun buf1 =>
    (if blocked then some (k + 1) else (b.size []).bind fun r => some (k + r)).bind fun k' =>
    compositeFill blocked cap bs nds k' buf1 (pos + n)

/-- `std::max({...})` over the children, compositebasis.hh:87,89. -/
def listMax : List Nat → Nat
  | [] => 0
  | x :: xs => max x (listMax xs)

/-- `std::min({...})` over the (non-empty list of) children, compositebasis.hh:88. -/
def listMin : List Nat → Nat
  | [] => 0
  | [x] => x
  | x :: xs => min x (listMin xs)

/-- `CompositePreBasis`, compositebasis.hh:87-338. `makeNode` (152-159). -/
def compositePB {E : Type} (blocked : Bool) (subs : List (PreBasis E)) : PreBasis E where
  minLen := listMin (subs.map (·.minLen)) + blocked.toNat
  maxLen := listMax (subs.map (·.maxLen)) + blocked.toNat
  bufLen := listMax (subs.map (·.bufLen)) + blocked.toNat
  dimension := (subs.map (·.dimension)).sum
  maxNodeSize := (subs.map (·.maxNodeSize)).sum
  size := compositeSize blocked subs
  makeNode := .mk {} (subs.map (·.makeNode))
  indices := fun cap node buf pos => compositeFill blocked cap subs node.children 0 buf pos

/-! ## Restricted bases -/

/-- `RestrictedPreBasis::makeNode`, restrictedbasis.hh:142-145 with the node's `contains`
test 74-85: the node of the sub-domain basis with one more test in front. -/
def addFilter {E : Type} (f : E → Bool) : Node E → Node E
  | .mk d c => .mk { d with filters := f :: d.filters } c

/-- `RestrictedPreBasis`, restrictedbasis.hh:97-195. -/
def restrictedPB {E : Type} (contains : E → Bool) (sub : PreBasis E) : PreBasis E where
  minLen := sub.minLen
  maxLen := sub.maxLen
  bufLen := sub.bufLen
  dimension := sub.dimension
  maxNodeSize := sub.maxNodeSize
  size := sub.size
  makeNode := addFilter contains sub.makeNode
  indices := fun cap node buf pos =>
    if node.size = 0 then some (buf, pos) else sub.indices cap node buf pos

end Verif.IndexTree
