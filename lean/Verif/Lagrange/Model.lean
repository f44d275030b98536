import Mathlib.Order.Defs.LinearOrder

/-!
# Face orientations and face DOF permutations of Lagrange bases

Model of `FaceOrientations` and `LagrangeFaceDOFPermutation` in `lagrangebasis.hh`.
`none` is undefined behaviour (access out of range).
-/

namespace Verif.Lagrange

/-- Reference elements of dune-geometry as far as they are used: vertices of the edges and of the
2d facets (3d elements only) in the order of dune-geometry. A facet with 3 vertices is a triangle, one
with 4 a quadrilateral (vertices 0=(0,0), 1=(1,0), 2=(0,1), 3=(1,1)). -/
structure RefElem where
  dim : Nat
  vertices : Nat
  edges : List (Nat × Nat)
  facets : List (List Nat)

def triangle : RefElem := ⟨2, 3, [(0,1),(0,2),(1,2)], []⟩
def quadrilateral : RefElem := ⟨2, 4, [(0,2),(1,3),(0,1),(2,3)], []⟩
def tetrahedron : RefElem := ⟨3, 4, [(0,1),(0,2),(1,2),(0,3),(1,3),(2,3)], [[0,1,2],[0,1,3],[0,2,3],[1,2,3]]⟩
def pyramid : RefElem := ⟨3, 5, [(0,2),(1,3),(0,1),(2,3),(0,4),(1,4),(2,4),(3,4)],
  [[0,1,2,3],[0,2,4],[1,3,4],[0,1,4],[2,3,4]]⟩
def prism : RefElem := ⟨3, 6, [(0,3),(1,4),(2,5),(0,1),(0,2),(1,2),(3,4),(3,5),(4,5)],
  [[0,1,3,4],[0,2,3,5],[1,2,4,5],[0,1,2],[3,4,5]]⟩
def hexahedron : RefElem := ⟨3, 8, [(0,4),(1,5),(2,6),(3,7),(0,2),(1,3),(0,1),(2,3),(4,6),(5,7),(4,5),(6,7)],
  [[0,2,4,6],[1,3,5,7],[0,1,4,5],[2,3,6,7],[0,1,2,3],[4,5,6,7]]⟩

def refElems : List RefElem := [triangle, quadrilateral, tetrahedron, pyramid, prism, hexahedron]

/-- Edges of the triangle and of the quadrilateral in the numbering of dune-geometry. -/
def localEdges (nv : Nat) : List (Nat × Nat) := if nv = 3 then triangle.edges else quadrilateral.edges

/-- `re.subEntity(facet, 1, k, 2)`: number in the element of edge `k` of a facet. -/
def facetEdge (re : RefElem) (facet k : Nat) : Option Nat :=
  (re.facets[facet]?).bind fun fv => ((localEdges fv.length)[k]?).bind fun ab =>
    (fv[ab.1]?).bind fun a => (fv[ab.2]?).bind fun b => re.edges.findIdx? fun e => e == (a, b) || e == (b, a)

/-- The 36 bits of `data_`, lagrangebasis.hh:210-214. -/
abbrev Bits := Nat → Bool

/-- `data_[i] = b`. -/
def setBit (d : Bits) (i : Nat) (b : Bool) : Bits := fun j => if j = i then b else d j

/-- `data_ |= (Data(x) << off)` for 36 bits. -/
def orShift (d : Bits) (x off : Nat) : Bits := fun j => d j || (decide (off ≤ j ∧ j < 36) && x.testBit (j - off))

/-- `facetBitOffset`, lagrangebasis.hh:219-222. -/
def facetBitOffset (subEntity : Nat) : Nat := 12 + 4 * subEntity

/-- `getBitBlock<blockSize>(bits, i)`, lagrangebasis.hh:224-229. -/
def getBitBlock (blockSize bits i : Nat) : Nat := (bits >>> (blockSize * i)) &&& ((1 <<< blockSize) - 1)

/-- Lookup of the triangle orientation, lagrangebasis.hh:264-268. -/
def triOrientation (e0 e1 e2 : Bool) : Nat :=
  getBitBlock 4 0b01010001001101000010001101100000 (e0.toNat ||| e1.toNat <<< 1 ||| e2.toNat <<< 2)

/-- Orientation of a quadrilateral from the four edge bits and the comparisons of vertex ids
`lt a b = (vertexIndices[a] < vertexIndices[b])`, lagrangebasis.hh:311-338. -/
def quadOrientation (e0 e1 e2 e3 : Bool) (lt : Nat → Nat → Bool) : Nat :=
  let edgeOrientations := e0.toNat ||| e1.toNat <<< 1 ||| e2.toNat <<< 2 ||| e3.toNat <<< 3
  let i_min :=
    if edgeOrientations = 5 then (if lt 1 2 then 1 else 2)
    else if edgeOrientations = 10 then (if lt 0 3 then 0 else 3)
    else getBitBlock 2 0b11110101110000001000000110001000 edgeOrientations
  if i_min = 0 then 0b1000 ||| (lt 2 1).toNat <<< 2
  else if i_min = 1 then 0b1011 ||| (lt 0 3).toNat <<< 2
  else if i_min = 2 then 0b1001 ||| (lt 3 0).toNat <<< 2
  else if i_min = 3 then 0b1010 ||| (lt 1 2).toNat <<< 2
  else 0

variable {α : Type} [LinearOrder α]

/-- `computeEdgeOrientation` for all edges, lagrangebasis.hh:240-243, 383-387. -/
def edgeLoop (ids : Nat → α) : Nat → List (Nat × Nat) → Bits → Bits
  | _, [], d => d
  | i, e :: es, d => edgeLoop ids (i+1) es (setBit d i (decide (ids e.1 > ids e.2)))

/-- `computeTriangleOrientation`/`computeQuadrilateralOrientation`, lagrangebasis.hh:257-271, 284-341. -/
def facetStep (re : RefElem) (ids : Nat → α) (facet : Nat) (fv : List Nat) (d : Bits) : Option Bits :=
  match fv with
  | [_, _, _] =>
    (facetEdge re facet 0).bind fun e0 => (facetEdge re facet 1).bind fun e1 =>
    (facetEdge re facet 2).bind fun e2 =>
      some (orShift d (triOrientation (d e0) (d e1) (d e2)) (facetBitOffset facet))
  | [v0, v1, v2, v3] =>
    (facetEdge re facet 0).bind fun e0 => (facetEdge re facet 1).bind fun e1 =>
    (facetEdge re facet 2).bind fun e2 => (facetEdge re facet 3).bind fun e3 =>
      let v : Nat → α := fun a => ids ([v0, v1, v2, v3].getD a 0)
      some (orShift d (quadOrientation (d e0) (d e1) (d e2) (d e3) fun a b => decide (v a < v b)) (facetBitOffset facet))
  | _ => none

/-- Loop over the 2d facets, lagrangebasis.hh:388-397. -/
def facetLoop (re : RefElem) (ids : Nat → α) : Nat → List (List Nat) → Bits → Option Bits
  | _, [], d => some d
  | i, fv :: fs, d => (facetStep re ids i fv d).bind fun d' => facetLoop re ids (i+1) fs d'

/-- Constructor of `FaceOrientations`, lagrangebasis.hh:361-398; `codims`: requested codimensions.
Nothing is computed without requested codimensions. -/
def faceOrientations (re : RefElem) (ids : Nat → α) (codims : List Nat) : Option Bits :=
  let d0 : Bits := fun _ => false
  let d1 := if codims.any (fun c => decide (c ≤ re.dim - 1)) then edgeLoop ids 0 re.edges d0 else d0
  if re.dim = 3 ∧ codims.any (fun c => decide (c = re.dim - 2)) then facetLoop re ids 0 re.facets d1 else some d1

/-- `faceOrientationIndex`, lagrangebasis.hh:403-410. -/
def faceOrientationIndex (dim : Nat) (d : Bits) (subEntity codim : Nat) : Nat :=
  if codim = dim - 1 then (d subEntity).toNat
  else if codim = 1 then
    let o := facetBitOffset subEntity
    (d o).toNat + 2 * (d (o+1)).toNat + 4 * (d (o+2)).toNat + 8 * (d (o+3)).toNat
  else 0

/-! ## Tables -/

/-- Barycentric multi-index `b[0], b[1], b[2]`. -/
abbrev Bary := Nat × Nat × Nat

/-- `barycentricIndices`, lagrangebasis.hh:474-477. -/
def baryList (m : Nat) : List Bary :=
  (List.range m).flatMap fun i => (List.range (m - i)).map fun j => (m - 1 - (i + j), j, i)

/-- `barycentricToFlat`, lagrangebasis.hh:479. -/
def baryToFlat (m : Nat) (b : Bary) : Nat := b.2.1 + m * b.2.2 - b.2.2 * (b.2.2 - 1) / 2

def swap01 (b : Bary) : Bary := (b.2.1, b.1, b.2.2)
def swap02 (b : Bary) : Bary := (b.2.2, b.2.1, b.1)
def swap12 (b : Bary) : Bary := (b.1, b.2.2, b.2.1)

/-- Transformation of the barycentric index for orientation `j`, lagrangebasis.hh:487-505. -/
def triTransform (j : Nat) (b : Bary) : Bary :=
  let b := if j &&& 0b011 = 1 then swap02 (swap01 b) else b
  let b := if j &&& 0b011 = 2 then swap01 (swap02 b) else b
  if j &&& 0b100 ≠ 0 then swap12 b else b

/-- Row `j` of `globallyOrientedTriangleDOFTable(order)`, lagrangebasis.hh:457-510. -/
def triRow (order j : Nat) : List Nat :=
  if order < 3 then []
  else (List.range ((order - 2) * (order - 1) / 2)).map fun i =>
    baryToFlat (order - 2) (triTransform j ((baryList (order - 2)).getD i (0, 0, 0)))

/-- Transformation of the cartesian index for orientation `j`, lagrangebasis.hh:533-551. -/
def quadTransform (m j : Nat) (c : Nat × Nat) : Nat × Nat :=
  let c := if j &&& 0b011 = 1 then (m - 1 - c.2, c.1) else c
  let c := if j &&& 0b011 = 2 then (m - 1 - c.1, m - 1 - c.2) else c
  let c := if j &&& 0b011 = 3 then (c.2, m - 1 - c.1) else c
  if j &&& 0b100 ≠ 0 then (c.2, c.1) else c

/-- Row `j` of `globallyOrientedQuadrilateralDOFTable(order)`, lagrangebasis.hh:513-556. -/
def quadRow (order j : Nat) : List Nat :=
  if order < 2 then []
  else (List.range ((order - 1) * (order - 1))).map fun i =>
    let c := quadTransform (order - 1) j (i % (order - 1), i / (order - 1))
    c.1 + (order - 1) * c.2

/-- `facetFlipTable_(o, i)`, lagrangebasis.hh:585-605: entries are stored as `unsigned char`, entries
that are not assigned are 0. Out of range: undefined. -/
def facetFlip (order o i : Nat) : Option Nat :=
  if o < 16 ∧ i < (order - 1) * (order - 1) then
    some (((if o < 8 then triRow order o else quadRow order (o - 8)).getD i 0) % 256)
  else none

/-- Requested codimensions in `computeFaceOrientations`, lagrangebasis.hh:626-632. -/
def requestedCodims (re : RefElem) (order : Nat) : List Nat :=
  if re.dim = 1 ∨ order < 3 then []
  else if order = 3 ∧ re.dim = 3 ∧ re.vertices = 4 then [2]
  else [2, 1]

/-- `computeFaceOrientations`, lagrangebasis.hh:616-633. -/
def computeFaceOrientations (re : RefElem) (ids : Nat → α) (order : Nat) : Option Bits :=
  faceOrientations re ids (requestedCodims re order)

/-- `permuteFaceDOF`, lagrangebasis.hh:649-674. The subtraction `k-2-index` is on unsigned numbers. -/
def permuteFaceDOF (dim order subEntity codim index : Nat) (d : Bits) : Option Nat :=
  let flip := if index ≤ order - 2 then some (order - 2 - index) else none
  if dim = 2 then
    if order > 2 ∧ codim = 1 ∧ faceOrientationIndex dim d subEntity codim ≠ 0 then flip else some index
  else if dim = 3 then
    if order > 2 then
      if codim = 2 ∧ faceOrientationIndex dim d subEntity codim ≠ 0 then flip
      else if codim = 1 then facetFlip order (faceOrientationIndex dim d subEntity codim) index
      else some index
    else some index
  else some index

end Verif.Lagrange
