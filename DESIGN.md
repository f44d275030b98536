# Formal model of dune-functions in Lean 4

## Trusted base

* Lean 4.33.0's kernel.
* Axioms: only `propext`, `Classical.choice`, `Quot.sound` (the standard ones of Lean/Mathlib).
  No own axioms, no `sorry`, no `native_decide`, no `bv_decide`.
  `tools/claims.py` prints and checks the axioms of all theorems listed in MANIFEST.json.
* The transcription of the C++ code into the model definitions. Every model
  definition cites file and lines of the C++ source it transcribes.

## Conventions of the model

* `std::size_t` and other unsigned types are modelled by `Nat`: the arithmetic is
  assumed not to overflow 64 bits. Where a smaller storage type is used on purpose
  (`unsigned char`, `unsigned short`, 128-bit bitset) fitting is a theorem.
* Floating point numbers are modelled by an arbitrary field (or ordered field, or ℝ).
  Rounding is not modelled.
* Undefined behaviour (failed `assert`, reading index 0 of an empty multi-index,
  writing beyond a fixed capacity, division by zero, dereferencing an empty optional)
  is a distinct outcome: model functions return `Option`, `none` = undefined behaviour.
  Exceptions are a separate outcome where the code throws.
* The grid is abstract: an arbitrary type `E` of elements with the data the code
  reads from it (sub-entity indices, vertex ids, neighbours). What dune-grid,
  dune-geometry, dune-localfunctions and dune-typetree guarantee is stated as
  explicit hypotheses.

## Layout

`lean/Verif/<Topic>/Model.lean` – transcription of the code.
`lean/Verif/<Topic>/Lemmas.lean` – helper lemmas.
`lean/Verif/<Topic>/Props.lean` – the property theorems, stated against small
independent specifications, with `example`s showing that hypotheses can be met.

## Per property plan

| property | model | proof |
|---|---|---|
| C01 digits < size(prefix) | `IndexTree`: inductive type of pre-bases (leaf, power, composite, restricted) with `size`, in-place `indices` | mutual induction over the basis tree |
| C02 uniqueness | same | structural induction, arithmetic of merging strategies |
| C03 completeness | same | structural induction |
| C04 prefix free | same | structural induction |
| C05 dimension | same | counting by induction |
| C06 length/buffer | same, buffer entries with capacity, overflow = `none` | induction |
| C07 in-place assembly | same | refinement of in-place fill to a pure enumeration |
| C08 merging strategies | same | against separate spec of the documented strategies |
| C09 local view history | `LocalView` state machine on top of `IndexTree` | induction over operation sequences |
| C10 local index partition, tree index | `NodeTree` | induction over tree |
| C11 maxNodeSize | `IndexTree`, mapper mixin | induction |
| C12 container descriptors | `Descriptor` algebra | refinement against `size`; counterexamples where it fails |
| C13 subspace basis | `Subspace` | induction over paths |
| C14 restricted basis | `IndexTree`/`NodeTree` | induction |
| C15, C16 periodic | `Periodic` | loop invariant; negative witness for non transitive sets and for the descriptor |
| C17 Taylor–Hood | `TaylorHood` | equality with the tree model; negative witness for the hybrid variant |
| C18 ReservedDeque, C19 OverflowArray | state machines | refinement by induction over operations; negative witnesses for `push_back` after `push_front`, and for `push_front` |
| C20–C23 Lagrange face dofs | `LagrangeFace` | finite case analysis on orientations + arithmetic for all orders |
| C24 Lagrange counts | `LagrangeLayout` | binomial identities |
| C25 Lagrange DG | `LagrangeDG` | induction over elements |
| C26–C29 B-splines | `BSpline` | induction over order / digits |
| C30, C31 subdomains | `SubDomain` | invariant over insertion histories |
| C32 sub-entity dofs | `SubEntityDofs` | set characterisation |
| C33, C34 containers | `Container/Resize`, `Container/Factory` | induction over nested shape |
| C35 multi-index access, C36 flat vector view | `Container/Access`, `Container/FlatView` | induction |
| C37 polynomial, C38 monomial set | `Analytic` | Horner induction, `HasDerivAt` |
| C39, C40 interpolation | `Functions/Interpolate` | induction over elements / operations |
| C41 discrete function | `Functions/Discrete` | invariant of a state machine, linear algebra over lists |
| C63 interpolation of discrete functions | `Functions/RoundTrip` | composition of C39 and C41 |
| C42 small object | `Common/SmallObject` | ownership invariant over histories |
| C43 geometry in ancestor | `GridFunctions/Ancestor` | induction over father chain |
| C44–C46 reference distance, descent, closest face | `GridFunctions/Distance`, `Local`, `FaceNormal` | topology induction, inner product spaces |
| C47 orientations, C48 layouts | `Orientation`, `HDivLayout` | case analysis, witnesses |
| C49–C51 Hermite, Morley, Argyris | `FE/RefBasis`, `FE/Hermite`, `FE/Triangle`, `FE/Morley`, `FE/Argyris`, `FE/ArgyrisDof` | polynomial algebra in a field |
| C52 Piola | `FE/Piola` | matrix algebra |
| C53 update | `Update` | state equality, negative witnesses |
| C54 local function binding | `GridFunctions/Local` | induction over histories |
| C55 trigonometric | `Analytic` | `HasDerivAt` |
| C56 average mesh size | `Leaf/MeshSize` | induction, permutation invariance |
| C57, C58 further layouts | `Lagrange/DG` | enumeration over element types |
| C59 B-spline smoothness | `BSpline/Values` | polynomial identities |
| C60 numbering of Hermite, Morley, Argyris | `FE/Numbering` | finite tables of keys, injectivity of mappers |
| C61, C62 conformity of Argyris, Morley, Hermite | `FE/Conform`, `FE/HermiteConform`, `FE/Push`, `FE/Restrict` | push polynomials to global coordinates, restrict to the facet, unisolvence |
| C64 interpolation in Hermite, Morley, Argyris spaces | `FE/Interpolation`, `FE/HermiteInterp`, `FE/TriangleInterp` | consistency of shared writes, duality, polynomial reproduction |
| C65 functional descriptors | `FE/Descriptor` | finite tables against the functionals |
| C66 copies of local finite elements | `FE/Copies` | invariant over programs that create, bind, copy, assign and destroy objects |
| C67 normal continuity of Raviart–Thomas functions | `HDiv/NormalTrace`, `HDiv/NormalMixed` | C47 + C52 + determinants; instances for affine simplices and for grids of simplices, cubes and prisms with multilinear geometries |
| C68 tangential continuity of Nédélec functions | `HDiv/TangentialTrace`, `HDiv/TangentialMixed` | C47 + C52; matching of sums over edges; facets of simplices and cubes with multilinear geometries |
| C69 continuity of Lagrange functions | `Lagrange/Continuity`, `Lagrange/Elements`, `Lagrange/Prism`, `Lagrange/Shapes` | C20–C22 + matching of sums over nodes; traces of shape functions on faces |
| C70 type-erased functions | `Common/Erased` | C42 + refinement: every history answers like the wrapped functions |
| C71 functions from callables | `Common/Callables` | refinement over histories; members as values or references |
| C72 lifetime of local functions | `GridFunctions/Lifetime` | ownership of references; refinement; exact class for temporaries |
| C73 nodes of local views, Python trees | `Python/Nodes` | provenance of references; refinement of histories |
| C74 interpolation in Python | `Python/Interpolate` | overload resolution; reduction to C33, C35, C39, C63 |
| C75 transformed indices | `IndexTree/Transformed` | refinement: consistent transformation ⇒ `Refines`, so C01–C06 apply |
| C76 hierarchic node-to-range map | `Functions/NodeToRange` | induction over tree and range type; removes the hypotheses of C41 and C63 about shared entries |
| C77 assignments to wrapped vectors | `Container/Assign` | induction over container types; overload resolution of `operator=` |
| C78 B-splines: independence and polynomials | `BSpline/Basis` | induction over the order (derivatives, Marsden's identity); tensor products by nested sums |
| C79 Lagrange points | `Lagrange/Nodal` | Kronecker property of the shape functions; points agree between elements by C20/C22 |
| C80 boundary values | `Lagrange/Boundary` | C32 for the loop, numbering blocks (C20–C24), traces (C69), nodal values (C79) |
| C81 lifetimes of bases and views | `Functions/BasisLifetime` | invariant of a store of objects with pointers, preserved by every statement; references constant (C81_constant), safe programs by live references |
| C82 bases described in Python | `Python/BasisTree` | names are prefix codes (induction over trees); products: offsets of factors by induction over trees and C08 |
| C83 lifetimes of Python objects | `Python/KeepAlive` | transition system with reference counts; invariants; references from newer to older objects or to objects of dune-grid |
| C84 Lagrange functions are the continuous piecewise polynomials | `Lagrange/Reproduction` | dimension of polynomial spaces (C24) and nodal property (C79); continuity (C69) |
| C85 Discontinuous Lagrange functions are the piecewise polynomials | `Lagrange/Discontinuous` | unisolvence (C84) and index blocks of elements (C25) |
| C86 Bases on subdomains | `SubDomain/View` | contract of grid views from C30; renumbering of mapper indices |
| C87 Space of Raviart–Thomas functions | `HDiv/RTSpace` | continuation of C67; explicit coefficients of fields `p + q y` on one simplex, equal fluxes on both sides give equal coefficients |
| C88 Space of Nédélec functions | `HDiv/NedelecSpace`, `HDiv/Tetrahedra` | continuation of C68; coefficients are components along edges, three of them around a facet give the flux of the rotation (C87) |
| C89 Spaces of Hermite, Morley and Argyris functions | `FE/TriangleSpace`, `FE/HermiteSpace` | continuation of C61, C62 and C64; interpolation of a member of the space reproduces it, by duality and unisolvence |
| C90 Boundary degrees of freedom of Hermite, Morley, Argyris, Raviart–Thomas and Nédélec bases | `Dofs/BoundaryLeaf`, `FE/BoundaryDofs`, `HDiv/BoundaryDofs` | `forEachBoundaryDOF` of C32 applied to these bases; both directions for all pairs of coefficient vectors |
| C91 The space of B-spline functions | `BSpline/Space` | both directions: smoothness of all derivatives from the recursion, coefficients of polynomials from Marsden's identity, the same on all elements of a support because of smoothness |
| C92 Pre-basis factories are values (partial) | `Functions/Factories` | simulation: function objects with addresses against descriptions with contents; `bSpline` and `restrict` capture references, so the full statement is false |
| C93 Functions of hierarchical Lagrange bases | `Lagrange/Hierarchical` | traces of shape functions of entities; functionals dual to the shape functions; unisolvence of Lagrange points |
| C94 Functions of Rannacher–Turek and Crouzeix–Raviart bases | `Lagrange/Nonconforming` | unisolvence of the values in the facet centers on each of the four element types; one index per facet (C58); integrals of affine functions; negations: grids with two types of facets, means on cubes |
| C95 Functions of refined Lagrange bases | `Lagrange/Refined` | closed formula (`hat`) of the piecewise shape functions, independent of the part chosen; traces on faces, continuity as for C93; values in the nodes as coefficients |
| C96 Normal continuity of Brezzi–Douglas–Marini functions | `HDiv/BDM` | flux of the two functions of an edge; exact formula of the jump: difference of the signs of the determinants times the second coefficient; false for mirrored neighbours (`C96_false`) |
| C97 The space of Brezzi–Douglas–Marini functions | `HDiv/BDMSpace` | local span of the shape functions, coefficients from the normal components at the end points of the edges, gluing by continuity; uses C96 and C87 |
| C98 Boundary degrees of freedom of further bases | `Lagrange/BoundaryValues` | C32 composed with traces and dual functionals of C93, C94, C95 and with the edge coefficients of C97 |
| C99 Functions of composed bases are tuples of functions of their leaf bases | `Functions/Product`, `Lagrange/Product` | leaves of the tree as relation between paths and leaf bases, position of a leaf in the bound tree (C13), components of discrete functions (C63), one vector for all leaves by injectivity of the multi-indices (C02/C04), Lagrange spaces (C84) |
| C100 Boundary degrees of freedom of B-spline bases determine the boundary values | `BSpline/Boundary` | values of the functions in the ends of open knot vectors, tensor products restricted to a facet, independence of the remaining factors (C78), local keys (C29) and `forEachBoundaryDOF` (C32) |
| C101 Functions of bases with periodic or transformed indices | `Functions/Renumbered`, `Lagrange/Periodic` | evaluation of discrete functions only depends on the node tree and on the coefficients that are looked up; traces of Lagrange functions on faces that are matched vertex by vertex |
| C102 Raviart–Thomas space on mixed grids | `HDiv/RTMixed` | local fields are combinations of shape functions; the flux of each facet determines its coefficient, also on curved facets; opposite flags (C47) |
| C103 Nédélec space on mixed grids | `HDiv/NedelecMixed` | local fields are determined by their components along edges, which are constant on each edge; edges and signs match (C68) |
| C104 intersection iterator | `SubDomain/IntersectionIterator` | simulation of the positions of C31, remaining elements and intersections decrease lexicographically |
| C105 derivatives of discrete functions | `Functions/Derivative` | linear combinations of C41 differentiated term by term, inverse function |
| C106 global and local evaluation | `GridFunctions/Global` | induction over grid functions, with C54 and C84 |
| C107 piecewise constants | `Lagrange/Constant` | indices by C20–C25, values by injectivity of the numbering |
| C108 trees of Raviart–Thomas, Nédélec and Lagrange bases | `HDiv/Trees` | leaf spaces C84, C85, C102, C103, C107 put together by C99; flux balance and gradients of vertex values |
| C109 boundary DOFs on mixed grids | `HDiv/BoundaryMixed` | C32 for the visited indices, C102 for normal components, components of C68 at the corners of facets for tangential ones |
| C110 boundary DOFs of subspace bases | `Dofs/Components`, `HDiv/BoundaryTrees` | simulation of the two traversals: the calls of the subspace basis are a filter of those of the root basis; C80, C99, C108, C109 for boundary values |
| C111 boundary values by interpolation | `Functions/Dirichlet`, `HDiv/BoundaryInterpolation` | composition: C110 for the traversal, C33/C35/C77 for the bit vector, C39/C63 for the interpolation; last visit of each index |
| C112 part of the boundary | `Dofs/Selected`, `HDiv/BoundaryPart` | simulation of two traversals with different states; C111 for the selected part; visited degrees of freedom of Raviart–Thomas components are facets |
| C113 assembled systems | `Functions/Galerkin`, `HDiv/GalerkinTrees` | invariant of the loops: the form of the partial matrix is the sum over the elements seen; row operations against test vectors; C110 and C111 for boundary values |
| C114 element matrices | `Functions/LocalMatrix`, `HDiv/PoissonTrees` | invariant of the quadrature and index loops: the form of the partial element matrix; C63 and C105 for discrete functions; C113 for assembling |
| C115 Stokes | `Functions/Stokes`, `HDiv/StokesTrees` | C114's loop invariants with three nested loops; last write wins in the row loop; C113 for the system |
| C116 advection | `Functions/Advection` | loop invariants with two views: the form of the partial matrix; consistency is false of the code, with witness |
| C117 nested matrices | `Functions/BlockMatrix`, `HDiv/StokesNested` | simulation: the programs for nested and for sparse matrices run in parallel, with equal bilinear forms and equal values at corresponding entries |
| C118 systems in Python | `Python/Systems` | forms of matrices as invariants of the loops (C113); entries of the matrix after each loop |
| C119 divergence in Python | `Python/Systems` | unit matrices as shape functions |
| C120 Poisson in Python | `Python/LocalAssembler` | local assembler equals the C++ functions (C114); energies are sums of squares, so no zero on the diagonal (C118) |

The sections below are extended while the model grows: what exactly is modelled,
what is not, and which claims were found to be false of the code.

## What is modelled, topic by topic, and findings

### Index trees (C01–C12, C14), `lean/Verif/IndexTree`

Modelled: leaf, power (all four merging strategies), composite (both strategies), restricted pre-bases,
their `size(prefix)`, `dimension`, `maxNodeSize`, static index lengths, in-place `indices`, node trees,
local view (bind/unbind/bound), container descriptors. Every theorem holds for all trees (the model has an
extension constructor `ext` for any other pre-basis satisfying the same contract).
Not modelled: static typing of tree paths, `TransformedIndexBasis` with user code, the concrete grid.

Findings:
* Descriptors (C12): for `blockedInterleaved` powers over a basis with an empty leaf basis `size({i})` is the
  number of power children although no index starts with `i`; the descriptor reports 0 entries
  (`C12_empty_leaf_false`).
* Periodic identification (C15): pairs {0,2}, {1,2} do not identify 0 with 1 and 2 (`C15_false`); chains
  are identified only if the set of pairs is closed downwards (`C15_partial`).
* Periodic descriptor (C16): the descriptor of the raw basis is returned (`C16_false`).
* Taylor–Hood (C17): the hybrid variant appends the loop counter instead of the component number; the
  multi-indices are wrong for every element with velocity dofs (`C17_hybrid_false`).

### Containers (C18, C19), `lean/Verif/Common`

Findings:
* `ReservedDeque::push_back` ignores the position of the front element (`C18_false`); the initializer list
  constructor leaves it uninitialised (`C18_initializer_list_false`).
* `OverflowArray::push_front` shifts in the wrong direction and does not increase the size
  (`C19_push_front_false`, `C19_push_front_empty_false`).

### Mapper based leaf bases (C11), `lean/Verif/Leaf/Mapper.lean`

Modelled: `LeafPreBasisMapperMixin` (`subIndexRange`, `maxNodeSize`, `dimension`, `indices`). The grid, its index
set and `MultipleCodimMultipleGeomTypeMapper` are described by the contract `GridView.OK` and the documented
numbering of the mapper (types one after the other, a block of `layout(type)` numbers per entity).
The result `mapperLeaf_WF` discharges the hypothesis on leaves of the index tree theorems, `mapperLeaf_Covered` the one
of the completeness theorem.

### Lagrange bases (C20–C24), `lean/Verif/Lagrange`

Modelled: `FaceOrientations` including its 36 bit storage and the lookup constants, the DOF permutation tables with
8 bit entries, `permuteFaceDOF`, layout, constructor checks, `indices` with the short-cut for order 1,
`maxNodeSize`. `C20_C22_conformity` is the statement for the whole basis on an arbitrary mixed grid: two local DOFs get
the same index iff they are the same Lagrange node, where nodes are described by weights of global vertex ids.
Assumed from dune-geometry: vertex numbering of the reference elements (tables in `Model.lean`), from the grid:
a face seen from two elements has the same vertices and, for quadrilaterals, the same diagonals (`LGrid.OK`), from
dune-localfunctions: interior points of a face are enumerated lexicographically, each local key occurs once.
The bound 17 for 3d is sharp (`C23_sharp`). `update` does not repeat the check of the order, which is
harmless because the order cannot change.

### Further leaf bases (C25, C57, C58), `lean/Verif/Lagrange/DG.lean`

Modelled: `LagrangeDGPreBasis`, layouts of the refined and hierarchical bases, `RannacherTurekPreBasis`.
Finding (C58): `RannacherTurekPreBasis::indices` uses `indexSet.subIndex(element, facet, 1)`, which is numbered per geometry
type. In 3d grids with tetrahedra and hexahedra (accepted by the constructor) a triangle and a quadrilateral get the same
index, and some indices below `dimension()` are never used (`C58_false`).

### H(div) and H(curl) bases (C47, C48), `lean/Verif/HDiv/Orientation.lean`

Modelled: the loops computing orientation numbers with their 8 and 16 bit storage, tables of variants with the offsets for mixed
grids, table access, layouts. The local finite elements are represented by kind and orientation number; the sign
convention of dune-localfunctions (bit set = normal/tangent reversed) enters the statements of `C47_facet` and `C47_nedelec`.
Findings:
* BDM asks the index set for neighbours without checking that the grid view contains them, Raviart–Thomas does
  check (`C47_bdm_not_contained_false`).
* Raviart–Thomas on a grid type with fixed element type prism selects finite elements for simplices
  (`C47_fixed_prism_false`).
* BDM of order 2: the layout reserves 6 interior DOFs per element, the spaces have 3 (triangle) and 2 (quadrilateral)
  (`C48_bdm2_false`, `C48_bdm2_unused`). The tests of this order are disabled in the repository.

### B-splines (C26–C29, C59), `lean/Verif/BSpline`

Modelled (`Model.lean`): constructors (knot vectors), multi digit counter and lattice numbering, binding to knot spans with
the threshold `1e-8`, local and global sizes and indices, the table of the recursion with the threshold `1e-10`,
first and second derivatives with the `isnan` tests, tensor products, transformation to local coordinates, local keys.
Simplifications: coordinates and values are elements of an arbitrary ordered field (exact arithmetic), infinite values are
`none`; `unsigned int` counters do not overflow. `evaluateFunction`, `evaluateFunctionFull` contain the same loops and share
one definition, as do the code copies computing limits and first derivatives. Not modelled: `order()`, the
interpolation (throws).
Theorems: `Index.lean` (indices), `Values.lean` (one direction: values, derivatives, smoothness across knots), `Tensor.lean` (several
directions), `Keys.lean` (local keys).
Findings:
* Interior local keys in 2d are not consecutive: stride `sizes[j]-1` instead of `sizes[j]-2` (`C29_two_false`).
* Elements with one function in a direction (knot vectors that are not open) and 3d elements have equal keys for several
  functions (`C29_distinct_false`; the 3d case is documented).
* Repeated inner knots: the knot vector constructor computes `elements_` from the number of knots (`C26_repeated_false`).
* Different knots closer than `1e-10` destroy the partition of unity (`C27_threshold_false`).

### Subdomains (C30, C31), `lean/Verif/SubDomain`

Modelled: `SubDomainIndexSet` (all members and methods), `SubDomainGridView::ElementIterator`, `Impl::GlobalIntersectionIt`,
`SubDomainInterface`, `SubDomainSkeleton`. Host iterators are the lists of objects still to be visited, the end iterator is the
empty list, dereferencing it is undefined. Additional contract of the grid: `DimOK` (dimension of sub-entities, shown for
all grids with standard reference elements), `ElemOK`, `IsectOK`. Not modelled: index overflow at `2^64-1` entities, iterator
equality of two non-end intersection iterators, partition types.
Finding: `GlobalIntersectionIt` dereferences `ibegin(element)` without comparing it to `iend(element)`; for an element without
intersections this is undefined (`C31_no_intersections_false`).

### Sub-entity DOFs (C32), `lean/Verif/Dofs/SubEntity.lean`

Modelled: `SubEntityDOFs::bind`, `contains`, the three overloads of `forEachBoundaryDOF` (one model recording all data that is passed
to the callbacks), on the trees and views of the index tree model. The containment test of the reference element
(dune-geometry) is a parameter. `C32_global` combines this with the mapper based leaf bases.

### Coefficient containers (C33–C36), `lean/Verif/Container`

Modelled: `indexaccess.hh` (all resolvers, shifted multi-indices), `ISTLVectorBackend::resize` and `operator[]`, `ContainerFactory`,
`ISTLVectorFactory`, `FlatVectorBackend`/`FlatVectorView`. Container types are scalars, resizable vectors, arrays and multi-type
containers. Parameters with contract: `resize(n)` of vectors (`ResizeOK`: afterwards there are `n` entries of the entry type).
Assumed of dune-istl: entries of a new `BlockVector`/`FieldVector` are zero. The rule of class template argument deduction for
`BlockVector{x}` (a single `BlockVector` argument is copied) is part of the model. A failing `assert` counts as undefined.
Not modelled: capacity of `SizePrefix`, conversions of entries, `operator=`.
Findings:
- `resize` accepts any non-empty dynamic vector at a full multi-index; deeper empty vectors make `operator[]` undefined (`C33_access_false`).
- `resize` throws for an empty sub-basis and an (empty) dynamic vector (`C33_empty_basis_false`).
- `makeISTLVector` loses a level for arrays with a single `BlockVector`, e.g. for `power<1>(lagrange, blockedLexicographic)` (`C34_istl_false`).
- Out of range digits for multi-type containers silently address entry 0 (`C35_tuple_out_of_range_false`); documented in a code comment.
- `FieldVector<FieldVector<..>>` is not flattened by `flatVectorView` (`C36_nested_vector_false`).

### Analytic functions (C37, C38, C55), `lean/Verif/Analytic`

Modelled: `Polynomial` with all four coefficient containers (evaluation, derivative, comparison, number of executed additions),
`MonomialSet` and its first and second derivatives in 1d, 2d, 3d (loops with checked array access), `TrigonometricFunction` and its
derivative. Exact arithmetic (rings, real numbers); integers do not overflow; `Dune::binomial` is the binomial coefficient.
Finding: `Polynomial::operator()` documents that additions of `std::integral_constant<T,0>` are eliminated. The condition in `add`
(polynomial.hh:139-149) is inverted: static zeros are added, run time zeros are skipped (`C37_skip_false`, `C37_count`). Values are
not affected.

### Interpolation and discrete functions (C39–C41), `lean/Verif/Functions`

Modelled: `interpolate`, `interpolateLocal`, `CachedDerivativeLocalFunction` on the index tree and container models; the local
functions of `DiscreteGlobalBasisFunction` and of its derivative as a state machine with any number of objects (creation,
`derivative(lf)`, copy construction, copy assignment, `bind`, `unbind`, destruction, change of the coefficient vector), their evaluation
with non-scalar coefficients, vector valued shape functions, products with the inverse Jacobian and `nodeToRangeEntry`, and the global
evaluation. Parameters: values and Jacobians of shape functions, coefficients computed by `localInterpolation().interpolate`, the
function, geometries, the result of `HierarchicSearch`. Contract `Shapes.OK`: number and size of shape functions match the node,
range entries have the right number of scalars. Exact arithmetic in a commutative ring.
Not modelled: evaluation buffers (overwritten by each evaluation), `HierarchicNodeToRangeMap` (a parameter).
Findings:
- Leaves that share a range entry overwrite each other, they are not summed (`C41_shared_entry_false`).
- `lf1 = lf2` for local functions uses the implicit copy assignment of `DefaultLocalView`. It copies the element pointers stored in
  the leaf nodes (`LeafBasisNode`s of lfeprebasismixin.hh:155 and `GlobalValuedLocalFiniteElement`), which point into `lf2`. The copy constructor
  avoids this by binding again (defaultlocalview.hh:81-88). For Raviart–Thomas, Brezzi–Douglas–Marini and Nédélec bases, the value of `lf1`
  changes when `lf2` is bound to another element and is undefined after `lf2` is destroyed (`C41_assign_false`).

`RoundTrip.lean` (C63) composes both models: the function passed to `interpolate` is the local function of a discrete function on the
same basis. Hypotheses: `Dual` (the functionals of each finite element recover the coefficients of a linear combination of its shape
functions; the derivative is only available to elements that ask for it) and `Separate` (leaves have disjoint range entries).

### Grid functions (C43–C46, C54), `lean/Verif/GridFunctions`

Modelled: `GeometryInAncestor` with its pointers (`Ancestor.lean`); `ReferenceElementUtilities::distance` and `checkInside`
(`Distance.lean`); `closestFaceIndex` and the face normal (`FaceNormal.lean`); local functions of `AnalyticGridViewFunction`,
`ComposedGridFunction`, `FaceNormalGridFunction`, `CoarseFunctionOnFineGridView`, `FineFunctionOnCoarseGridView` and of any other function that
stores its element, nested arbitrarily, with their members (`Local.lean`). Contracts of the grid: levels of fathers and
children, `geometryInFather().local` and `global` are inverse, `jacobianInverseTransposed` is the transposed (pseudo) inverse. Exact
arithmetic. Not modelled: references to the global function and to entity sets (assumed to live longer), global evaluation.
Findings:
- The copy constructors of `GeometryInAncestor` set the coarse element to `&storedFineElement_` instead of `&storedCoarseElement_`
  (`C43_copy_false`). The binding to a temporary lacks a return statement (`C43_temporary_false`).
- `distance` computes the l1 distance exactly for those topologies in which no cone is taken over a base containing a product. For the
  square pyramid it may be larger than the distance (`C44_l1_iff`, `C44_pyramid_false`), which affects the choice of the closest child
  for points outside of all children only (`C45_inside`).
- `derivative` of the local function of `CoarseFunctionOnFineGridView` dereferences `element_` even if the local function is not bound.
  The same happens for a bound `FineFunctionOnCoarseGridView` of such a function (`C54_coarse_derivative_false`).

### Small object optimization (C42), `lean/Verif/Common/SmallObject.lean`

Modelled: all constructors, assignments, destructor and access of `PolymorphicSmallObject`, for any number of wrappers, with the pointer
`p_`, the buffers, dynamically allocated objects, exceptions thrown by copy constructors of the stored type. An object has a number, a value, a
size, an alignment and the position of its base class. Contract: `clone`, `move` do what typeerasure.hh does (copy and move construct in the given
place). The specification `spec` treats wrappers as values; every history it allows is executed without undefined behaviour, with
the same values, each object is destroyed at most once, and exactly the objects owned by wrappers are alive.
Not modelled: moves that throw (they are `noexcept` in the wrapper), failing allocation.
Excluded by `spec`, and false:
- A copy of an empty wrapper (default constructed, or a moved-from large object) calls `clone` on a null pointer (`C42_copy_empty_false`).
- If copying throws in a copy assignment, the target still points to the destroyed object, which is destroyed again (`C42_throw_false`).
- Self move assignment and `std::swap(x,x)` destroy the object first (`C42_self_move_false`).
- `bufferUsed` compares `p_` with the start of the buffer. A small type whose base class is not at its beginning is stored in the
  buffer, and `delete` is called for it (`C42_offset_false`).

### Average mesh size (C56), `lean/Verif/Leaf/MeshSize.lean`

Modelled: `MapperElementSubIndices::bind` and `computeAverageSubEntityMeshSize` with checked array access, on the grid and mapper of
`Leaf/Mapper`. A division by zero is an error of the model. Real numbers; `pow` is the real power function. Volumes are a parameter.

### Piola transforms (C52), `lean/Verif/FE/Piola.lean`

Modelled: all functions of both transformators with the loops over sparse rows, `GlobalValuedLocalBasis` with `partial`,
`GlobalValuedLocalInterpolation`. Grid dimension and world dimension agree. Contract of a geometry: `jacobianTransposed`,
`jacobianInverseTransposed` and `integrationElement` are the transposed Jacobian, the transposed inverse, the absolute value of the
determinant. Local shape functions and functionals are parameters. Exact arithmetic in an ordered field, real numbers for derivatives.
Pointers are part of the model of C41. Fluxes are stated by determinants, for faces of any dimension, in the outer direction and for both
orientations of the element.
Finding: Jacobians are only right for affine elements (`C52_nonaffine_false`); the code documents this. `partial` takes two orders and thus
cannot be used in other dimensions than two.

### Cubic Hermite elements (C49), `lean/Verif/FE/RefBasis.lean`, `lean/Verif/FE/Hermite.lean`

Modelled: the coefficient matrices literally, evaluation of values, Jacobians, Hessians and `partial` through the `MonomialSet` of C38,
`bind`, `transform` with its iterators, `interpolate` with its assignments, for all variants which exist. The numbers `1./3` and the like are
rational. The geometry is given by its Jacobian at the vertices, which may differ from vertex to vertex. The duality theorem takes the derivative
of the function in global coordinates and relates it to the local Jacobian by the chain rule. Not modelled: that the interpolation keeps a pointer
to the mesh sizes of the finite element object it belongs to.

### Morley element (C50), `lean/Verif/FE/Triangle.lean`, `lean/Verif/FE/Morley.lean`

Modelled: the coefficient matrix, `fillMatrix` with its assignments and the alternating sign on a matrix that keeps the entries of earlier calls,
`transform`, the four evaluation methods, `bind` and `interpolate`. Geometries are affine maps of the reference triangle with invertible
Jacobian; real numbers with exact square roots. The constant `sqrt2` of the coefficient matrix is a parameter: duality and reproduction of
quadratic polynomials hold for the exact value, `C50_constant` gives the exact error for the decimal number of the code.
The orientation bits are arbitrary; that they are computed consistently is C47. Contract: a default constructed `FieldMatrix` is zero.

### Argyris element (C51), `lean/Verif/FE/Argyris.lean`, `lean/Verif/FE/ArgyrisDof.lean`

Modelled: the coefficient matrix (21 rows), `bind` with the look-up of mesh sizes and orientations, all geometric quantities computed there,
the 21 assignments of `transform`, the four evaluation methods and `interpolate`. Geometries as for the Morley element; mesh sizes are
arbitrary nonzero numbers. The tables of values, gradients and Hessians of the reference shape functions at vertices and midpoints are
evaluated by the kernel over the rational numbers, `C51` holds for all triangles. `C51_constant` bounds the error caused by the decimal
number used for the square root of two. `C51_reproduction`: polynomials of degree five are reproduced.
Not modelled: the pointer from the interpolation to the mesh sizes of the element (see the notes on copies), the cast to single precision.

### Conformity of Hermite, Morley and Argyris bases (C60–C62), `lean/Verif/FE/Numbering.lean`, `Conform.lean`, `HermiteConform.lean`

Modelled: the tables of local keys, the layouts given to the mapper, the loop of `computeEdgeOrientations` with checked access, the mesh sizes of
C56, `bind` of the nodes, the coefficient look-up and the linear combination of `DiscreteGlobalBasisFunction` and its derivative, on top of the
finite elements of C49–C51. Contract of the grid: the sub-entity structure of C20, equal vertices have equal positions, the element maps are
affine and invertible. The statement is about values and derivatives which two neighbouring elements return at a common point, so the whole chain
from coefficient vector to value is covered. Points are those of the whole hyperplane of the facet. Derivatives in the Argyris space need
the exact square root of two; with the decimal constant of the code the normal derivative jumps by the error bounded in `C51_constant`.

### Interpolation in Hermite, Morley and Argyris spaces (C64), `lean/Verif/FE/Interpolation.lean`, `HermiteInterp.lean`, `TriangleInterp.lean`

Modelled: the loop of `interpolate` over the elements with its writes to the coefficient vector, for one leaf with flat indices and no bit vector
(bit vectors and trees are the subject of C39 and C63), on top of the bases of C60–C62. The Morley element keeps its matrix between
elements, so its coefficients are computed from the whole history. The values that two elements write to a common index are shown to be equal, so
the order of the traversal does not matter. There is no projection theorem for the Argyris space: its interpolation needs second derivatives, and the
derivative of a discrete function has no derivative in the code.

### Functional descriptors (C65), `lean/Verif/FE/Descriptor.lean`

Modelled: the constructors of `FunctionalDescriptor`, `isNormalDerivative`, the tables of the three interpolations; compared with the functionals of
C49–C51. Overload resolution for braced lists is part of the model of the constructors (`ofBraces`). Finding: in dimension one
`FunctionalDescriptor({1})` is the constructor for normal derivatives, because the conversion of `{1}` to `unsigned int` is a standard conversion and
that to `std::array` is not. So the derivative degrees of freedom are described as normal derivatives and `partialDerivativeOrder()` is zero
(`C65_hermite_false`). Not modelled: `isPartialDerivative`, which cannot be instantiated (it calls `partialDerivativeOrder(i)`, which does not exist).

### Copies of local finite elements (C66), `lean/Verif/FE/Copies.lean`

Objects live at addresses. A local basis has a pointer to its finite element; the interpolations of Hermite and Argyris have a pointer to the mesh sizes of theirs.
A program is any list of construct, bind, copy construct, copy assign and destroy; reading an object that does not exist is `none`. The specification
(`elementOf`) does not know about pointers: a copy is bound to the element of its original.

- Without copy assignment the shape functions are right for every object of the three C1/H2 families, and for every B-spline object that was bound after its construction.
- The interpolation is right for all Morley objects, and for Hermite and Argyris objects which were bound after their construction.
- False (`C66_copy_false`): the interpolation of a copy of a bound Hermite or Argyris element reads the mesh sizes of the original, which may be bound to another element
  or destroyed.
- False (`C66_assign_false`): the mixin has a copy constructor but the implicit assignment, which copies the pointer, so that the target evaluates the source.
- False (`C66_bspline_false`): the copy constructor of the B-spline element does not copy the knot spans.

Not modelled: the mutable buffers of the local basis, and moves (they do the same as copies: the mixin and the B-spline element declare only a copy constructor, the other members are arrays and pointers). The basis nodes own one element and bind it, so that the
other properties do not depend on copies of bound elements.

### Normal continuity (C67), `lean/Verif/HDiv/NormalTrace.lean`

`value` is the evaluation of a discrete function of a Raviart–Thomas basis of order 0: selection of the finite element by the orientation loop (`find`, C47), indices of the mapper
(`mapperLeaf` with `rtLayout 0`), contravariant transform (`globalValued .contra`, C52), linear combination. The element index that decides the orientation is
the index of the element mapper. `C67_raviartThomas` holds for all element types (also mixed) and all geometries with the contracts `Fluxes` (the shape function of a facet has a constant flux through
it and none through the others, reversed by the bit of the variant), `Neighbours` (intersections) and `Meet` (the Jacobians of the two elements agree on the facet up to a
change of the frame of determinant ±1, and the elements lie on different sides).
`C67_simplex` discharges `Fluxes` and `Meet` for affine triangles and tetrahedra with arbitrary numberings of the vertices; `rt0Cube_fluxes` discharges `Fluxes` for cubes. `C67_mixed` (`NormalMixed.lean`) is the statement for conforming grids of triangles and quadrilaterals, or of tetrahedra, hexahedra and prisms, with affine or multilinear geometries: `rt_fluxes` discharges `Fluxes`, with the flux 2 through triangles and 1 through other facets on which the finite elements of dune-localfunctions for tetrahedra and prisms agree, and `mixed_frames` derives the tangent vectors from the positions of the vertices alone (the Jacobian is the derivative of the interpolation of the corners, `position_add`). Quadrilateral faces may be curved; their local numbering on the two sides may differ by any of the eight symmetries. That the elements lie on different sides of the facet remains a hypothesis on the geometry. The fields of `rt0Prism` are transcribed from dune-localfunctions, which is not part of /repo; pyramids are not treated. Not treated: higher orders and BDM, whose matching
depends on the moments chosen in dune-localfunctions.

### Tangential continuity (C68), `lean/Verif/HDiv/TangentialTrace.lean`

`value` is the evaluation of a discrete function of the Nédélec basis: selection of the finite element (`nedelecFind`, C47) by the indices of the vertices, indices of the mapper (`nedelecLayout`), covariant
transform, linear combination. `C68_edge`: the component along an edge in the global direction is the coefficient. Contracts: `Tangents` (components of the shape functions along the edges,
proved for the shape functions of simplices and cubes), the geometry maps the reference edge to the edge. `C68_simplex`: tangential components on common faces of affine simplices, in terms of barycentric
weights at the common vertices. Contract: `Conforming` (an edge is determined by its two vertices). `C68_mixed` (`TangentialMixed.lean`): tangential components on common facets of triangles and quadrilaterals, or of tetrahedra and
hexahedra, with affine or multilinear geometries; faces of hexahedra may be curved, and the local numbering on the two sides may differ by any symmetry. The components are bilinear combinations of the directed
coefficients of the edges of the facet (`edgeValue`), in the same way as tangent vectors are combinations of the differences of the corners (`quadComp`), so that one change of the frame (`quad_turn`) serves both.
Additional contract: `Labels` (names of vertices used in the positions belong to one vertex).

### Continuity of Lagrange functions (C69), `lean/Verif/Lagrange/{Continuity,Elements,Prism,Shapes,PrismGrid}.lean`

`value` is the evaluation of a discrete function of the Lagrange basis: indices of the element (`lagrangeIndex`), values of the shape functions, linear combination.
`C69_matching`: the values on two elements agree if shape functions of common nodes agree and other ones vanish. `C69_face`: this is so in the points of a common face, for all element types, if the finite
elements satisfy `Traces`: in a point of a face, given by its weights at the vertices, the shape functions of the nodes of the face have the value determined by the weights of node and point
(`faceValue`: barycentric on edges and triangles, tensor products on quadrilaterals), other ones vanish. Contract of the grid: `Closed` (faces of common entities are common).
`C69_continuous` discharges `Traces` for the Lagrange shape functions with equidistant nodes on simplices and cubes of dimension 1 to 3 and prisms. Points of the two elements are the same if they have the
same weights at common vertices; for simplices `C69_simplex` says this with combinations of corners. The shape functions are those of dune-localfunctions, written down from its documentation; not
treated: pyramids (order 1 and 2), which have to satisfy `Traces`. Prisms are treated for every order; dune-localfunctions has them for orders 1 and 2, without nodes in the interior.
`Lagrange/PrismGrid` is a grid of a prism, a hexahedron and a tetrahedron in which common faces are numbered differently.

### Type-erased functions (C70), `lean/Verif/Common/Erased.lean`

Modelled: `TypeErasureBase` with its wrapper class over `PolymorphicSmallObject` (C42), and `DifferentiableFunction`, `LocalFunction`, `GridFunction` as interfaces with `operator()`, `bind`, `unbind`,
`bound`, `localContext`, `derivative` and the conversion of derivatives to the interface type. A wrapped function is any value with these operations, which may throw or change it.
The size of the wrapper class is computed from the size and alignment of the function (a pointer to the virtual table, then the function). The specification has variables with functions and no storage.
Findings: `bufferSize` of the three classes does not reach `TypeErasureBase`, which always uses 56 bytes (`C70_buffer_size_false`); empty wrappers (`C70_empty_false`).
Not modelled: exceptions from copy constructors (C42), conversions of argument and return types.

### Functions from callables (C71), `lean/Verif/Common/Callables.lean`

Modelled: template argument deduction of the factory, the members (values or references), the constructors for one and several callables, `operator()`, `derivative` with the
exception for the last one, copies. Finding: `makeDifferentiableFunctionFromCallables` deduces `F&` for an lvalue and stores a reference; the documentation does not say so, and functions made from local variables dangle
(`C71_reference_false`).

### Lifetime of local functions (C72), `lean/Verif/GridFunctions/Lifetime.lean`

Modelled: members and references of all grid functions of the module and of their local functions, `localFunction`, `entitySet`, `bind`, `operator()`, `derivative` on both levels; programs with variables that are created, copied, moved and
destroyed. A reference knows the variable it points into, or that it points into data shared with its holder; following it after the variable was destroyed or moved from is undefined.
What functions, ancestors and descendants are is a parameter (`World`); C43–C46 and C54 say more about these. Grid functions in the sense of type erasure are not part of this model.
`C72_temporary` decides which grid functions may be temporaries. Findings:
- The local function of a composition has a reference to the composition, only for its outer function; `localFunction(makeComposedGridFunction(...))` dangles (`C72_false`).
- Local functions of analytic, composed or other wrapped functions on other grid views have a reference to the entity set in the wrapped function. `localFunction(derivative(f))` dangles (`C72_derivative_false`).
- `derivative` of the local function of a fine function on a coarse grid view dereferences an empty optional if the wrapped function is a coarse function on a fine grid view and the element is not in its entity set
  (`C72_local_derivative_false`).

### Nodes of local views and Python trees (C73), `lean/Verif/Python/Nodes.lean`

Modelled: local views with their tree, their copy constructor (which binds again), their implicit copy assignment, `bind`, `unbind`; nodes with pointers to the element in a local view and, for Lagrange bases,
to a finite element in the cache of the node; the Python objects made by `tree()` and by child access. A reference (`Ref`) has a value and the view it points into; it is followed by looking at what the view is bound to now.
The specification has bound elements and snapshots only. Simplifications: one basis, whose sizes may depend on references (more general than the code); the caches of all nodes of one leaf basis have the same
content, and assignment does not move the entries of the cache of its target; `element()` of leaves only (inner nodes ask their first child); the Python garbage collector is the operation `destroy`. Findings:
- `DefaultLocalView` has a copy constructor but no copy assignment: after `v = w` the nodes of `v` point into `w` (`C73_assign_false`).
- In Python, child nodes are copies, which show the old element after the next `bind` (`C73_child_false`). `localView.tree()` does not keep the local view alive (`C73_tree_false`).
- `LocalViewWrapper::unbind` calls `obj_.release()`, which leaks a reference to the element (not part of the model).

### Interpolation in Python (C74), `lean/Verif/Python/Interpolate.lean`

Modelled: overload resolution of pybind11 for the three overloads of `interpolate` (contract: first without, then with conversion; `array_t<T>` accepts arrays of equivalent type without a copy),
the checks in `interpolate.hh`, the C++ `interpolate` with the ISTL backend on the one-dimensional array accessor (C33, C39), `HierarchicPythonVector` with `hybridMultiIndexAccess` (C35). Conversions by NumPy are a
parameter (`ensure`). Contract of dune-common: `PythonVector` refers to the memory of the array. Functions do not raise Python exceptions. Findings:
- For arrays of another type (for example `float32` or `int64`) and lists, `interpolate` fills a temporary copy and returns without exception, the argument is unchanged (`C74_convert_false`).
- For blocked bases `interpolate` throws (`C74_reported`), but `asFunction` uses `x[m[0]]` for all coefficients `m` with the same first digit (`C74_asFunction_false`), and does not check the length of `x`.

### Transformed indices (C75), `lean/Verif/IndexTree/Transformed.lean`

Modelled: `TransformedIndexPreBasis` (indices, sizes, dimension, lengths of multi-indices) and `GenericIndexingTransformation`; the callbacks of the user are
parameters, also their access to a buffer with limited capacity. `Consistent` is the contract of the callbacks: defined on all multi-indices of the wrapped basis,
injective, lengths within the bounds, `size(prefix)` describes the transformed multi-indices. It is stated without reference to the transformed basis. The remark in the
documentation that the maximal length "has to be large enough to also store the untransformed indices" is not needed, the buffer has the maximum of both.

Not modelled: the type of multi-indices (`StaticMultiIndex`, chosen if the minimal and maximal lengths agree).

`C75_merge_false`: callbacks that identify multi-indices compile and run, but `dimension()` stays the one of the wrapped basis; periodic bases use their own class (C15).

### Entries of ranges (C76), `lean/Verif/Functions/NodeToRange.lean`

Modelled: `HierarchicNodeToRangeMap` on types of ranges (`FieldVector`/`array` = `arr`, `TupleVector`/`tuple` = `tup`, numbers = `scalar`), and the order of the flat
entries. `Matches` relates trees and range types without the map. The results remove the hypothesis `Separate` from C63 and the condition about the leaves that follow from C41. For a range without `operator[]`
and trees with several leaves all leaves share the entry; this is documented for `interpolate`, and `C41_shared_entry_false` shows what it means for discrete functions.

### Assignments to wrapped vectors (C77), `lean/Verif/Container/Assign.lean`

Modelled: `recursiveAssign` and the assignment operators of `ISTLVectorBackend`, also the implicit copy assignment. The assignment operators of the container libraries (dune-istl, dune-common, `std`)
are parameters: which types are assignable (`std::is_assignable_v`), and their effect, with the contract `Lib.Numbers` for numbers. Not modelled: numbers in unassigned padding, proxies such as `std::vector<bool>`.

Finding (`C77_backend_false`): the template `operator=(const ISTLVectorBackend<T>&)` copies the entries of the other vector, but it is not a copy assignment operator. For two backends of the same
type the implicit one is selected, which only copies the pointer: after `a = b` the vector of `a` is unchanged, and `a` refers to the vector of `b`. With a backend of a `const` vector on the right hand side the entries are copied.

### B-splines as a basis (C78), `lean/Verif/BSpline/Basis.lean`

The specification `splineAt` composes the models of `elementSpans`, `indices` and `evaluateFunction` to a discrete function; nothing new of the code is modelled. Linear independence on a knot span is
proved by induction over the order, with the formula for derivatives (C28): equal derivatives force equal coefficients, up to a constant that the partition of unity (C27) fixes. It holds on all
knot spans, also those at the ends of knot vectors that are not open. Polynomials are reproduced by Marsden's identity with polynomials as coefficients; comparing coefficients gives the ones of monomials. Arithmetic
is exact. `C78_outer_false`: without `makeOpen` the outer elements have fewer functions, and constants are not reproduced there.

### Lagrange points and boundary values (C79, C80), `lean/Verif/Lagrange/{Nodal,Boundary}.lean`

The finite elements of dune-localfunctions are not in the repository: their shape functions (`lagrangeShape`) and points (`lagrangeNode`) are a specification, for simplices, cubes and prisms of order at least 1.
Proved about them: different local keys have different points, and each shape function is 1 in its own point and 0 in the others. With the conformity of the numbering (C20, C22) this gives the meaning of global
coefficients. `interpolate` (C79_interpolate) is the model of C64 with point evaluation as the functional; geometries map vertices to positions and are multilinear. Pyramids, and order 0, are not covered.

C80 adds nothing to the modelled code: it composes `forEachBoundaryDOF` (C32) with the Lagrange numbering. `BoundaryPoint` is stated with sub-entities and vertex weights, so points of elements without boundary
intersections count. The grid is closed under sub-entities (`Closed`, as for C69). `C80_boundary` is an equivalence: no degree of freedom is missing, and none is superfluous. `hasBoundaryIntersections()` of the grid may be
true without a boundary intersection, but not false with one.

### Lifetimes of bases, views and functions (C81), `lean/Verif/Functions/BasisLifetime.lean`

A program is a list of statements (`Cmd`) on a store of objects with pointers (`Mem`). Modelled are the members of `DefaultGlobalBasis`,
`SubspaceBasis`, `DefaultLocalView`, `SubspaceLocalView`, `ISTLVectorBackend`, `DiscreteGlobalBasisFunction` and its local function, and which
of them are pointers, references, shared pointers or values. Following a pointer to an object that was destroyed or moved from is the
error `dangling`. What bases compute is the parameter `Sys`; the only assumption is that `update` does not change what nodes have copied
(`Sys.OK`), which `C81_library` proves for every pre-basis of `Update.lean` (C53), including throwing updates.

- `C81_safe`, `C81_scopes`: no dangling pointers in programs that destroy and move only unreferenced objects. `C81_references` and
  `C81_constant` say what the references are, `C81_nested` that nested subspace bases are resolved.
- `C81_view`, `C81_asNew`, `C81_function`, `C81_localFunction`: old local views and local functions are as good as new ones after `bind`.
- `C81_owned`: functions that own basis and coefficients.
- False of the code: `makeDiscreteGlobalBasisFunction` moves a temporary vector into the function only if the vector can be accessed by
  multi-indices; otherwise it stores a pointer to the temporary inside of `istlVectorBackend(v)` (`C81_temporaryVector_false`). A local
  view of a temporary subspace basis can be bound, but `tree()` follows a dangling pointer (`C81_temporarySubspace_false`). Copies of
  bound local views bind again, so that they differ from the original after an update (`C81_copy_false`).

Not modelled: the grid, grid views and sub-domains, which must outlive everything; that `bind` reads coefficients of the sub-tree only
(the model reads those of the whole local view); derivatives of discrete functions (see C72 for local functions of wrapped and analytic functions).

### Bases described in Python (C82), `lean/Verif/Python/BasisTree.lean`

The classes of tree.py, `preBasisTypeName` (texts character by character) and the C++ types that such names denote. Types are mapped to
the basis trees of C01-C14; leaf bases are a parameter, `none` where the class does not compile or the constructor throws.

- `C82_typeName`, `C82_module`: a name denotes one type, and the type and the name determine the description. The hash of the name and
  names of grid views that differ are not modelled.
- `C82_composite`, `C82_power`: exactly which calls succeed and which basis results.
- `C82_product`, `C82_regroup`, `C82_exists`: products of factors in any grouping.
- `C82_rangeDim`: `nodeRangeDim` of dune/python/functions/globalbasis.hh.
- Not true: `Composite(..., layout="interleaved")` (`C82_interleaved_false`: accepted by Python, rejected by the C++ compiler because
  `CompositePreBasis` has no overloads for it), `DG` (`C82_dg_false`), methods independent of the grouping (`C82_asFunction_false`).
- Not examined: exponents that are not positive, numbers that do not fit into the C++ template parameters.

### Lifetimes of Python objects (C83), `lean/Verif/Python/KeepAlive.lean`

Python objects with the references that pybind11 `keep_alive` and data members create, and separately the pointers of their C++ parts.
A step is a statement, or the destruction of an object without references, in any order.

- `C83_safe`, `C83_variables`: the pointers followed when an object is used lead to objects that exist.
- `C83_free`: without `function.basis` and `unbind()`, nothing is left when there are no variables left.
- Not true: `GridViewFunction(f)` keeps neither `f` nor the basis alive (globalbasis.hh:243), `basis.gridView` and `basis.gridView = gv` do
  not keep the grid alive (globalbasis.hh:165-166), `localView.tree()` does not keep the view alive (globalbasis.hh:189). The getter
  `function.basis` has `keep_alive<0,1>` although the basis is an existing object that the function keeps alive: a reference cycle, so both
  are never destroyed (`C83_basis_false`). `unbind` calls `obj_.release()`, which drops the handle without decrementing the reference count
  (`C83_unbind_false`).
- Assumptions about dune-grid: a grid view object keeps its grid alive, an element object its grid view, and their C++ parts refer to the grid.
- Not modelled: local functions and other methods registered by `registerGridFunction` of dune-grid, Python's cycle collector (pybind11
  objects do not take part in it), references held by the interpreter during a call.

### The space of Lagrange functions (C84), `lean/Verif/Lagrange/Reproduction.lean`

Polynomials are those of Mathlib (`MvPolynomial`). `Meets` says that two points of elements are the same point of a common face, as in C69.

- `C84_space`: both inclusions. Polynomials of an element are determined by the values in the Lagrange points because the number of local
  keys (C24) is the dimension of the polynomial space and the shape functions are nodal (C79).
- `C84_nested`, `C84_projection`, `C84_roundTrip`, `C84_reproduce`: consequences. `C84_roundTrip` is C63 without the hypothesis that the
  functionals are dual to the shape functions.
- Not covered: pyramids, order 0, rounding.

### The space of discontinuous Lagrange functions (C85), `lean/Verif/Lagrange/Discontinuous.lean`

`LagrangeDGNode` is `LagrangeNode`, so the local finite elements are those of C84 and only the index blocks of C25 differ.

- `C85_value`, `C85_space`: coefficients are values in Lagrange points of the element; both inclusions and uniqueness of coefficients.
- `C85_interpolate`, `C85_local`: interpolation is a projection and local.
- `C85_continuous`: relation to `LagrangeBasis`.
- Not covered: pyramids, order 0, rounding.

### Bases on subdomains (C86), `lean/Verif/SubDomain/View.lean`

`subView` is the grid view of a subdomain in the sense of the contract used for all leaf bases. Elements and entities are subtypes of those of the
host.

- `C86_gridView`, `C86_lagrangeGrid`: the contracts (`StdGrid`, `LGrid.OK`, `Closed`) hold, so C20-C25, C60-C69, C79, C80, C84, C85 and others
  apply to subdomains.
- `C86_mapper`, `C86_lagrange`, `C86_dimension`, `C86_functions`: relation to the basis on the host grid view.
- `C86_restricted`: composition with C14 and the theorems on basis trees.
- `C86_insert`, `C86_insert_false`: a mapper keeps the first indices per type, but refers to the index set of the subdomain.
- Simplifications: `int` sizes of `SubDomainGridView::size` are unbounded; the lifetime of the subdomain (the view holds a pointer) is not
  modelled.

### Space of Raviart–Thomas functions (C87), `lean/Verif/HDiv/RTSpace.lean`

Model as for C67: grid, intersections, mapper, selection of the variant, contravariant transform, sum over shape functions. `rtValue` is `value` of C67 with the elements of
dune-localfunctions for triangles and tetrahedra (`rt0`); their scale `a` is any number different from 0. `RTField` and `NormalContinuous` are stated in global coordinates without the basis.
`C87_space` is an equivalence: a family of fields is a function of the basis if and only if it is `p + q y` on each element and the normal components agree in common points of common facets.
`C87_facet` compares two coefficient vectors in one point of a facet; `C87_unique` uses that every index belongs to a facet. `C87_divergence` is the divergence theorem for the function of an
element (fluxes are measured with determinants, so that a factor `n!` cancels). Not covered: cubes, prisms, pyramids, order 1, BDM.

### Space of Nédélec functions (C88), `lean/Verif/HDiv/NedelecSpace.lean`, `lean/Verif/HDiv/Tetrahedra.lean`

Model as for C68: vertex indices, mapper, selection of the variant, covariant transform, sum over shape functions. `NedelecField` and `TangentContinuous` are stated without the basis; points and
directions of common faces are given by weights at common vertices. `C88_space` is an equivalence; the coefficient of an edge is the component of the field along the edge, from the vertex with the
smaller index to the one with the larger index. `C88_face` covers all sets of vertices of an element, i.e. edges, triangles and the element. `C88_gradient` is the inclusion of the gradients of functions of the
Lagrange basis of order 1, `C88_curl` connects the Nédélec basis (orientation from vertex indices) with the Raviart–Thomas basis (orientation from element indices). `SameVertices` states that
ids and indices of vertices belong to the same vertices. `Tetrahedra.lean` contains a grid of two tetrahedra that satisfies all assumptions. Not covered: cubes, where the space contains more than these fields.

### Spaces of Hermite, Morley and Argyris functions (C89), `lean/Verif/FE/TriangleSpace.lean`, `lean/Verif/FE/HermiteSpace.lean`

Model as for C61, C62 and C64: mapper, global state of the node, transformed shape functions, sum over shape functions. The structures `MorleyFamily`, `ArgyrisFamily` and `HermiteFamily` describe the
spaces by polynomials in global coordinates and conditions on common vertices and edges or facets; they mention neither the reference basis nor degrees of freedom. The main theorems are equivalences:
a piecewise function is the function of some coefficient vector if and only if it belongs to such a family. One direction is conformity and a bound of the degree, the other one is interpolation
together with unisolvence on each element. Uniqueness holds for all indices below the size of the basis, whatever mesh sizes the mappers computed.

### Boundary degrees of freedom of Hermite, Morley, Argyris, Raviart–Thomas and Nédélec bases (C90), `lean/Verif/Dofs/BoundaryLeaf.lean`, `lean/Verif/FE/BoundaryDofs.lean`, `lean/Verif/HDiv/BoundaryDofs.lean`

`leafCalls` is the model of `forEachBoundaryDOF` from C32 for a basis with indices from a mapper, with the containment of sub-entities of the reference element. `Agree calls vec vec'` says that two
coefficient vectors have the same values in the visited indices. The theorems translate this into values, derivatives and components of the discrete functions of C61, C62, C67 and C68 on the boundary.
Two negative results tell users what to expect: `C90_hermite_values_false` (equal boundary values do not give equal visited coefficients: on an interval the derivatives at the end points are
visited, too) and `C90_morley_values_false` (equal visited coefficients do not give equal boundary values). The grid reports boundary intersections with their facet numbers (`BoundaryOK`).

### The space of B-spline functions (C91), `lean/Verif/BSpline/Space.lean`

`Spline` is the specification: degrees on elements, and equal derivatives in the common points of elements that are neighbours in a direction; the number of equal derivatives comes from the
number of times the coordinate is found in the list of knots. It mentions neither knot spans nor basis functions; elements are sets of points (`InElement`, by `pointAt` of C78). `C91_space`
is the equivalence with the discrete functions `splineAt` of C78 in any number of directions, and the uniqueness of coefficients; `C91_open` the case of the constructors. `C91_outer_false`: without
additional knots at the end (`makeOpen = false`) the outer elements are not in the support of `order+1` functions, and constants are no discrete functions. The model is that of C26–C29 and C78;
nothing of the code is added.

### Pre-basis factories (C92), `lean/Verif/Functions/Factories.lean`

One tree type `Fac` is used three times: for expressions of a program (names of variables, temporaries), for function objects (addresses) and for descriptions (contents). `build` and `step` follow
what the lambdas capture: everything by value except the vector of `bSpline` and the subdomain of `restrict`; temporaries die at the end of the statement. The specification `idealStep` knows no
references at all: a factory is the description with the contents at the time it was written. `C92_program_partial` is the simulation, `C92_defined`, `C92_depends` say exactly when a call is
defined and what it depends on, `C92_owned` that all other factories own what they need, `C92_plain` that programs that change nothing never go wrong.

The full statement is false: `C92_temporary_false` (`auto f = bSpline({...}, 2);` can never be called), `C92_changed_false` (a factory sees later changes of the vector), `C92_subdomain_false`
(a basis restricted to a temporary). Simplifications: leaf bases, strategies and transformations are opaque and copied; moving from arguments (`std::move(f)`) is not modelled; addresses are not reused;
an empty knot vector counts as undefined.

### Hierarchical Lagrange functions (C93), `lean/Verif/Lagrange/Hierarchical.lean`

The shape function of an entity with the vertices `A` is `|A|^|A| * prod lambda_v`. `entity_continuous` holds for all bases with one degree of freedom per entity whose shape functions are on every face
a symmetric function of the barycentric coordinates of the vertices of their entity (`EntityTraces`). The space is described without the basis: `Continuous` and `PolyOn` of C84, and `HierSpace`
(polynomial plus multiple of the bubble). `represent` and `dual` are the two halves of unisolvence on an element, `functional_same` says that neighbours compute the same functionals; together they
give `C93_space`, `C93_unique`, `C93_interpolate`, `C93_roundTrip`, and with C84 also `C93_lagrange`. The theorems for the bases with bubble have the hypothesis `k <= dim`; `C93_line` covers the
remaining case (order 2 on lines), where the layouts with and without bubble are the same.

Trusted: the formulas of the shape functions, the local keys (any order that matches the layout is covered) and the functionals of the interpolations of dune-localfunctions.

### Nonconforming functions (C94), `lean/Verif/Lagrange/Nonconforming.lean`

`value` is the discrete function with the indices of `rtLeaf` (C58) and the shape functions of the element chosen by `RannacherTurekNode::bind`. The space is described without the basis:
`LocalSpace` (affine functions, on cubes plus multiples of `x_d² - x_{d+1}²`) and `CenterContinuous` (equal values in the centers of common facets). `facetCenter` is the mean of the vertices of the facet in the reference
element; `C94_meets` proves that the centers seen from two elements are the same point in the sense of C84 (`Meets`), so `C94_conforming_partial` follows for continuous functions. `C94_mean_triangles` and
`C94_mean_tetrahedra` are about integrals (Mathlib's interval integral). Two statements one may expect are false of the code and proved to be: `C94_mean_false` (on a quadrilateral next to a triangle the means over the common edge are
11/12 and 1, because the code uses the nodal variant of the element) and `C94_false` (with both triangular and quadrilateral facets, as in C58_false, a function of the described space is not a function of the basis).

Lines are not included: `isCube()` holds for them and dune-localfunctions has no Rannacher–Turek element of dimension 1. Trusted: the formulas of the shape functions, the local keys (function `i` belongs to facet `i`) and
the interpolation (values in the facet centers) of dune-localfunctions.

### Functions of refined bases (C95), `lean/Verif/Lagrange/Refined.lean`

`select` is `getSubElement`, `mu` the barycentric coordinates in the chosen part, `refinedValue` and `constantValue` the discrete functions with the indices of the layouts `refinedLayout 1` and `refinedLayout 0` (C57). The space is described
without the basis: `Part` (the parts by inequalities in barycentric coordinates), `PiecewiseAffine`, `PiecewiseConstant` and `ContinuousIn` (equal values in common points of the reference elements, `Meets` of C84). The step that
makes the proof work is `mu_hat`: in every part that contains the point, the shape function has the value `hat`, a formula that does not mention the parts. So it does not matter which part `getSubElement` finds on a common face, and the
traces on faces only depend on the vertices of the face, also in three dimensions, where the octahedron is divided along one of three diagonals.

For order 0 the values on the interfaces of the parts are those of the part that `getSubElement` finds; the statements are about the interior of the parts. Trusted: the formulas and local keys of `RefinedP0LocalFiniteElement` and
`RefinedP1LocalFiniteElement` (dune-localfunctions). `C95_constant_interpolate` holds for any choice of one point in the interior of every part.

### Normal continuity of Brezzi–Douglas–Marini functions (C96), `lean/Verif/HDiv/BDM.lean`

`value` is the discrete function with the variant chosen by `bdmFind` (C47), the layout `bdmLayout 1` (C48) and the contravariant transform (C52). The contract `Moments` says that on each edge one function has the constant flux `c`, with the sign
of the variant, and one has a flux that changes linearly from `-d` to `d` in counter-clockwise direction, *without* sign. It is proved for the formulas of `BDM1Simplex2DLocalBasis` (`d = 3`) and `BDM1Cube2DLocalBasis` (`d = -3`), which are
trusted. `jump_eq` computes the difference of the normal components: it is the second coefficient times the difference of the signs of the two determinants. So the functions are continuous between elements of the same orientation,
and only between those (`C96_jump`); `C96_false` is a grid of two triangles of which the second is mirrored (vertices listed clockwise), which Dune allows. Grids with more than one element type are rejected by the constructor of
the pre-basis (brezzidouglasmarinibasis.hh:198-201) and are not covered; neither are order 2 and hexahedra.

### The space of Brezzi–Douglas–Marini functions (C97), `lean/Verif/HDiv/BDMSpace.lean`

Same model as C96, on triangles. `AffineField` and `NormalContinuous` (C87) state the space without the basis. `reference_span` shows that the six shape functions span the affine fields of the reference triangle, `jump_two` is the exact
jump of *two* coefficient vectors on the two sides of an edge, and `bdm_pair` concludes that equal normal components at both end points force equal coefficients. The orientation hypothesis `Oriented` is necessary: without it the functions
of the basis are not continuous (`C96_false`); `C97_edge`, `C97_unique` and `C97_divergence` do not need it. On quadrilaterals, only the local space of the
reference square is determined (`C97_square`): bilinear geometries do not map it to polynomials.

### Boundary degrees of freedom of further bases (C98), `lean/Verif/Lagrange/BoundaryValues.lean`

`forEachBoundaryDOF` is the model of C32 (generic basis tree, lazy `SubEntityDOFs`), the functions are those of C93 (hierarchical), C95 (refined), C94 (Rannacher–Turek) and C97 (Brezzi–Douglas–Marini). `OnFacet` describes the points of a facet by
barycentric coordinates, independently of the keys. Each theorem is an equivalence: the visited coefficients determine the boundary values *and* are determined by them, so that no degree of freedom is visited in vain. For Rannacher–Turek bases the
boundary values are those in the centers of the facets; `C98_nonconforming_ends` shows that values elsewhere on the boundary also depend on interior coefficients. Refined bases of order 0 visit nothing (example). Boundary flags and
intersection indices are data of the grid (`BoundaryOK`).

### Functions of composed bases (C99), `lean/Verif/Functions/Product.lean`, `lean/Verif/Lagrange/Product.lean`

No new model: the basis trees are those of C01–C06 and C14, discrete functions those of C41/C63. `Part b p L f` states which leaf basis `L` is found at tree path `p` and on which elements (`f`); it does not mention offsets or multi-indices.
`Part.slot` locates the leaf in the bound tree, `cover` shows that each basis function belongs to a leaf. Hypotheses on the shape functions: `Shapes.OK` (the right number and dimensions) and `Separate` (leaves belong to different entries of the
range, true for the default map by C76). Leaves without functions on an element do not assign their range entries, hence the condition `L.loc e ≠ []`. Trees with `ext` leaves are allowed except for uniqueness; nothing is claimed on their components.
`taylorHood` is the documented definition of the Taylor–Hood basis by `composite` and `power`; the class `TaylorHoodPreBasis` itself is compared with it in C17.

### Boundary degrees of freedom of B-splines (C100), `lean/Verif/BSpline/Boundary.lean`

No new model of values or keys: `splineAt`, `localKeys` (C26–C29, C78) and `forEachBoundaryDOF` (C32) are used. `OpenDir` collects what the constructors with open knots provide (`C100_open`). `Extreme` is the numbering of the facets of a cube:
facet `2k` is the lower, facet `2k+1` the upper end in direction `k`; it is used for elements of the grid (which facets are boundary intersections, `StructuredBoundary`) and for the digits of basis functions. False of the code and therefore partial: in three
dimensions `BSplineLocalCoefficients` leaves all sub-entity numbers zero, so that inner functions are visited (`C100_interior_false`) and others are missed (`C100_missed_false`); for order zero the only function of an element belongs to its left end
(`C100_order0_false`); without open knots functions that vanish on the boundary are visited (`C100_closed_false`).

### Functions of periodic bases (C101), `lean/Verif/Functions/Renumbered.lean`, `lean/Verif/Lagrange/Periodic.lean`

No new model of the code: `periodicPB`, `periodicMap` (C15), `transformedPB` (C75), `localEval` (C41, C63) and the Lagrange functions (C69, C79, C84) are combined; `basisValue` is the loop of the discrete function for a scalar leaf with flat indices. A
`Glue` identifies two faces (or edges, vertices) by a `Matching` of their vertices, in which opposite vertices of quadrilaterals are matched with opposite vertices; the elements on both sides may have different types. `OppositePairs` says that the user
unifies exactly the indices of Lagrange points with the same weights at matched vertices; `oppositeCalls` is a loop that does so. `Transitive` is the condition of C15; without it, there are functions of the periodic basis with different values in unified
points (`C101_open_false`), hence partial.

### Raviart–Thomas space on grids of simplices, cubes and prisms (C102), `lean/Verif/HDiv/RTMixed.lean`

No new model of the code: `value` with the finite elements `rtTable` (C67). C87 is the case of affine simplices with fields in global coordinates. Fields on elements are given in local coordinates and restricted to the points of the reference element
(`Inside`), because multilinear geometries are regular there only. `MixedGrid` says that elements lie on different sides of their common facets in each point. Pyramids are missing. The examples are a trapezoid and a triangle: constant fields are
functions of the basis, the field of the positions is not.

### Nédélec space on grids of simplices and cubes (C103), `lean/Verif/HDiv/NedelecMixed.lean`

No new model of the code: `value` with the finite elements `nedTable` (C68). C88 is the case of affine simplices with fields in global coordinates. The condition `EdgeMatching` of the space theorem is about common edges, so that it includes elements that share
an edge but no facet; `C103_facet` says that it implies continuity of all tangential components on facets. Derivatives of multilinear functions are differences (`jacobian`). The examples are the trapezoid and the triangle of C102: constant fields and gradients of
continuous functions are functions of the basis, the rotation `(-y_1, y_0)` is not.

### Caches and equality of the global intersection iterator (C104), `lean/Verif/SubDomain/IntersectionIterator.lean`

`CIt` has all data members of `GlobalIntersectionIt` except for the grid view and the predicate; the constants `cacheElement` and `cacheIntersection` are parameters. The position in the intersections carries its element, so that a stale `element_` is visible: comparing it with the end
of another element is undefined. The loop of `operator++` terminates because the elements and intersections to come decrease. Iterators of the grid view are positions in lists (as in C31). Not modelled: addresses. With a cached intersection `*it` refers to a member of `it`, hence equal iterators
refer to equal, but not to the same objects, and a reference does not outlive its iterator.

### Derivatives of discrete functions (C105), `lean/Verif/Functions/Derivative.lean`

Uses the model of discrete functions of C41 over the real numbers and the Fréchet derivative of Mathlib. Hypotheses are contracts: the Jacobians of the shape functions are derivatives of their values with respect to local coordinates (`JacobiansOK`), and `jacobianInverse` is a left
inverse of the derivative of the geometry (`GeometryOK`). The first is proved for the finite elements of this repository: Hermite, Morley and Argyris (`C105_elements`) and, on affine elements, the Piola transformed elements of the Raviart–Thomas, Brezzi–Douglas–Marini and Nédélec bases
if the local finite elements fulfill it (`C105_piola`); `C105_contract` connects both to the trees. Lagrange elements are from dune-localfunctions.

What is missing in `C105_local_partial` and `C105_global_partial`: the statement without the contract is false of the code. On elements that are not affine `GlobalValuedLocalBasis::evaluateJacobian` neglects the derivative of the geometry's Jacobian (documented as a bug at globalvaluedlocalfiniteelement.hh:72, 183).
`C105_nonaffine_false` gives a discrete function on a trapezoid for which `derivative(f)` returns zero although the function is not constant. Entries of the range that are shared by several leaves are excluded, see `C41_shared_entry_false`. Evaluation at global coordinates: C106. On the boundary of an element the derivative is that of the extension of the shape functions.

### Evaluation in global coordinates (C106), `lean/Verif/GridFunctions/Global.lean`

Extends the grid functions of C54 by `operator()` in global coordinates (`GF.global`). Contracts: the geometries of fathers and children fit together (`Grid.Nested`); the search returns an element of the grid view that contains the point (`Search.Sound`), and finds one if there is one (`Search.Complete`).
`HierarchicSearch` is part of dune-grid and not modelled. It descends from the first element of level 0 which contains the point; so the second contract may fail at the interface of a subdomain, where an exception is thrown; `C106_sound` does not need it. A discrete function (or another one with local
functions only) is given by its values on elements, and `Search.view` is the grid view of its basis. `local()` of the geometry is part of the search.

The condition that discrete functions have one value at the point (`GF.OneValued`) cannot be omitted, `C106_discontinuous`. `C106_lagrange` shows that it holds for Lagrange functions on conforming grids.

### Piecewise constants (C107), `lean/Verif/Lagrange/Constant.lean`

`lagrangeLeaf` and `dgLeaf` of order 0, for all element types including pyramids. Contract: the finite elements of order 0 of dune-localfunctions have the constant 1 as their only shape function, with local key (0,0,0), and interpolate by evaluation in one point. `C84_space` and `C85_space` need order at least 1 since for order 0 no continuity
holds.

### Bases that combine Raviart–Thomas, Nédélec and Lagrange bases (C108), `lean/Verif/HDiv/Trees.lean`

Trees whose leaves are the leaf bases of C84, C85, C102, C103 and C107 on the same grid view (restricted leaves are excluded by `Tree`, which asks that every leaf is active on all elements). The contract of the finite elements is that of those claims: `rtTable` and `nedTable` behind `GlobalValuedLocalFiniteElement`, `lagrangeValues`, and the constant 1 for order 0. The divergence is expressed by the flux
through the facets: for these fields the flux density is constant on each facet of the reference element, hence one point per facet gives the integral. The gradient is expressed by the derivative of the local function in all directions of the reference element. Not modelled: pyramids, orders of the H(div) and H(curl) bases above the lowest, numerical integration.

### Boundary DOFs of Raviart–Thomas and Nédélec bases on mixed grids (C109), `lean/Verif/HDiv/BoundaryMixed.lean`

`forEachBoundaryDOF` of `Dofs/SubEntity` for the leaf bases of C102 and C103; `elementCalls` (`Dofs/BoundaryLeaf`) generalises the model used for C90 to local keys that depend on the element. Contract: intersections have the numbers of facets of the element (`BoundaryFacets`), the sub-entities of a facet are those of the reference element. Normal directions are all vectors orthogonal to
the images of the frame of the facet, tangential components those in the directions of these images; the facets need not be plane.

### Boundary DOFs of subspace bases (C110), `lean/Verif/Dofs/Components.lean`, `lean/Verif/HDiv/BoundaryTrees.lean`

The traversal of `boundarydofs.hh` and `SubEntityDOFs::bind` for the local view of a subspace basis (`SubLocalView` of C13): the size and the indices are those of the root view, the tree is the node of the path. Contract: local keys per tree index match the
sizes of the finite elements (`KeysMatch`, as for C32), and are those of the leaf bases (`TreeKeys`). `C110_subspace` compares both traversals step by step and proves equality of the lists of calls; `C110_component` and `C110_agree` reduce to leaf bases. For trees of C108 the
boundary values of a component are those of C80 and C109 (`SameTrace`); discontinuous components are excluded there (`HasTrace`). `copyBoundary` is the user's loop that copies the visited coefficients.

### Boundary values by interpolation (C111), `lean/Verif/Functions/Dirichlet.lean`, `lean/Verif/HDiv/BoundaryInterpolation.lean`

`setBoundary` is the program of `examples/stokes-taylorhood.cc` and `examples/interpolation.cc`, composed of the models of `resize` (C33), assignment of a number (C77), write access (C35), `forEachBoundaryDOF` of a subspace basis (C110) and `interpolate` with a bit
vector (C39). Contracts are those of these models. Simplification: `false` is assigned by the backend, while the examples assign it to the container. `C111_interpolate` makes no assumption about the function: with and without bit vector the last visited element that contains an
index determines its value. Exceptions of `resize` are excluded by hypothesis (C33 says when they occur).

### Boundary values on a part of the boundary (C112), `lean/Verif/Dofs/Selected.lean`, `lean/Verif/HDiv/BoundaryPart.lean`

`setBoundaryWhere` is the program of `examples/poisson-mfem.cc` with `markBoundaryDOFsByIndicator`. Simplification: an intersection is known by its element and the number of its facet, so the condition is a function of these; with several boundary intersections in one facet the
condition could distinguish them, the model does not. `C112_program` reduces the program to the one of C111 for the selected intersections: the two traversals use different states of `SubEntityDOFs`, which does not matter because `bind` does not depend on the previous state
(C32). `C112_raviartThomas` is the remark in the example that tangential components, which would be marked in other spaces, do not occur for Raviart–Thomas: each visited degree of freedom belongs to a selected facet.

### Assembled linear systems (C113), `lean/Verif/Functions/Galerkin.lean`, `lean/Verif/HDiv/GalerkinTrees.lean`

Modelled: `getOccupationPattern`, `assembleLaplaceMatrix` and the treatment of Dirichlet values of `examples/poisson-pq2.cc`, and the modification of rows of `examples/poisson-mfem.cc`, with one local view bound to all elements in turn. Contract of dune-istl: a sparse matrix has
entries for the pairs of its pattern, `MatrixIndexSet` is a set, `mmv` and `sparseRange` visit the entries of a row once. Simplifications: matrices and right hand sides are indexed by whole multi-indices, so nested matrices and the overload of `matrixEntry` in `poisson-mfem.cc` are not
modelled; element matrices and local right hand sides are arbitrary (C114 has those of the examples); entries are elements of a field. `Rows` says that the system has one row for each multi-index (C33, C34); `rows_of` shows that such lists exist. `Weak` is the variational problem: it is
stated with boundary traces of functions and does not mention marked coefficients. The linear solvers are not modelled.

### Element matrices of the Poisson examples (C114), `lean/Verif/Functions/LocalMatrix.lean`, `lean/Verif/HDiv/PoissonTrees.lean`

Modelled: `getLocalMatrix` and `getVolumeTerm` of `examples/poisson-pq2.cc` and `examples/poisson-mfem.cc`, with the nodes of a bound local view, its local indices and the tables of shape functions of C41 (the same tables that discrete functions use). Writing outside an element matrix is an
error. Simplifications: the quadrature rule of an element is any list of positions and weights, the choice of its order is not modelled, so nothing is said about exactness of rules; the source term is a function of element and position; numbers are elements of a field. The specification
(`valueOf`, `integral`, `MixedPoisson`) uses the evaluation of local functions of discrete functions and boundary traces; it does not mention local indices or element matrices.

### The Stokes program (C115), `lean/Verif/Functions/Stokes.lean`, `lean/Verif/HDiv/StokesTrees.lean`

Modelled: `getLocalMatrix` of `examples/stokes-taylorhood.cc`, the loop that assembles it (as in C113), the marking of boundary degrees of freedom, the interpolation into the subspace basis `(_0)` and the loop that writes rows of the identity element by element. Simplifications as in C114: any list of quadrature
points and weights, numbers in a field, `dim` and the world dimension are the same number. The linear solver is not modelled: the theorem is about all solutions of the system. The condition that the velocity components share their shape functions is needed because the program evaluates those of component
`(0, 0)` only; a power node has equal finite elements in all its children.

### The discontinuous Galerkin program (C116), `lean/Verif/Functions/Advection.lean`

Modelled: `getLocalMatrix` (element and skeleton terms), `getOffDiagonalLocalMatrix`, `getOccupationPattern` and `assembleStiffnessMatrix` of `examples/advection-reaction-dg.cc`, with the views of an element and of its neighbors bound one after the other; adding to an entry outside the pattern is an error.
Simplifications: rows and columns are the multi-indices themselves, the program uses their only digit; an intersection is its neighbor and the points of the two rules that the two functions choose, with positions in both elements, `integrationOuterNormal` and weight; coefficients are functions of element
and position; numbers are elements of a field with a linear order. The last sentence of the property is false of the code (`C116_consistency_false`): line 93 multiplies the velocity with the gradient of the test function and not with that of the ansatz function. For `β = 1`, `c = 0`, `f = 1` on two
intervals the function `x` has residual `1/2` in the last row.

### Nested matrices (C117), `lean/Verif/Functions/BlockMatrix.lean`

Modelled: `setOccupationPattern`, both variants of `matrixEntry`, `assembleStokesMatrix` and the loop that changes rows, of `examples/stokes-taylorhood.cc`, with the digits that are read of multi-indices. A digit that does not exist, an addition outside of the sizes of an index set, a missing entry of a sparse
matrix and an index outside a dense block are errors. Simplifications: the array `nb` and the matrices are functions of the block indices, so that both container types have one model; `matrixEntry` returns the position of the entry instead of a reference; the product with a vector is specified by sums over
the sparse rows of the blocks (dune-istl is not modelled). `C117_stokes` (`HDiv/StokesNested.lean`) joins this with C115: a nested vector solves the nested system of the whole program exactly if it has the coefficients of a discrete Stokes solution.
`place` says where a coefficient is in a nested vector; C33 and C35 are about the access through the backend.

### Linear systems of the Python examples (C118, C119), `lean/Verif/Python/Systems.lean`

Modelled: the assembly loops of `examples/poisson-pq2.py` and `examples/poisson-mfem.py`, the loop over `A.nonzero()` of the former, `incorporateEssentialConstraints` and the divergence of the latter. Matrices of scipy and vectors of numpy are functions of natural numbers smaller than `len(basis)`,
with an error for additions elsewhere; entries that are not stored are zero; `nonzero()` lists the entries that are not zero at the time of the call; a number is true if it is not zero. The element matrices are arbitrary (`localAssembler` is modelled for C120), so `getLocalMatrix` and `getVolumeTerm` are not modelled,
apart from the divergence. `FlatBasis` says that all multi-indices have one digit that is smaller than `len(basis)`, which C01 to C06 give for flat trees.
- False (`C118_rows_false`): the loop of poisson-pq2.py with a zero on the diagonal of a constrained row. With element matrices of positive semidefinite forms whose kernel are the constants, as for the Laplace operator, the diagonal is positive and the loop is right (`C118_laplace`); for `localAssembler` see C120.
- False (`C119_divergence_false`): `numpy.array(J) * G` (poisson-mfem.py:70) is a product of entries, not of matrices; its trace is the divergence for all shape functions exactly if `G` is diagonal, as on the structured grid of the example. This uses the convention of numpy for `*`
with an array on the left, which is not part of the repository: numpy converts the other factor to an array.

### The Poisson problem in Python (C120), `lean/Verif/Python/LocalAssembler.lean`

Modelled: `localAssembler` and `assembleLaplaceMatrix` of `examples/poisson-pq2.py` with the quadrature rules and shape functions of C114, followed by the loop over `A.nonzero()` of C118. `np.dot` is the product of a row with a matrix and of two vectors; `volumeTerm` after `toGlobal` is one function;
entries of `values` are numbers. Hypotheses: weights and integration elements are positive; a combination of shape functions whose gradient vanishes at all quadrature points has equal coefficients (so the rule of order 4 must be good enough for the element); a constrained
coefficient belongs to an element that has another coefficient. The marker and the prescribed values are arbitrary vectors; marking boundary degrees of freedom, interpolation and the solver are not part of the theorem.

### Update of bases (C53), `lean/Verif/Update.lean`

Modelled: for every pre-basis the data members that depend on the grid view, its constructor (with the exceptions and assertions that depend
on the grid), `update` and `initializeIndices`, and on top of them `DefaultGlobalBasis`. A grid view is a handle; the grid behind it may
change at any time, so mappers have a snapshot of offsets and sizes but the index set of today. Exceptions leave the state partly updated,
histories go on after that. Undefined behaviour (writing out of bounds) is `none`. Contract of the grid: the elements of a grid
view are traversed once and are numbered consecutively per type.
Not modelled: the constant tables of finite elements, the periodic factory for a given basis or pre-basis (it ignores the grid view),
nodes and local views that exist during the update.
Findings: `TaylorHoodPreBasis::update` does not store the new grid view; `MorleyPreBasis::update` does not update its own `mapper_`, which
hides the one of the base class, so the orientations are computed for the old grid view (harmless on triangles if the grid view object is
the same); a periodic basis keeps the index table of the old grid, so after refinement indices are read out of bounds;
the checks of the constructors of Rannacher–Turek, Nédélec, Raviart–Thomas, BDM and B-spline bases are missing in `update`.
