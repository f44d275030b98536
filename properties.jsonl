{"id": "C01", "title": "Multi-indices agree with size(prefix)", "statement": "For every basis built by nesting power and composite nodes over leaf bases with any index merging strategies, every multi-index returned by a bound local view satisfies: each digit is smaller than basis.size(prefix of the preceding digits), and basis.size(full multi-index) is 0. No assertion or other undefined behaviour is reached when these sizes are queried.", "quantifier": "all nestings of power/composite/leaf bases (any depth, any number of children, any leaf dimension), all merging strategies, all elements, all local basis functions, all prefixes of their multi-indices", "why_tests_cant": "tests instantiate a handful of trees on a few grids; the claim is an induction over arbitrary basis trees", "anchors": ["dune/functions/functionspacebases/compositebasis.hh:CompositePreBasis::size,indices", "dune/functions/functionspacebases/dynamicpowerbasis.hh:DynamicPowerPreBasis::sizeImpl,indicesImpl", "dune/functions/functionspacebases/leafprebasismixin.hh:LeafPreBasisMixin::size"]}
{"id": "C02", "title": "Index uniqueness", "statement": "Two local basis functions (on the same or different elements) are given the same multi-index if and only if they are the same global basis function, i.e. they sit at the same leaf of the ansatz tree and have the same global index in that leaf basis.", "quantifier": "all basis trees, all pairs of elements and local basis functions", "why_tests_cant": "collisions depend on arithmetic combinations of sizes over arbitrarily nested trees", "anchors": ["dune/functions/functionspacebases/compositebasis.hh:CompositePreBasis::indices", "dune/functions/functionspacebases/dynamicpowerbasis.hh:DynamicPowerPreBasis::indicesImpl"]}
{"id": "C03", "title": "Index tree completeness", "statement": "If every leaf basis is non-empty and uses all of its indices 0..dimension()-1, then for every multi-index and every proper prefix of it the set of digits that follow that prefix in some multi-index is exactly 0,...,size(prefix)-1.", "quantifier": "all basis trees with non-empty leaf bases, all valid prefixes", "why_tests_cant": "the check in basistest.hh enumerates one grid at a time; the claim is over all trees and dimensions", "anchors": ["dune/functions/functionspacebases/compositebasis.hh", "dune/functions/functionspacebases/dynamicpowerbasis.hh", "dune/functions/functionspacebases/test/basistest.hh:checkBasisIndexTreeConsistency"]}
{"id": "C04", "title": "Multi-indices are prefix free", "statement": "No multi-index of a basis is a strict prefix of another multi-index of the same basis, so each multi-index addresses a scalar entry and never a block of a nested container.", "quantifier": "all basis trees, all pairs of global basis functions", "why_tests_cant": "needs all pairs over all trees", "anchors": ["dune/functions/functionspacebases/compositebasis.hh", "dune/functions/functionspacebases/dynamicpowerbasis.hh"]}
{"id": "C05", "title": "dimension() counts the multi-indices", "statement": "basis.dimension() equals the number of distinct multi-indices of the basis (given that the leaf bases use all their indices).", "quantifier": "all basis trees and leaf dimensions", "why_tests_cant": "counting claim over unbounded families", "anchors": ["dune/functions/functionspacebases/compositebasis.hh:CompositePreBasis::dimension", "dune/functions/functionspacebases/dynamicpowerbasis.hh:DynamicPowerPreBasis::dimension"]}
{"id": "C06", "title": "Multi-index length bounds and buffer capacity", "statement": "Every multi-index has a length between minMultiIndexSize and maxMultiIndexSize, and while indices are being assembled in place no index in the buffer ever exceeds the fixed capacity multiIndexBufferSize. Hence the fixed-capacity index type never overflows and, if min and max agree, the static multi-index the user reads consists of exactly the assembled digits.", "quantifier": "all basis trees, all elements", "why_tests_cant": "buffer overflow would be silent memory corruption for some tree shape not in the test-suite", "anchors": ["dune/functions/functionspacebases/compositebasis.hh:maxMultiIndexSize,minMultiIndexSize,multiIndexBufferSize", "dune/functions/functionspacebases/dynamicpowerbasis.hh", "dune/functions/functionspacebases/defaultlocalview.hh:MultiIndexStorage"]}
{"id": "C07", "title": "In-place index assembly writes exactly its own range", "statement": "Filling the indices of a bound tree writes exactly node.size() consecutive entries starting at the given iterator, returns the iterator past them, leaves all other buffer entries unchanged, and the written values do not depend on the previous contents of the buffer.", "quantifier": "all basis trees, elements, buffer contents and start positions", "why_tests_cant": "stale buffer contents depend on arbitrary earlier bind histories", "anchors": ["dune/functions/functionspacebases/compositebasis.hh:indices", "dune/functions/functionspacebases/dynamicpowerbasis.hh:indicesImpl", "dune/functions/functionspacebases/leafprebasismappermixin.hh:indices"]}
{"id": "C08", "title": "Documented index merging strategies", "statement": "The multi-index of function f in child k of a merged basis is as documented: flat lexicographic adds the sizes of the preceding children to the first digit; flat interleaved maps the first digit i to i*children+k; blocked lexicographic prepends k; blocked interleaved appends k.", "quantifier": "all merged bases, all children, all functions of the child", "why_tests_cant": "documented only on a 3-function example", "anchors": ["dune/functions/functionspacebases/basistags.hh", "dune/functions/functionspacebases/compositebasis.hh:indices", "dune/functions/functionspacebases/dynamicpowerbasis.hh:indicesImpl"]}
{"id": "C09", "title": "Local view is history independent", "statement": "After any sequence of bind/unbind/copy operations, a local view bound to element e reports the same size, local indices and multi-indices as a freshly created local view bound to e; copying a bound view gives an equal, independent view.", "quantifier": "all basis trees, all finite operation sequences, all elements", "why_tests_cant": "histories are unbounded", "anchors": ["dune/functions/functionspacebases/defaultlocalview.hh:DefaultLocalView"]}
{"id": "C10", "title": "Local indices partition the local range", "statement": "On a bound tree the local indices of the leaves, taken in tree order, are exactly 0,1,...,localView.size()-1, each once; every inner node covers the consecutive range of its children and tree indices of nodes are distinct and consecutive in pre-order.", "quantifier": "all ansatz trees (any shape), all elements", "why_tests_cant": "arbitrary tree shapes", "anchors": ["dune/functions/functionspacebases/nodes.hh:InnerBasisNodeMixin::bind,initializeTree,bindTree"]}
{"id": "C11", "title": "localView.size() <= localView.maxSize()", "statement": "For every element the number of local basis functions does not exceed maxNodeSize() reported by the basis, provided this holds for the leaf bases; for mapper based leaf bases it holds by construction for every element type in the grid.", "quantifier": "all basis trees, all elements, all layouts", "why_tests_cant": "users allocate local matrices by maxSize; overflow for unlucky grid/tree combinations", "anchors": ["dune/functions/functionspacebases/compositebasis.hh:maxNodeSize", "dune/functions/functionspacebases/dynamicpowerbasis.hh:maxNodeSize", "dune/functions/functionspacebases/leafprebasismappermixin.hh:initializeIndices"]}
{"id": "C12", "title": "Container descriptor agrees with size(prefix)", "statement": "Whenever a basis returns a container descriptor, following the descriptor along any prefix of any multi-index of the basis is possible and the number of entries found there equals basis.size(prefix) (unless the descriptor is marked unknown there).", "quantifier": "all basis trees with static or dynamic powers, all prefixes of all multi-indices", "why_tests_cant": "descriptor algebra is recursive over arbitrary trees", "anchors": ["dune/functions/functionspacebases/containerdescriptors.hh", "dune/functions/functionspacebases/compositebasis.hh:containerDescriptor", "dune/functions/functionspacebases/dynamicpowerbasis.hh:containerDescriptorImpl"]}
{"id": "C13", "title": "Subspace bases share the root indices", "statement": "The local view of a subspace basis (also of nested subspace bases) has the sub-tree found by following the concatenated path, and every node of it reports the same local indices and multi-indices as in the root local view; size and dimension are those of the root basis.", "quantifier": "all trees, all paths, all nesting depths of subspaceBasis", "why_tests_cant": "nesting depth and paths unbounded", "anchors": ["dune/functions/functionspacebases/subspacebasis.hh", "dune/functions/functionspacebases/subspacelocalview.hh"]}
{"id": "C14", "title": "Restricted bases vanish outside their subdomain", "statement": "For a basis restricted to a subdomain, the whole subtree is empty on elements outside the subdomain (all sizes 0, no index written) and on elements inside it behaves exactly like the unrestricted subdomain basis, also when nested in power/composite trees.", "quantifier": "all trees with restricted nodes, all subdomains, all elements", "why_tests_cant": "combination of trees and subdomains", "anchors": ["dune/functions/functionspacebases/restrictedbasis.hh:RestrictedPreBasis"]}
{"id": "C15", "title": "Periodic identification", "statement": "After unifying pairs of indices the periodic basis assigns two raw indices the same global index if and only if they are connected by unified pairs; the new indices are exactly 0..dimension()-1 for every set of pairs.", "quantifier": "all raw sizes, all finite sets of index pairs in any insertion order", "why_tests_cant": "sets of pairs are unbounded; transitive chains are easy to miss", "anchors": ["dune/functions/functionspacebases/periodicbasis.hh:PeriodicIndexSet,PeriodicIndexingTransformation"]}
{"id": "C16", "title": "Periodic sizes and container descriptor", "statement": "The periodic basis' size(), dimension() and container descriptor all describe the same number of indices.", "quantifier": "all sets of pairs", "why_tests_cant": "depends on the set", "anchors": ["dune/functions/functionspacebases/periodicbasis.hh:PeriodicIndexingTransformation::size,dimension,containerDescriptor"]}
{"id": "C17", "title": "Taylor-Hood equals its composite definition", "statement": "TaylorHoodBasis assigns the same multi-indices, sizes and dimension as composite(power<dim>(lagrange<2>, flatInterleaved or blockedInterleaved), lagrange<1>).", "quantifier": "all dimensions, all elements, all velocity/pressure index sets, both variants", "why_tests_cant": "tests check consistency only, on 2d grids", "anchors": ["dune/functions/functionspacebases/taylorhoodbasis.hh:TaylorHoodPreBasis"]}
{"id": "C18", "title": "ReservedDeque is a deque", "statement": "After any sequence of push/pop/clear/resize operations within capacity the container's size, front, back and element access agree with an ordinary deque.", "quantifier": "all capacities, all operation sequences", "why_tests_cant": "wrap-around depends on operation history", "anchors": ["dune/functions/common/reserveddeque.hh:ReservedDeque"]}
{"id": "C19", "title": "OverflowArray is a bounded vector", "statement": "After any sequence of push_back/pop_back/push_front/resize/clear operations within capacity, size and element access agree with an ordinary vector, and the static base array holds the leading entries.", "quantifier": "all base sizes and capacities, all operation sequences", "why_tests_cant": "histories unbounded", "anchors": ["dune/functions/common/overflowarray.hh:OverflowArray"]}
{"id": "C20", "title": "Lagrange edge DOF matching", "statement": "For every polynomial order, two elements sharing an edge assign the same global index to the same point of that edge, whatever the local vertex numbering on both sides.", "quantifier": "all orders k>=2, all vertex id assignments, both local orientations", "why_tests_cant": "orders and orientations unbounded", "anchors": ["dune/functions/functionspacebases/lagrangebasis.hh:FaceOrientations::computeEdgeOrientation,LagrangeFaceDOFPermutation::permuteFaceDOF"]}
{"id": "C21", "title": "Lagrange triangle face DOF matching", "statement": "For every order, two elements sharing a triangular face assign the same global index to the same Lagrange point of the face for each of the relative orientations of the face in the two elements.", "quantifier": "all orders k>=3, all 6 relative vertex orders, all vertex ids", "why_tests_cant": "tests use low orders on few meshes", "anchors": ["dune/functions/functionspacebases/lagrangebasis.hh:FaceOrientations::computeTriangleOrientation,LagrangeFaceDOFPermutation"]}
{"id": "C22", "title": "Lagrange quadrilateral face DOF matching", "statement": "For every order, two elements sharing a quadrilateral face assign the same global index to the same Lagrange point of the face for each of the relative orientations.", "quantifier": "all orders k>=2, all 8 symmetries, all vertex ids", "why_tests_cant": "as above", "anchors": ["dune/functions/functionspacebases/lagrangebasis.hh:FaceOrientations::computeQuadrilateralOrientation,LagrangeFaceDOFPermutation"]}
{"id": "C23", "title": "Lagrange face tables are permutations that fit their storage", "statement": "For every order and orientation the face DOF map is a bijection of the DOFs of the face, and for every accepted order in 3d the values fit the 8-bit table entry.", "quantifier": "all orders, all orientations", "why_tests_cant": "8-bit truncation appears only at high order", "anchors": ["dune/functions/functionspacebases/lagrangebasis.hh:LagrangeFaceDOFPermutation,maxOrder3d"]}
{"id": "C24", "title": "Lagrange DOF layout counts", "statement": "The DOFs distributed over sub-entities of a simplex, cube, prism or pyramid add up to the dimension of the local Lagrange space of order k, and this never exceeds maxNodeSize()=(k+1)^dim.", "quantifier": "all orders (for all dimensions for simplices and cubes)", "why_tests_cant": "infinitely many orders", "anchors": ["dune/functions/functionspacebases/lagrangebasis.hh:LagrangePreBasis::dofLayout,maxNodeSize"]}
{"id": "C25", "title": "Lagrange DG indices", "statement": "The discontinuous Lagrange basis assigns each element size-many consecutive indices, different elements get disjoint index ranges, and the ranges exactly cover 0..dimension()-1; the per-element count equals the local polynomial space dimension.", "quantifier": "all orders, all mixed element meshes", "why_tests_cant": "mixed meshes and orders unbounded", "anchors": ["dune/functions/functionspacebases/lagrangedgbasis.hh:LagrangeDGPreBasis"]}
{"id": "C26", "title": "B-spline global indices", "statement": "The indices of a B-spline basis on a knot span are in range, pairwise distinct, and every global basis function is active on some span; local and global multi-digit numbering are mutually inverse.", "quantifier": "all dimensions, orders, knot vectors and knot spans", "why_tests_cant": "parameters unbounded", "anchors": ["dune/functions/functionspacebases/bsplinebasis.hh:BSplinePreBasis::indices,getIJK,size,MultiDigitCounter"]}
{"id": "C27", "title": "B-spline values", "statement": "On every non-degenerate knot span the B-spline functions returned are nonnegative and sum to one at every point of the span, and coincide with the Cox-de Boor functions.", "quantifier": "all orders, all non-decreasing knot vectors, all points", "why_tests_cant": "continuum of points and knot vectors", "anchors": ["dune/functions/functionspacebases/bsplinebasis.hh:evaluateFunction"]}
{"id": "C28", "title": "B-spline derivatives", "statement": "Jacobians and second derivatives returned for B-spline basis functions are the derivatives of the returned function values.", "quantifier": "all orders, knot vectors, points", "why_tests_cant": "continuum", "anchors": ["dune/functions/functionspacebases/bsplinebasis.hh:evaluateAll,evaluateJacobian"]}
{"id": "C29", "title": "B-spline local keys", "statement": "The local keys of a B-spline element are pairwise distinct and number the DOFs of each sub-entity consecutively.", "quantifier": "all dimensions and sizes", "why_tests_cant": "sizes unbounded", "anchors": ["dune/functions/functionspacebases/bsplinebasis.hh:BSplineLocalCoefficients"]}
{"id": "C30", "title": "Subdomain index set", "statement": "After any history of element insertions, sub-entities of inserted elements have per-geometry-type consecutive zero based indices, size(type) and size(codim) count them, indices never change under later insertions, re-insertion is a no-op, and entities never inserted are reported as not contained / raise an error.", "quantifier": "all grids, all insertion histories", "why_tests_cant": "histories unbounded", "anchors": ["dune/functions/common/subdomain.hh:SubDomainIndexSet"]}
{"id": "C31", "title": "Subdomain iteration", "statement": "Iterating over the elements of a subdomain view yields exactly the contained elements, each once and in grid order; iterating over interface or skeleton intersections yields exactly the intersections satisfying the membership test.", "quantifier": "all grids, all subdomains", "why_tests_cant": "all subsets", "anchors": ["dune/functions/common/subdomain.hh:ElementIterator,GlobalIntersectionIterator,SubDomainInterface,SubDomainSkeleton"]}
{"id": "C32", "title": "Sub-entity DOFs are exact", "statement": "Binding the sub-entity DOF range to a sub-entity yields exactly the local DOFs whose key is attached to a sub-entity contained in it, each once, and contains(i) agrees; boundary DOF traversal visits exactly the DOFs on boundary intersections. Reuse of the object does not leak earlier results.", "quantifier": "all trees, elements, sub-entities, histories of binds", "why_tests_cant": "histories and trees unbounded", "anchors": ["dune/functions/functionspacebases/subentitydofs.hh:SubEntityDOFs", "dune/functions/functionspacebases/boundarydofs.hh:forEachBoundaryDOF"]}
{"id": "C33", "title": "Resizing a vector to a basis makes all accesses valid", "statement": "After vectorBackend.resize(basis) succeeds, access by every multi-index of the basis is in range; resize raises an error only if the nested container type cannot represent the index tree.", "quantifier": "all nested containers, all size trees, all previous container contents", "why_tests_cant": "recursion over arbitrary nesting", "anchors": ["dune/functions/backends/istlvectorbackend.hh:ISTLVectorBackend::resize,operator[]"]}
{"id": "C34", "title": "Containers created from descriptors have the described shape", "statement": "makeContainer/makeISTLVector produce a nested container in which every multi-index of the descriptor's basis addresses an existing entry with the default value and no further entries exist.", "quantifier": "all descriptors", "why_tests_cant": "recursion over arbitrary nesting", "anchors": ["dune/functions/backends/containerfactory.hh", "dune/functions/backends/istlvectorfactory.hh"]}
{"id": "C35", "title": "Multi-index access follows the digits", "statement": "Accessing a nested container with a multi-index returns the entry reached by following the digits in order; trailing singleton levels are addressed by implicit zero digits.", "quantifier": "all nested containers and multi-indices", "why_tests_cant": "arbitrary nesting", "anchors": ["dune/functions/common/indexaccess.hh:resolveDynamicMultiIndex,resolveStaticMultiIndex"]}
{"id": "C36", "title": "Flat vector view is a bijection", "statement": "The flat view of nested static vectors/matrices enumerates every scalar entry exactly once in lexicographic order, with size equal to the number of entries.", "quantifier": "all nestings and shapes", "why_tests_cant": "arbitrary nesting", "anchors": ["dune/functions/functionspacebases/flatvectorview.hh"]}
{"id": "C37", "title": "Polynomial evaluation and derivative", "statement": "Polynomial evaluates to sum c_i x^i and derivative(p) is the polynomial derivative, for all coefficient containers.", "quantifier": "all coefficient lists, all rings, all points", "why_tests_cant": "continuum", "anchors": ["dune/functions/analyticfunctions/polynomial.hh:Polynomial"]}
{"id": "C38", "title": "MonomialSet", "statement": "MonomialSet<dim,maxDegree> lists every monomial of total degree at most maxDegree exactly once ordered by degree; values, first and second derivatives are those of the listed exponents.", "quantifier": "all maximal degrees, all points, dim 1,2,3", "why_tests_cant": "degrees unbounded", "anchors": ["dune/functions/analyticfunctions/monomialset.hh:MonomialSet"]}
{"id": "C39", "title": "Interpolation touches only marked entries", "statement": "interpolate(basis, coeff, f, marker) leaves every unmarked coefficient unchanged, and every marked coefficient that belongs to a visited element receives the value computed on the last visited element containing it; nothing else is written.", "quantifier": "all bases, meshes, markers, functions", "why_tests_cant": "all markers", "anchors": ["dune/functions/functionspacebases/interpolate.hh:interpolateLocal,interpolate"]}
{"id": "C40", "title": "Derivative stays bound to the same element during interpolation", "statement": "Whenever the derivative of the function is evaluated during interpolation, it is bound to the same element as the function.", "quantifier": "all sequences of bind and derivative requests", "why_tests_cant": "histories", "anchors": ["dune/functions/functionspacebases/interpolate.hh:CachedDerivativeLocalFunction"]}
{"id": "C41", "title": "Discrete functions are linear combinations", "statement": "Evaluating the local function of a discrete global basis function at x gives the sum over the bound subtree's basis functions of coefficient times shape function value; it is linear in the coefficient vector and independent of earlier binds.", "quantifier": "all trees, coefficients, elements, points, bind histories", "why_tests_cant": "histories and continuum", "anchors": ["dune/functions/gridfunctions/discreteglobalbasisfunction.hh:DiscreteGlobalBasisFunctionBase::LocalFunctionBase::bind,LocalFunction::operator()"]}
{"id": "C42", "title": "Type-erased small objects neither leak nor double free", "statement": "Over any history of construction, copy, move, assignment and destruction, each stored object is destroyed exactly once, and a copy holds an equal value.", "quantifier": "all operation histories, objects below and above the buffer size", "why_tests_cant": "histories unbounded", "anchors": ["dune/functions/common/polymorphicsmallobject.hh:PolymorphicSmallObject"]}
{"id": "C43", "title": "GeometryInAncestor maps are inverse", "statement": "After binding to a fine element, local(global(x)) = x, the coarse element is the ancestor reached by following fathers while the predicate holds, and copies report the same fine and coarse elements.", "quantifier": "all refinement histories and predicates", "why_tests_cant": "hierarchy depth unbounded", "anchors": ["dune/functions/common/geometryinancestor.hh:GeometryInAncestor"]}
{"id": "C44", "title": "Reference element distance", "statement": "The computed distance of a point to a reference element is the l1 distance, it is zero exactly for points inside, and checkInside(x,tol) holds exactly if the distance is at most tol.", "quantifier": "all dimensions, all reference element topologies, all points and tolerances >= 0", "why_tests_cant": "continuum, all topologies", "anchors": ["dune/functions/gridfunctions/finefunctiononcoarsegridview.hh:ReferenceElementUtilities::distance,checkInside"]}
{"id": "C45", "title": "Fine function on coarse view descends to a closest descendant", "statement": "Evaluation at a coarse point is performed in a descendant element belonging to the fine set that is reached by choosing at each level the first child of minimal distance; if the children cover the father then the fine local coordinate lies inside the descendant.", "quantifier": "all refinement trees, all points", "why_tests_cant": "depth unbounded", "anchors": ["dune/functions/gridfunctions/finefunctiononcoarsegridview.hh:evaluateInDescendent"]}
{"id": "C46", "title": "Closest face", "statement": "The face normal function uses a face whose distance to the point is minimal among all faces.", "quantifier": "all elements, points", "why_tests_cant": "continuum", "anchors": ["dune/functions/gridfunctions/facenormalgridfunction.hh:closestFaceIndex"]}
{"id": "C47", "title": "Face and edge orientations match between neighbours", "statement": "For H(div) and H(curl) bases and for elements with normal-derivative DOFs, the orientation flags of a shared facet/edge seen from its neighbouring elements agree on one global direction, and the resulting variant number is a valid table index that fits its storage type.", "quantifier": "all meshes, all index assignments, all element types", "why_tests_cant": "meshes unbounded", "anchors": ["dune/functions/functionspacebases/raviartthomasbasis.hh:RaviartThomasLocalFiniteElementMap::update", "dune/functions/functionspacebases/nedelecbasis.hh", "dune/functions/functionspacebases/brezzidouglasmarinibasis.hh", "dune/functions/common/mapperutilities.hh:computeEdgeOrientations"]}
{"id": "C48", "title": "H(div) DOF layout counts", "statement": "The number of DOFs reserved per sub-entity by the Raviart-Thomas and BDM layouts adds up, over each element, to the dimension of the respective local space, so that dimension() counts actual basis functions.", "quantifier": "all admissible orders and element types", "why_tests_cant": "order 2 BDM tests are disabled", "anchors": ["dune/functions/functionspacebases/raviartthomasbasis.hh:dofLayout", "dune/functions/functionspacebases/brezzidouglasmarinibasis.hh:dofLayout"]}
{"id": "C49", "title": "Cubic Hermite basis is dual to its functionals", "statement": "On every affine non-degenerate simplex and for all positive mesh sizes, the cubic Hermite basis functions are dual to the DOF functionals used by interpolation.", "quantifier": "all affine simplices in 1d, 2d (full and reduced) and 3d, all mesh sizes", "why_tests_cant": "continuum of elements", "anchors": ["dune/functions/functionspacebases/cubichermitebasis.hh"]}
{"id": "C50", "title": "Morley basis is dual to its functionals", "statement": "On every non-degenerate triangle and for every edge orientation, the Morley basis functions are dual to the DOF functionals used by interpolation.", "quantifier": "all triangles and orientations", "why_tests_cant": "continuum of elements", "anchors": ["dune/functions/functionspacebases/morleybasis.hh"]}
{"id": "C51", "title": "Argyris basis is dual to its functionals", "statement": "On every non-degenerate triangle, for all positive mesh sizes and edge orientations, the Argyris basis functions are dual to the DOF functionals used by interpolation.", "quantifier": "all triangles, mesh sizes and orientations", "why_tests_cant": "continuum of elements", "anchors": ["dune/functions/functionspacebases/argyrisbasis.hh"]}
{"id": "C52", "title": "Piola transforms", "statement": "The inverse transform applied for interpolation inverts the value transform; the contravariant transform preserves normal fluxes and the covariant transform preserves tangential components; transformed Jacobians are the transform of the reference Jacobians.", "quantifier": "all invertible Jacobians, all vectors", "why_tests_cant": "continuum", "anchors": ["dune/functions/functionspacebases/globalvaluedlocalfiniteelement.hh:ContravariantPiolaTransformator,CovariantPiolaTransformator"]}
{"id": "C53", "title": "update(gridView) equals fresh construction", "statement": "After the grid changed, basis.update(gridView) leaves the basis in the state of a basis newly constructed on that grid view.", "quantifier": "all grid changes and update histories", "why_tests_cant": "histories unbounded", "anchors": ["dune/functions/functionspacebases/leafprebasismappermixin.hh:update", "dune/functions/functionspacebases/morleybasis.hh:update", "dune/functions/functionspacebases/argyrisbasis.hh:update", "dune/functions/functionspacebases/cubichermitebasis.hh:update", "dune/functions/functionspacebases/taylorhoodbasis.hh:update"]}
{"id": "C54", "title": "Local functions follow their binding", "statement": "Composed and analytic grid functions evaluate at the geometry of the element most recently bound; bound() tells whether a context is present and derivatives obtained from a bound local function are bound to the same element.", "quantifier": "all bind/unbind histories", "why_tests_cant": "histories", "anchors": ["dune/functions/gridfunctions/composedgridfunction.hh", "dune/functions/gridfunctions/analyticgridviewfunction.hh", "dune/functions/gridfunctions/discreteglobalbasisfunction.hh:derivative"]}
{"id": "C55", "title": "Trigonometric function derivative", "statement": "TrigonometricFunction(a,b) evaluates to a sin x + b cos x and its derivative object evaluates to the derivative, to any order.", "quantifier": "all coefficients and points", "why_tests_cant": "continuum", "anchors": ["dune/functions/analyticfunctions/trigonometricfunction.hh"]}
{"id": "C56", "title": "Average mesh size", "statement": "The average mesh size at a sub-entity is the dim-th root of the average volume of exactly the elements containing it, is positive if volumes are positive, and does not depend on the element traversal order.", "quantifier": "all meshes, traversal orders", "why_tests_cant": "meshes unbounded", "anchors": ["dune/functions/common/mapperutilities.hh:computeAverageSubEntityMeshSize"]}
{"id": "C57", "title": "Refined and hierarchical Lagrange layouts", "statement": "On simplices of every dimension the DOF layouts of the refined P0/P1, hierarchical P1/P2 and bubble-enriched bases distribute exactly as many DOFs over the sub-entities as the local space has dimensions.", "quantifier": "all dimensions d>=1 (bubble on P2: d>=2)", "why_tests_cant": "tests build the bases on one or two grids of dimension 1 to 3; the count is a binomial identity in the dimension", "anchors": ["dune/functions/functionspacebases/refinedlagrangebasis.hh:55-70", "dune/functions/functionspacebases/hierarchicallagrangebasis.hh:47-78", "dune/functions/functionspacebases/hierarchicallagrangewithelementbubblebasis.hh:44-76"]}
{"id": "C58", "title": "Rannacher-Turek / Crouzeix-Raviart indices", "statement": "On every grid accepted by the constructor different facets get different indices, every index below dimension() is used, and no element has more than maxNodeSize() local functions.", "quantifier": "all grids consisting of simplices and cubes, all dimensions up to 3", "why_tests_cant": "tests use grids with a single facet type; the index set numbers facets of different geometry types separately", "anchors": ["dune/functions/functionspacebases/rannacherturekbasis.hh:73-129"]}
{"id": "C59", "title": "B-spline smoothness across knots", "statement": "At a knot of multiplicity m the values handed out by the two neighbouring elements for the same B-spline of order p agree if m <= p, the first derivatives agree if m <= p-1 and the second derivatives if m <= p-2.", "quantifier": "all orders, non-decreasing knot vectors, neighbouring elements and functions", "why_tests_cant": "knot vectors and orders are unbounded; continuity on one grid says nothing about another", "anchors": ["dune/functions/functionspacebases/bsplinebasis.hh:evaluateFunction,evaluateAll"]}
{"id": "C60", "title": "Numbering of Hermite, Morley and Argyris bases", "statement": "The indices of the global basis are consecutive from 0 to dimension()-1, every element gets as many different indices as its finite element has functions, and two local functions share an index if and only if they belong to the same grid entity and have the same number there. dimension() is (dim+1) per vertex plus one per triangle (Hermite, not reduced), one per vertex and edge (Morley), six per vertex and one per edge (Argyris).", "quantifier": "all conforming simplex grids in all supported dimensions, all pairs of elements", "why_tests_cant": "tests run on a few small grids; a mismatch between the local keys and the mapper layout only collides on some of them", "anchors": ["dune/functions/functionspacebases/cubichermitebasis.hh:CubicHermiteLocalCoefficients", "dune/functions/functionspacebases/morleybasis.hh:MorleyLocalCoefficients", "dune/functions/functionspacebases/argyrisbasis.hh:ArgyrisLocalCoefficients"]}
{"id": "C61", "title": "Conformity of Argyris and Morley functions", "statement": "A discrete function with arbitrary coefficients in the Argyris space has the same value and the same global derivative on both sides of every edge, so it is continuously differentiable. In the Morley space the values of all elements agree at a common vertex and the normal derivatives of the two neighbours agree at the midpoint of a common edge, whatever elements the local views were bound to before.", "quantifier": "all conforming grids of non-degenerate triangles, all vertex numberings and ids, all coefficient vectors, all points of the edge", "why_tests_cant": "continuity across an edge depends on the combination of orientations, vertex numberings and shapes of both triangles; tests sample a few of them at a few points", "anchors": ["dune/functions/functionspacebases/argyrisbasis.hh:bind,transform", "dune/functions/functionspacebases/morleybasis.hh:bind,transform", "dune/functions/common/mapperutilities.hh:computeEdgeOrientations,computeAverageSubEntityMeshSize"]}
{"id": "C62", "title": "Conformity of Hermite functions", "statement": "A discrete function with arbitrary coefficients in the cubic Hermite space (dimension 1, 2 full or reduced, 3) has the same value and the same global derivative on all elements at a common vertex and the same value at every point of a common facet.", "quantifier": "all conforming grids of non-degenerate affine simplices, all vertex numberings, all coefficient vectors, all points of the facet", "why_tests_cant": "the coefficients are scaled by mesh sizes and Jacobians of each element; agreement on sample grids says nothing about other shapes", "anchors": ["dune/functions/functionspacebases/cubichermitebasis.hh:bind,transform,CubicHermiteReferenceLocalBasis"]}
{"id": "C63", "title": "Interpolating a discrete function returns its coefficients", "statement": "If f is the discrete global basis function with coefficient vector v, then interpolate(basis, coeff, f) makes coeff equal to v in every degree of freedom; with a bit vector or a subspace basis exactly the marked coefficients of the subspace take the value they have in v and all others keep the value they had after resizing.", "quantifier": "all basis trees and subspaces with finite elements whose functionals are dual to their shape functions, all coefficient vectors v, all previous contents of coeff, all bit vectors, all element sequences", "why_tests_cant": "depends on the numbering, the scatter of components into the range and the writes of several elements to shared coefficients; tests try a few bases on a few grids", "anchors": ["dune/functions/functionspacebases/interpolate.hh:interpolate,interpolateLocal", "dune/functions/gridfunctions/discreteglobalbasisfunction.hh:LocalFunction"]}
{"id": "C64", "title": "Interpolation in Hermite, Morley and Argyris spaces", "statement": "interpolate(basis, coeff, F) for a function F of global coordinates with its derivatives gives the same coefficients for every order in which the elements are traversed, every history of the local view and every previous content of coeff, and changes no other entry. The discrete function with these coefficients takes on every element the values (Hermite, Argyris: also the derivatives) of F in the vertices and the normal derivatives of F (Morley, Argyris) in the midpoints of the edges. Polynomials up to degree 3 (Hermite; reduced: 2), 2 (Morley), 5 (Argyris) are reproduced everywhere together with their derivatives, and a discrete function of the Hermite or Morley space is mapped to itself.", "quantifier": "all conforming grids of non-degenerate affine simplices, all vertex numberings and ids, all functions with derivatives, all traversals that visit every element, all previous coefficient vectors", "why_tests_cant": "elements write to shared coefficients with their own geometry, orientation and mesh sizes; a disagreement shows only for some combination of neighbouring elements and traversal order", "anchors": ["dune/functions/functionspacebases/interpolate.hh:interpolate,interpolateLocal", "dune/functions/functionspacebases/cubichermitebasis.hh:interpolate", "dune/functions/functionspacebases/morleybasis.hh:interpolate", "dune/functions/functionspacebases/argyrisbasis.hh:interpolate"]}
{"id": "C65", "title": "Functional descriptors describe the degrees of freedom", "statement": "functionalDescriptor(i) of the Hermite, Morley and Argyris interpolations tells which derivative degree of freedom i evaluates: a partial derivative of exactly the given orders in the centre of the sub-entity of the local key, scaled with a power of the mesh size, or a derivative of the given order in the direction of a unit normal of the edge.", "quantifier": "all functions with derivatives, all triangles, orientations, mesh sizes and histories of binding", "why_tests_cant": "no test uses the descriptors; the tables are far away from the code that evaluates the functionals and constructor overloads can change their meaning", "anchors": ["dune/functions/functionspacebases/functionaldescriptor.hh:FunctionalDescriptor", "dune/functions/functionspacebases/cubichermitebasis.hh:CubicHermiteLocalInterpolation", "dune/functions/functionspacebases/morleybasis.hh:MorleyLocalInterpolation", "dune/functions/functionspacebases/argyrisbasis.hh:ArgyrisLocalInterpolation"]}
{"id": "C66", "title": "Copies of local finite elements", "statement": "A copy of a bound Hermite, Morley, Argyris or B-spline local finite element, made by copy construction or assignment, has the shape functions and the interpolation of the element the original was bound to, and keeps them when the original or other copies are bound to other elements or destroyed; binding a copy does not change the original.", "quantifier": "all interleavings of construction, copy construction, copy assignment, bind and destruction of any number of objects, all elements", "why_tests_cant": "the objects contain pointers to their own members; what a stale pointer reads depends on what happened to other objects later, and tests use the element owned by the node", "anchors": ["dune/functions/functionspacebases/transformedfiniteelementmixin.hh:TransformedFiniteElementMixin", "dune/functions/functionspacebases/cubichermitebasis.hh:CubicHermiteLocalFiniteElement", "dune/functions/functionspacebases/argyrisbasis.hh:ArgyrisLocalFiniteElement", "dune/functions/functionspacebases/morleybasis.hh:MorleyLocalFiniteElement", "dune/functions/functionspacebases/bsplinebasis.hh:BSplineLocalFiniteElement"]}
{"id": "C67", "title": "Normal continuity of Raviart-Thomas functions", "statement": "On a conforming grid the function defined by any coefficient vector of a Raviart-Thomas basis of order 0 has a continuous normal component: evaluated from the two sides of a common facet, the values have the same component in every direction orthogonal to the facet.", "quantifier": "all conforming grids, vertex numberings, iteration orders of intersections, coefficient vectors, facets and points on them", "why_tests_cant": "the result depends on the numbers of the elements, the local numbers of the facets and the orientation of each element; tests check finitely many structured grids in a few points", "anchors": ["dune/functions/functionspacebases/raviartthomasbasis.hh:RaviartThomasNode", "dune/functions/functionspacebases/raviartthomasbasis.hh:RaviartThomasPreBasis", "dune/functions/functionspacebases/globalvaluedlocalfiniteelement.hh:ContravariantPiolaTransformator"]}
{"id": "C68", "title": "Tangential continuity of Nedelec functions", "statement": "The component of a function in a Nedelec basis (first kind, order 1) along an edge, directed from the vertex with the smaller index to the one with the larger index, is the coefficient of the edge, seen from every element with this edge. On a conforming grid the tangential components on the common face of two elements agree in every point and every direction of the face.", "quantifier": "all conforming grids of simplices and cubes, vertex numberings, coefficient vectors, edges, common faces and points on them", "why_tests_cant": "signs depend on the local and global numbers of the vertices of each edge, for which tests use a few structured grids", "anchors": ["dune/functions/functionspacebases/nedelecbasis.hh:Nedelec1stKindLocalFiniteElementMap", "dune/functions/functionspacebases/nedelecbasis.hh:NedelecPreBasis", "dune/functions/functionspacebases/nedelecbasis.hh:NedelecNode", "dune/functions/functionspacebases/globalvaluedlocalfiniteelement.hh:CovariantPiolaTransformator"]}
{"id": "C69", "title": "Continuity of Lagrange functions", "statement": "A coefficient vector of a Lagrange basis of order k >= 1 defines a continuous function: on conforming grids of simplices, cubes and prisms, also mixed ones, the values of the function on two elements agree in every point of a common vertex, edge or face.", "quantifier": "all conforming grids of simplices, cubes and prisms in dimensions 1 to 3, all orders (up to 17 in 3d), vertex numberings, coefficient vectors, pairs of elements, common faces and points on them", "why_tests_cant": "the relative orientation of common faces and the order multiply; tests check jumps for a few orders, grids and random coefficients", "anchors": ["dune/functions/functionspacebases/lagrangebasis.hh:LagrangePreBasis::indices", "dune/functions/functionspacebases/lagrangebasis.hh:LagrangeNode", "dune/functions/gridfunctions/discreteglobalbasisfunction.hh:DiscreteGlobalBasisFunction"]}
{"id": "C70", "title": "Type-erased functions behave like the functions they wrap", "statement": "A DifferentiableFunction, LocalFunction or GridFunction holds a copy of the function it was created from. After any sequence of wrapping, copying, moving, assigning, destroying, binding, unbinding, calling and differentiating, it answers every call as the wrapped function itself would after the same operations, whether the function is stored in the buffer or on the heap; operations on other wrappers do not matter, and derivative() of a wrapped function that has none throws NotImplemented.", "quantifier": "all functions and types of any size and alignment, all sequences of operations on any number of wrappers", "why_tests_cant": "wrappers change their storage with the size of the function and with the history of copies, moves and assignments; tests try a few functions and no histories", "anchors": ["dune/functions/common/typeerasure.hh:TypeErasureBase", "dune/functions/common/differentiablefunction.hh:DifferentiableFunction", "dune/functions/common/localfunction.hh:LocalFunction", "dune/functions/gridfunctions/gridfunction.hh:GridFunction"]}
{"id": "C71", "title": "Differentiable functions from callables", "statement": "makeDifferentiableFunctionFromCallables(tag, f0, ..., fn) has the values of f0, its k-th derivative the values of fk, and the derivative after the last one throws NotImplemented, also after the function objects it was made from have changed or have been destroyed.", "quantifier": "all callables, numbers of derivatives, sequences of creating, copying, differentiating, evaluating and destroying", "why_tests_cant": "whether callables are stored by value or by reference shows only in programs that change or destroy the originals", "anchors": ["dune/functions/common/differentiablefunctionfromcallables.hh:DifferentiableFunctionFromCallables", "dune/functions/common/differentiablefunctionfromcallables.hh:makeDifferentiableFunctionFromCallables"]}
{"id": "C72", "title": "Local functions and the lifetime of their grid function", "statement": "A local function obtained from a grid function, a copy of it and its derivative can be bound and evaluated at any later time, with the values of the grid function, no matter which copies of the grid function are made, moved or destroyed.", "quantifier": "all nestings of analytic, face normal, discrete, composed, coarse-on-fine and fine-on-coarse functions, also by std::ref, all programs, elements and points", "why_tests_cant": "a dangling reference often reads the right value; tests keep all functions in variables until the end", "anchors": ["dune/functions/gridfunctions/composedgridfunction.hh:ComposedGridFunction", "dune/functions/gridfunctions/coarsefunctiononfinegridview.hh:CoarseFunctionOnFineGridView", "dune/functions/gridfunctions/finefunctiononcoarsegridview.hh:FineFunctionOnCoarseGridView", "dune/functions/gridfunctions/analyticgridviewfunction.hh:AnalyticGridViewFunction", "dune/functions/gridfunctions/discreteglobalbasisfunction.hh:DiscreteGlobalBasisFunction"]}
{"id": "C73", "title": "Nodes of local views, and tree objects in Python", "statement": "A leaf node of a local view bound to an element e returns e as its element and has the finite element for e, whatever was done with other local views before: creating, copying, assigning, binding and destroying them. In Python, the object localView.tree() and the nodes obtained from it always show the current state of the local view.", "quantifier": "all trees of bases, all programs that create, copy, assign, bind, unbind and destroy local views and fetch trees and children", "why_tests_cant": "nodes hold pointers into local views; which pointers survive copies and assignments depends on the whole history, and dangling pointers often read the right value", "anchors": ["dune/functions/functionspacebases/defaultlocalview.hh:DefaultLocalView", "dune/functions/functionspacebases/nodes.hh:LeafBasisNode", "dune/python/functions/tree.hh:registerTree", "dune/python/functions/globalbasis.hh:LocalViewWrapper"]}
{"id": "C74", "title": "Interpolation and discrete functions in Python", "statement": "basis.interpolate(x, f) either raises an exception and leaves all arrays unchanged, or fills the array x of the caller with the interpolation coefficients (and changes no other array), which basis.asFunction(x) then uses; interpolating basis.asFunction(y) into x makes x equal to y.", "quantifier": "all bases, arrays (entry type, shape, writeability), functions and grids", "why_tests_cant": "the behaviour depends on entry types and on the nesting of the basis; the tests use float64 arrays and flat bases", "anchors": ["dune/python/functions/interpolate.hh:interpolate", "dune/python/functions/globalbasis.hh:registerBasisType", "dune/python/functions/hierarchicvectorwrapper.hh:HierarchicVectorWrapper", "dune/functions/common/indexaccess.hh:hybridMultiIndexAccess"]}
{"id": "C75", "title": "Transformed indices", "statement": "For a basis wrapped by transformIndices(preBasis, transformation) with a consistent transformation (injective on the multi-indices of the wrapped basis, lengths within the given bounds, and a size callback that describes the transformed multi-indices), every element has the transformed multi-indices of the wrapped basis in the same order, size(prefix) is the callback, dimension() is the number of multi-indices, and all index properties (digits, uniqueness, completeness, prefixes, lengths, nesting in other bases) hold. Moving the first digit to the end turns a blockwise lexicographic power basis into the blockwise interleaved one.", "quantifier": "all bases, also nested and already transformed ones, all consistent transformations, all elements and prefixes", "why_tests_cant": "transformations are user callbacks on in-place buffers of fixed capacity; no test uses transformIndices at all", "anchors": ["dune/functions/functionspacebases/transformedindexbasis.hh:TransformedIndexPreBasis", "dune/functions/functionspacebases/transformedindexbasis.hh:GenericIndexingTransformation"]}
{"id": "C76", "title": "Hierarchic map from nodes to entries of ranges", "statement": "If the range type of a function is nested like the tree of the basis, the default map from nodes to entries of the range gives every scalar entry of the range to exactly one leaf of the tree. Hence all entries of a discrete function are linear combinations of the shape functions of their leaf, and interpolating a discrete function into its own basis gives back its coefficients.", "quantifier": "all bases and subspaces, all range types nested like the tree (arrays and tuples, any entries for leaves; ranges without index access for single leaves), all elements, histories and coefficients", "why_tests_cant": "the number of trees and range types is unbounded; a collision of entries shows up only in combination with the order of the leaves", "anchors": ["dune/functions/functionspacebases/hierarchicnodetorangemap.hh:HierarchicNodeToRangeMap", "dune/functions/gridfunctions/discreteglobalbasisfunction.hh:DiscreteGlobalBasisFunction", "dune/functions/functionspacebases/interpolate.hh:interpolate"]}
{"id": "C77", "title": "Assignments to wrapped vectors", "statement": "istlVectorBackend(x) = v keeps all sizes of the nested container x and sets all numbers in it to v; after resize(basis) this is the coefficient of every multi-index. For values of other types the first nested entries that are assignable from the value are assigned, as documented. Assigning a backend b to a backend a copies the entries of the vector of b to the vector of a; later writes through a change this vector.", "quantifier": "all nested container types and contents, all levels at which the container libraries support assignment, all programs with backends", "why_tests_cant": "which level is assigned depends on the type traits of each nested container; the assignment operator that overload resolution selects for two backends depends on their types", "anchors": ["dune/functions/backends/istlvectorbackend.hh:ISTLVectorBackend", "dune/functions/backends/istlvectorbackend.hh:recursiveAssign"]}
{"id": "C78", "title": "B-splines are a basis and reproduce polynomials", "statement": "The functions of a B-spline basis are linearly independent: two coefficient vectors that give the same discrete function on one element agree for all functions of the local view of this element, and two that give the same discrete function on all elements are equal. With open knot vectors (makeOpen) every polynomial of degree at most order[k] in direction k is a discrete function, with one coefficient vector for all elements.", "quantifier": "all orders, numbers of directions, knot vectors with repeated knots (different knots separated by the thresholds of the code), elements, points, coefficient vectors and polynomials", "why_tests_cant": "tests check values in some points for some orders and knot vectors; linear independence and reproduction of polynomials are statements about all coefficients, all elements and all points", "anchors": ["dune/functions/functionspacebases/bsplinebasis.hh:BSplinePreBasis::evaluateFunction", "dune/functions/functionspacebases/bsplinebasis.hh:BSplinePreBasis::indices", "dune/functions/functionspacebases/bsplinebasis.hh:BSplinePreBasis::BSplinePreBasis"]}
{"id": "C79", "title": "Lagrange coefficients are values in Lagrange points", "statement": "Every coefficient of a Lagrange basis is the value of the discrete function in one point, the Lagrange point of its basis function, seen from any element that contains the point. Hence different coefficient vectors give different functions. interpolate(basis, x, f) stores the values of f in the Lagrange points; the result does not depend on the order of the elements and on previous contents, the discrete function agrees with f in all Lagrange points, and entries that do not belong to the basis are unchanged.", "quantifier": "all conforming grids of simplices, cubes and prisms, all orders accepted by the basis, all coefficient vectors, functions and orders of elements", "why_tests_cant": "the point of a global index depends on the orientation of edges and faces in every element that shares it; tests run a few grids and orders", "anchors": ["dune/functions/functionspacebases/lagrangebasis.hh:LagrangePreBasis::indices", "dune/functions/functionspacebases/lagrangebasis.hh:LagrangeFaceDOFPermutation::permuteFaceDOF", "dune/functions/functionspacebases/interpolate.hh:interpolate"]}
{"id": "C80", "title": "Boundary degrees of freedom determine the boundary values", "statement": "For a Lagrange basis, forEachBoundaryDOF visits exactly the indices whose Lagrange points lie on the boundary, also in elements that touch the boundary only in a vertex or edge. Two coefficient vectors agree in the visited indices if and only if the discrete functions agree in all points of the boundary.", "quantifier": "all conforming grids of simplices, cubes and prisms, all orders accepted by the basis, all sets of boundary intersections, coefficient vectors and boundary points", "why_tests_cant": "it concerns all boundary points and all coefficients, and elements without boundary intersections, which the loop never binds", "anchors": ["dune/functions/functionspacebases/boundarydofs.hh:forEachBoundaryDOF", "dune/functions/functionspacebases/subentitydofs.hh:SubEntityDOFs::bind", "dune/functions/functionspacebases/lagrangebasis.hh:LagrangePreBasis::indices"]}
{"id": "C81", "title": "Lifetimes of bases, subspace bases, vectors, local views and discrete functions", "statement": "Every object refers to a fixed set of other objects, determined when it is created: a subspace basis to the root basis (never to another subspace basis), a local view to its basis and the root of that, a backend to its vector, a discrete function to arguments passed as lvalues and not to rvalues, a local function to what the function refers to but not to the function. Programs that destroy or move objects only when no existing object refers to them never use a dangling pointer; in particular programs whose objects are variables in nested scopes. A local view or local function that exists shows, after bind, what a new one would show for the present state of the basis and the present coefficients, however often the basis was updated in between. A function that owns basis and coefficients keeps its values whatever happens to other objects.", "quantifier": "all programs that create, copy, move, destroy, update and use any number of bases, subspace bases, vectors, backends, local views, functions and local functions in any order; all pre-bases of the library", "why_tests_cant": "dangling pointers are not observable reliably, and which of the many orders of destruction, moves and updates are allowed is a statement about all programs", "anchors": ["dune/functions/functionspacebases/subspacebasis.hh:SubspaceBasis", "dune/functions/functionspacebases/subspacelocalview.hh:SubspaceLocalView", "dune/functions/functionspacebases/defaultlocalview.hh:DefaultLocalView", "dune/functions/functionspacebases/defaultglobalbasis.hh:DefaultGlobalBasis", "dune/functions/gridfunctions/discreteglobalbasisfunction.hh:makeDiscreteGlobalBasisFunction", "dune/functions/backends/istlvectorbackend.hh:ISTLVectorBackend"]}
{"id": "C82", "title": "Bases described in Python", "statement": "A description built from Lagrange, Nedelec, RaviartThomas, Composite, Power, * and ** is turned into the name of exactly one C++ pre-basis type, the one with the classes, children, exponents, orders and merging strategies that were asked for; two different descriptions for the same grid view type never share a module. The resulting basis is the composite or power basis of the bases of the children with the strategy given by blocked and layout. Products written with *, ** and plain Composite and Power can be regrouped: for every grouping of the same factors dimension, size and all indices on all elements are the same, the functions of the factors being numbered one after the other. The range dimension of functions is the number of components of all factors.", "quantifier": "all descriptions of any depth and width, all orders, exponents and keyword arguments, all leaf bases and elements", "why_tests_cant": "descriptions form an infinite family of trees, and a collision of module names or a wrong strategy shows up only for particular pairs of trees", "anchors": ["python/dune/functions/tree.py:Tree", "python/dune/functions/globalbasis.py:preBasisTypeName", "python/dune/functions/globalbasis.py:indexMergingStrategy", "python/dune/functions/__init__.py:load", "dune/python/functions/globalbasis.hh:nodeRangeDim"]}
{"id": "C83", "title": "Lifetimes of Python objects", "statement": "A program in Python that creates grids, grid views, bases, subspace bases, local views, functions and vectors, binds local views, and deletes or overwrites variables in any order never uses a C++ object that has been destroyed: as long as an object is reachable from a variable, everything its C++ part points to exists. When the last variable is gone all objects are destroyed.", "quantifier": "all programs of any length with any variables, all orders in which Python destroys objects without references", "why_tests_cant": "a missing keep_alive shows up only if a particular object is collected before another one and its memory is reused", "anchors": ["dune/python/functions/globalbasis.hh:registerBasisType", "dune/python/functions/globalbasis.hh:LocalViewWrapper", "dune/python/functions/subspacebasis.hh:registerSubspaceBasis", "dune/python/functions/discretefunction.hh:registerDiscreteFunction"]}
{"id": "C84", "title": "Lagrange functions are the continuous piecewise polynomials", "statement": "The Lagrange basis of order k spans exactly the functions that are continuous and on each element a polynomial of degree k (total degree on simplices, degree in each coordinate on quadrilaterals and hexahedra, their products on prisms). The space of order k is contained in that of every higher order. interpolate maps each function of the space to itself, so a discrete function gets its own coefficients, and reproduces every polynomial of total degree k in global coordinates exactly in all points, also on elements that are not affine, for every order of the elements and every previous content of the vector.", "quantifier": "all conforming grids of simplices, cubes and prisms, also mixed, all orders accepted by the basis, all functions, vertex positions, traversals and previous coefficient vectors", "why_tests_cant": "a single basis function attached to a wrong neighbour or a missing point changes the space only for particular orders and orientations; tests interpolate a few functions", "anchors": ["dune/functions/functionspacebases/lagrangebasis.hh:LagrangePreBasis::indices", "dune/functions/functionspacebases/lagrangebasis.hh:LagrangeNode", "dune/functions/functionspacebases/interpolate.hh:interpolate", "dune/functions/gridfunctions/discreteglobalbasisfunction.hh:DiscreteGlobalBasisFunction"]}
{"id": "C85", "title": "Discontinuous Lagrange functions are the piecewise polynomials", "statement": "LagrangeDGBasis of order k spans exactly the functions that on each element are a polynomial of degree k, with no condition between elements, and the coefficients of such a function are unique. The coefficients of an element are the values in the Lagrange points of that element. interpolate maps each such function to itself and writes only coefficients of visited elements, computed from the function on the same element. Each function of the continuous basis is one of the discontinuous basis, and a function of the discontinuous basis is one of the continuous basis exactly if it is continuous.", "quantifier": "all grids of simplices, cubes and prisms, also mixed, all orders at least 1, all functions, coefficient vectors, traversals", "why_tests_cant": "an overlap of the index blocks of two elements appears only for particular mixtures of element types and orders; tests interpolate few functions, mostly continuous ones", "anchors": ["dune/functions/functionspacebases/lagrangedgbasis.hh:LagrangeDGPreBasis::indices", "dune/functions/functionspacebases/lagrangedgbasis.hh:LagrangeDGPreBasis::dofLayout", "dune/functions/functionspacebases/interpolate.hh:interpolate", "dune/functions/gridfunctions/discreteglobalbasisfunction.hh:DiscreteGlobalBasisFunction"]}
{"id": "C86", "title": "Bases on subdomains", "statement": "The grid view of a subdomain, after any history of insertions, is a complete grid view: every basis can be created on it and has all properties it has on an ordinary grid. Its indices are a renumbering of the indices of the basis on the whole grid that occur on elements of the subdomain, its dimension is their number, and the functions of the Lagrange basis on the subdomain are exactly the restrictions of the functions on the whole grid. A Lagrange basis restricted to the subdomain can be used in any basis tree. Elements inserted after the creation of a basis do not change the indices on the old elements; for the new ones the basis has to be updated.", "quantifier": "all grids, all insertion histories, all layouts and orders, all coefficient vectors", "why_tests_cant": "all subsets of elements of mixed grids in all insertion orders; the index set numbers types in order of their first appearance", "anchors": ["dune/functions/common/subdomain.hh:SubDomainGridView", "dune/functions/common/subdomain.hh:SubDomainIndexSet", "dune/functions/functionspacebases/restrictedbasis.hh:RestrictedPreBasis"]}
{"id": "C87", "title": "Space of Raviart-Thomas functions", "statement": "On a conforming grid of triangles or tetrahedra, the functions of the Raviart-Thomas basis of order 0 are exactly the vector fields that have the form p + q y on each element and whose normal components are continuous across facets; in particular, all constant fields are functions of the basis. The coefficients of a function are unique. Two functions have the same normal component on a facet if and only if their coefficients of the facet agree, so coefficients of boundary facets prescribe exactly the normal components on the boundary. The divergence of the function on an element is given by the sum of the fluxes through the facets.", "quantifier": "all conforming grids of affine triangles or tetrahedra in any numbering and orientation, all coefficient vectors, all vector fields", "why_tests_cant": "needs every field of the space on every grid with every assignment of orientations; tests check normal continuity of basis functions in sample points", "anchors": ["dune/functions/functionspacebases/raviartthomasbasis.hh:RaviartThomasNode", "dune/functions/functionspacebases/globalvaluedlocalfiniteelement.hh:ContravariantPiolaTransformator", "dune/functions/gridfunctions/discreteglobalbasisfunction.hh:DiscreteGlobalBasisFunction"]}
{"id": "C88", "title": "Space of Nedelec functions", "statement": "On a conforming grid of triangles or tetrahedra, the functions of the Nedelec basis of order 1 are exactly the vector fields that have the form p + A y with an antisymmetric matrix A on each element and whose tangential components are continuous on common faces. The coefficients of a function are unique. Two functions have the same tangential components on a face of an element if and only if their coefficients of the edges of the face agree. Gradients of continuous, piecewise affine functions are functions of the basis, with the differences of the vertex values as coefficients, and on tetrahedra the rotations of functions of the basis are functions of the Raviart-Thomas basis of order 0.", "quantifier": "all conforming grids of affine triangles or tetrahedra in any numbering, all coefficient vectors, all vector fields, all vertex values", "why_tests_cant": "needs every field of the space on every grid with every orientation of edges and facets, and the interplay of two bases with different orientation conventions; tests check tangential continuity of basis functions in sample points", "anchors": ["dune/functions/functionspacebases/nedelecbasis.hh:NedelecNode", "dune/functions/functionspacebases/raviartthomasbasis.hh:RaviartThomasNode", "dune/functions/functionspacebases/globalvaluedlocalfiniteelement.hh:CovariantPiolaTransformator", "dune/functions/gridfunctions/discreteglobalbasisfunction.hh:DiscreteGlobalBasisFunction"]}
{"id": "C89", "title": "Spaces of Hermite, Morley and Argyris functions", "statement": "The functions of the Morley basis are exactly the piecewise quadratic polynomials that are continuous in vertices and have continuous normal derivatives in midpoints of edges. The functions of the Argyris basis are exactly the continuously differentiable, piecewise quintic polynomials with continuous second derivatives in vertices. The functions of the Hermite basis are exactly the continuous, piecewise cubic polynomials with continuous gradients in vertices; those of the reduced basis satisfy in addition the condition on the value in the centre of each triangle. In each case the coefficients of a function are unique.", "quantifier": "all conforming grids of affine simplices (triangles for Morley, Argyris and reduced Hermite; dimensions 1 to 3 for Hermite) in any numbering, all piecewise functions, all coefficient vectors", "why_tests_cant": "needs every function of an infinite-dimensional class on every grid; a space that is too small passes continuity tests, and one that is too large passes interpolation tests", "anchors": ["dune/functions/functionspacebases/morleybasis.hh:MorleyNode", "dune/functions/functionspacebases/argyrisbasis.hh:ArgyrisNode", "dune/functions/functionspacebases/cubichermitebasis.hh:CubicHermiteNode", "dune/functions/gridfunctions/discreteglobalbasisfunction.hh:DiscreteGlobalBasisFunction"]}
{"id": "C90", "title": "Boundary degrees of freedom of Hermite, Morley, Argyris, Raviart-Thomas and Nedelec bases", "statement": "Two coefficient vectors agree in all degrees of freedom visited by forEachBoundaryDOF if and only if the discrete functions agree on the boundary in the sense of the basis. Hermite: the same values on the boundary facets and the same gradients in their vertices. Morley: the same values in the vertices and the same normal derivatives in the midpoints of boundary edges. Argyris: the same values and gradients on the boundary edges and the same second derivatives in their vertices. Raviart-Thomas of order 0: the same normal components on the boundary facets. Nedelec of order 1: the same tangential components on the boundary facets. In particular, fixing the visited degrees of freedom of a Hermite basis fixes more than boundary values, and fixing those of a Morley basis does not fix boundary values.", "quantifier": "all conforming grids of affine simplices (triangles for Morley and Argyris; dimensions 1 to 3 for Hermite, 2 and 3 for Raviart-Thomas and Nedelec) in any numbering, all sets of boundary intersections, all pairs of coefficient vectors", "why_tests_cant": "an equivalence over all coefficient vectors and all grids; a test of essential boundary conditions sees only one direction for one function", "anchors": ["dune/functions/functionspacebases/boundarydofs.hh:forEachBoundaryDOF", "dune/functions/functionspacebases/subentitydofs.hh:SubEntityDOFs", "dune/functions/functionspacebases/cubichermitebasis.hh:CubicHermitePreBasis", "dune/functions/functionspacebases/morleybasis.hh:MorleyPreBasis", "dune/functions/functionspacebases/argyrisbasis.hh:ArgyrisPreBasis", "dune/functions/functionspacebases/raviartthomasbasis.hh:RaviartThomasPreBasis", "dune/functions/functionspacebases/nedelecbasis.hh:Nedelec1stKindPreBasis"]}
{"id": "C91", "title": "The space of B-spline functions", "statement": "The discrete functions of a B-spline basis are exactly the splines: functions that are, on each element, a polynomial with degree at most order[k] in direction k, and whose derivatives in direction k up to order order[k]-m agree on the common points of elements that are neighbours in direction k, where m is the multiplicity of the knot between them. The coefficients of a spline are unique. For the open knot vectors made by the constructors from pairwise different knots this means: derivatives in direction k of order less than order[k] are continuous.", "quantifier": "all dimensions, all orders (different in each direction), all knot vectors (with knots equal or separated by 1e-8) whose elements are inside of the support of order+1 functions, all families of polynomials on the elements", "why_tests_cant": "a characterization of an infinite space of functions for all knot vectors; that every smooth piecewise polynomial has coefficients cannot be seen by evaluating some of them", "anchors": ["dune/functions/functionspacebases/bsplinebasis.hh:BSplinePreBasis", "dune/functions/functionspacebases/bsplinebasis.hh:BSplineLocalBasis::evaluateFunction", "dune/functions/functionspacebases/bsplinebasis.hh:BSplineLocalFiniteElement::bind"]}
{"id": "C92", "title": "Pre-basis factories are values", "statement": "A pre-basis factory can be stored, copied, nested in other factories and called any number of times and at any time; every call creates the pre-basis that the factory expression described when it was written. Factories of bSpline and restrict only do so while the knot vector is unchanged and the vector and subdomain exist.", "quantifier": "all nested factories, all programs that create, change and destroy knot vectors and subdomains, keep, copy, nest, drop and call factories, and use the bases", "why_tests_cant": "dangling references in captured lambdas usually go unnoticed in a test run; the claim is about all programs and all nestings", "anchors": ["dune/functions/functionspacebases/bsplinebasis.hh:BasisFactory::bSpline", "dune/functions/functionspacebases/restrictedbasis.hh:BasisFactory::restrict", "dune/functions/functionspacebases/powerbasis.hh:BasisFactory::power", "dune/functions/functionspacebases/dynamicpowerbasis.hh:BasisFactory::power", "dune/functions/functionspacebases/compositebasis.hh:BasisFactory::composite", "dune/functions/functionspacebases/transformedindexbasis.hh:transformIndices", "dune/functions/functionspacebases/periodicbasis.hh:BasisFactory::periodic", "dune/functions/functionspacebases/defaultglobalbasis.hh:makeBasis"]}
{"id": "C93", "title": "Functions of hierarchical Lagrange bases", "statement": "The functions of HierarchicalLagrangeBasis and HierarchicalLagrangeWithElementBubbleBasis are exactly the continuous functions that are on every simplex a polynomial of the order of the basis, plus a multiple of the element bubble for the latter; every such function has exactly one coefficient vector, which interpolate() finds. Without bubble these are the functions of the Lagrange basis of the same order.", "quantifier": "all conforming simplex grids of dimension 1, 2, 3, all numberings of vertices, orders 1 and 2, all orders of the local keys that match the layout, all functions and coefficients over any field of characteristic 0 (interpolation: real)", "why_tests_cant": "tests evaluate single functions in single points; that nothing else is in the space and that functions match on all meshes with all vertex numberings needs a proof", "anchors": ["dune/functions/functionspacebases/hierarchicallagrangebasis.hh:HierarchicalLagrangePreBasis", "dune/functions/functionspacebases/hierarchicallagrangewithelementbubblebasis.hh:HierarchicalLagrangeWithElementBubblePreBasis", "dune/functions/functionspacebases/leafprebasismappermixin.hh:LeafPreBasisMapperMixin::indices", "dune/functions/gridfunctions/discreteglobalbasisfunction.hh:LocalFunction::operator()", "dune/functions/functionspacebases/interpolate.hh:interpolate"]}
{"id": "C94", "title": "Functions of Rannacher-Turek and Crouzeix-Raviart bases", "statement": "The functions of RannacherTurekBasis are exactly the functions that are affine on every simplex, affine plus a combination of x_d^2 - x_(d+1)^2 on every cube (in local coordinates), and whose values from both sides agree in the centers of common facets; every such function has exactly one coefficient vector, the values in the centers, which interpolate() finds. Continuous functions of this kind are among them, and on simplices the means over common facets agree.", "quantifier": "all grids of simplices and cubes of dimension 2 and 3, all numberings, all functions and coefficients over any field of characteristic 0 (interpolation and integrals: real)", "why_tests_cant": "tests check the jump in single points of single grids; that nothing else is in the space, on all meshes and mixed element types, needs a proof, and so does the restriction to one type of facets", "anchors": ["dune/functions/functionspacebases/rannacherturekbasis.hh:RannacherTurekPreBasis::indices", "dune/functions/functionspacebases/rannacherturekbasis.hh:RannacherTurekNode::bind", "dune/functions/gridfunctions/discreteglobalbasisfunction.hh:LocalFunction::operator()", "dune/functions/functionspacebases/interpolate.hh:interpolate"]}
{"id": "C95", "title": "Functions of refined Lagrange bases", "statement": "The functions of RefinedLagrangeBasis of order 1 are exactly the continuous functions that are affine on each of the 2^dim simplices into which every element is divided, and those of order 0 exactly the functions that are constant in the interior of these simplices. Every such function has exactly one coefficient vector (for order 1 the values in the vertices and midpoints of edges), which interpolate() finds.", "quantifier": "all simplex grids of dimension 1, 2 and 3, all numberings, all orders of the local keys that match the layout, all functions and coefficients over any ordered field (interpolation: real)", "why_tests_cant": "tests check sampled functions on single grids; continuity across all common faces with the piecewise definition, and that nothing else is in the space, needs a proof", "anchors": ["dune/functions/functionspacebases/refinedlagrangebasis.hh:RefinedLagrangePreBasis::dofLayout", "dune/functions/functionspacebases/refinedlagrangebasis.hh:RefinedLagrangeNode::bind", "dune/functions/gridfunctions/discreteglobalbasisfunction.hh:LocalFunction::operator()", "dune/functions/functionspacebases/interpolate.hh:interpolate"]}
{"id": "C96", "title": "Normal continuity of Brezzi\u2013Douglas\u2013Marini functions", "statement": "The normal components of a function of BrezziDouglasMariniBasis of order 1 on a grid of triangles or of quadrilaterals agree on the two sides of every edge. This holds in a point of a common edge if and only if the two elements have the same orientation (sign of the determinant of the Jacobian), or the coefficient of the second function of the edge is zero, or the point is the center of the edge; for neighbours of different orientation the function is discontinuous.", "quantifier": "all conforming grids of triangles or quadrilaterals with affine or bilinear geometries, all numberings, all coefficient vectors, all points of all common edges, over any ordered field", "why_tests_cant": "the continuity test samples points on two grids whose elements all have the same orientation; that one bit per edge is not enough for mirrored neighbours, and is enough for all others, does not show up there", "anchors": ["dune/functions/functionspacebases/brezzidouglasmarinibasis.hh:BDMLocalFiniteElementMap::update", "dune/functions/functionspacebases/brezzidouglasmarinibasis.hh:BDMLocalFiniteElementMap::find", "dune/functions/functionspacebases/brezzidouglasmarinibasis.hh:BrezziDouglasMariniNode::bind", "dune/functions/functionspacebases/globalvaluedlocalfiniteelement.hh:ContravariantPiolaTransformator::apply"]}
{"id": "C97", "title": "The space of Brezzi\u2013Douglas\u2013Marini functions", "statement": "On a grid of triangles of the same orientation, the functions of BrezziDouglasMariniBasis of order 1 are exactly the vector fields that are affine on each triangle and whose normal components are continuous across all edges; their coefficients are unique. On every grid of triangles, the two coefficients of an edge determine, and are determined by, the normal component on this edge; the divergence on a triangle is the signed sum of the first coefficients of its edges divided by its area. The space contains all functions of RaviartThomasBasis of order 0. On the reference square, the shape functions of each variant span the affine fields and the rotations of x^2 y and x y^2.", "quantifier": "all conforming grids of affine triangles, all numberings of vertices, edges and elements, all coefficient vectors and all families of vector fields, over any ordered field", "why_tests_cant": "tests check sizes, indices and sampled continuity; that no function of the space is missing and that no coefficient is redundant is a statement about all functions and all grids", "anchors": ["dune/functions/functionspacebases/brezzidouglasmarinibasis.hh:BrezziDouglasMariniPreBasis", "dune/functions/functionspacebases/brezzidouglasmarinibasis.hh:BDMLocalFiniteElementMap::find", "dune/functions/functionspacebases/brezzidouglasmarinibasis.hh:BrezziDouglasMariniNode::bind", "dune/functions/functionspacebases/globalvaluedlocalfiniteelement.hh:ContravariantPiolaTransformator::apply"]}
{"id": "C98", "title": "Boundary degrees of freedom of hierarchical, refined, nonconforming and Brezzi\u2013Douglas\u2013Marini bases", "statement": "Two coefficient vectors agree in the degrees of freedom that forEachBoundaryDOF visits if and only if: the discrete functions agree on all boundary facets (hierarchical Lagrange bases with and without element bubbles, refined Lagrange bases of order 1); they agree in the centers of all boundary facets (RannacherTurekBasis, on simplices and cubes); their normal components agree on all boundary edges (BrezziDouglasMariniBasis of order 1 on triangles). For RannacherTurekBasis the values on the rest of the boundary are not determined by these degrees of freedom.", "quantifier": "all conforming grids of the covered element types, all sets of boundary intersections, all coefficient vectors, over any field of characteristic zero (ordered where needed)", "why_tests_cant": "tests count visited degrees of freedom on a few grids; that they are exactly those that carry the boundary values is a statement about all functions and grids", "anchors": ["dune/functions/functionspacebases/boundarydofs.hh:forEachBoundaryDOF", "dune/functions/functionspacebases/subentitydofs.hh:SubEntityDOFs::bind", "dune/functions/functionspacebases/hierarchicallagrangebasis.hh:HierarchicalLagrangePreBasis", "dune/functions/functionspacebases/hierarchicallagrangewithelementbubblebasis.hh:HierarchicalLagrangeWithElementBubblePreBasis", "dune/functions/functionspacebases/refinedlagrangebasis.hh:RefinedLagrangePreBasis", "dune/functions/functionspacebases/rannacherturekbasis.hh:RannacherTurekPreBasis::indices", "dune/functions/functionspacebases/brezzidouglasmarinibasis.hh:BrezziDouglasMariniPreBasis"]}
{"id": "C99", "title": "Functions of composed bases are tuples of functions of their leaf bases", "statement": "For a basis that is composed of leaf bases by power, composite and restrict, the components of a discrete function (and of its derivative) that belong to a leaf are those of a function of the leaf basis whose coefficients are the entries of the coefficient vector at the multi-indices of this leaf. Conversely, any choice of one function for each leaf is a function of the composed basis, and its coefficients are unique if those of the leaf bases are; outside of the subdomain of a restricted basis its components are zero. In particular, bases composed of Lagrange bases span exactly the tuples of continuous piecewise polynomials of the orders of their leaves: for a Taylor-Hood basis of order k these are velocities of order k+1 and pressures of order k.", "quantifier": "all nestings of power, composite and restricted bases, all merging strategies, all leaf index sets, all coefficient vectors and all families of functions; for Lagrange bases all conforming grids of simplices, cubes and prisms and all orders", "why_tests_cant": "tests interpolate and compare single functions for single trees; that no tuple of functions is missing and that components do not influence each other is a statement about all trees, all vectors and all functions", "anchors": ["dune/functions/gridfunctions/discreteglobalbasisfunction.hh:DiscreteGlobalBasisFunction::LocalFunction::operator()", "dune/functions/functionspacebases/powerbasis.hh:PowerPreBasis::indices", "dune/functions/functionspacebases/compositebasis.hh:CompositePreBasis::indices", "dune/functions/functionspacebases/restrictedbasis.hh:RestrictedPreBasis::makeNode", "dune/functions/functionspacebases/taylorhoodbasis.hh:TaylorHoodPreBasis"]}
{"id": "C100", "title": "Boundary degrees of freedom of B-spline bases determine the boundary values", "statement": "For a B-spline basis with open knot vectors, two discrete functions agree on the boundary of the domain if and only if their coefficients agree for all basis functions that are the first or the last one in some coordinate direction, and forEachBoundaryDOF visits exactly these basis functions. Hence prescribing the visited degrees of freedom prescribes exactly the boundary values. (The statement about forEachBoundaryDOF is false of the code in three dimensions, for order zero and for knot vectors that are not open.)", "quantifier": "all orders, knots, numbers of elements and dimensions for the boundary values; dimensions one and two and all orders at least one for the visited degrees of freedom; all coefficient vectors", "why_tests_cant": "tests check single orders and meshes; that no other basis function contributes to the boundary and none of the visited ones vanishes there concerns all orders, knots and coefficient vectors", "anchors": ["dune/functions/functionspacebases/bsplinebasis.hh:BSplineLocalCoefficients::init", "dune/functions/functionspacebases/bsplinebasis.hh:BSplineLocalFiniteElement::bind", "dune/functions/functionspacebases/bsplinebasis.hh:BSplinePreBasis::evaluateFunction", "dune/functions/functionspacebases/boundarydofs.hh:forEachBoundaryDOF", "dune/functions/functionspacebases/subentitydofs.hh:SubEntityDOFs::bind"]}
{"id": "C101", "title": "Functions of bases with periodic or transformed indices", "statement": "A basis with transformed indices has exactly the functions of the wrapped basis (values and derivatives); only the numbering of the coefficients changes. A periodic basis has exactly those functions of the wrapped basis whose coefficients agree in each pair of unified indices. If for a Lagrange basis the indices of opposite Lagrange points of identified faces are unified, then the functions of the periodic basis are exactly the continuous, piecewise polynomial functions that have the same values in all identified points of the faces, and their coefficients are unique. (The statements about periodic bases are false of the code if the unified pairs are not closed under transitivity.)", "quantifier": "all basis trees and consistent transformations; all flat bases and closed lists of pairs; all grids of simplices, cubes and prisms, orders, matchings of faces, functions", "why_tests_cant": "tests compare sizes or one solution on a structured grid; which functions a periodic basis can and cannot represent concerns all coefficient vectors, pairs of faces and points", "anchors": ["dune/functions/functionspacebases/periodicbasis.hh:PeriodicIndexingTransformation", "dune/functions/functionspacebases/periodicbasis.hh:PeriodicIndexSet::unifyIndexPair", "dune/functions/functionspacebases/transformedindexbasis.hh:TransformedIndexPreBasis", "dune/functions/gridfunctions/discreteglobalbasisfunction.hh:DiscreteGlobalBasisFunction", "dune/functions/functionspacebases/lagrangebasis.hh:LagrangePreBasis"]}
{"id": "C102", "title": "Raviart-Thomas space on grids of simplices, cubes and prisms", "statement": "On a conforming grid of triangles and quadrilaterals or of tetrahedra, hexahedra and prisms with affine or multilinear geometries, the functions of the Raviart-Thomas basis of order 0 are exactly the vector fields that are on each element the contravariant Piola transform of a field (c_j + q_j x_j)_j of the reference element (all q_j equal on simplices, the first two on prisms) and whose normal components are continuous. Two functions have the same normal component in a point of a facet if and only if their coefficients of the facet agree; the coefficients of a function are unique; the total flux through the facets of an element is the divergence of the reference field times the volume of the reference element.", "quantifier": "all conforming grids of these element types with regular affine or multilinear geometries, element numberings, fields and coefficient vectors, all points of elements and facets", "why_tests_cant": "tests compare values on both sides of facets for some grids and coefficients; that the basis contains all matching fields, that coefficients are unique, and what happens on elements with non-constant Jacobians concerns all fields and geometries", "anchors": ["dune/functions/functionspacebases/raviartthomasbasis.hh:RaviartThomasPreBasis", "dune/functions/functionspacebases/raviartthomasbasis.hh:RaviartThomasLocalFiniteElementMap", "dune/functions/functionspacebases/globalvaluedlocalfiniteelement.hh:ContravariantPiolaTransformator"]}
{"id": "C103", "title": "Nedelec space on grids of simplices and cubes", "statement": "On a conforming grid of triangles and quadrilaterals or of tetrahedra and hexahedra with affine or multilinear geometries, the functions of the Nedelec basis are exactly the vector fields that are on each element the covariant Piola transform of a field of the reference element (c + A x with antisymmetric A on simplices; on cubes, component j is multilinear in the other coordinates) and whose components along common edges agree; then all tangential components agree on common facets. The component along an edge, in each of its points, is the coefficient of the edge with the sign of its direction; the coefficients of a function are unique. Gradients of continuous functions that are affine on simplices and multilinear on cubes are functions of the basis, and the coefficients are differences of the values at the vertices.", "quantifier": "all conforming grids of these element types with regular affine or multilinear geometries, numberings of vertices, fields, vertex values and coefficient vectors, all points of elements, edges and facets", "why_tests_cant": "tests compare tangential components on some grids; that the basis contains all matching fields and all gradients, that coefficients are unique, and that elements sharing only an edge match concerns all fields, numberings and geometries", "anchors": ["dune/functions/functionspacebases/nedelecbasis.hh:NedelecPreBasis", "dune/functions/functionspacebases/nedelecbasis.hh:Nedelec1stKindLocalFiniteElementMap", "dune/functions/functionspacebases/globalvaluedlocalfiniteelement.hh:CovariantPiolaTransformator"]}
{"id": "C104", "title": "Caches and equality of the global intersection iterator", "statement": "Whether the iterators of the grid view return references or temporaries, the global intersection iterator of a subdomain interface or skeleton never reads an empty or outdated copy of its element or intersection, never compares intersection iterators of different elements, and visits exactly the selected intersections. Two iterators of one range compare equal exactly if they were incremented equally often, dereferencing depends only on that number, and an iterator is equal to the sentinel, or to one constructed at the end of the elements, exactly after all selected intersections have been visited.", "quantifier": "all grids in which every element has an intersection, all predicates, all four combinations of the caches, all numbers of increments within the range", "why_tests_cant": "each grid implementation used in a test instantiates one combination of the caches, and tests only compare with the end; that no stale copy is read and that equality is equality of positions concerns all combinations, predicates and pairs of positions", "anchors": ["dune/functions/common/subdomain.hh:GlobalIntersectionIt"]}
{"id": "C105", "title": "The derivative of a discrete function is its derivative", "statement": "After any history of operations, a local function of derivative(f) that is bound to the same element and the same coefficients as a local function of the discrete function f returns, in every component of every leaf, the derivative of f: times the derivative of the geometry it is the derivative with respect to local coordinates (also on surfaces), and in grids of full dimension it is the derivative with respect to global coordinates.", "quantifier": "all basis trees, subspaces and coefficients, all geometries, all histories of operations, all components and evaluation points", "why_tests_cant": "tests compare derivatives with finite differences up to a tolerance, for a few bases, elements and points", "anchors": ["dune/functions/gridfunctions/discreteglobalbasisfunction.hh:DiscreteGlobalBasisFunctionDerivative::LocalFunction::operator()", "dune/functions/functionspacebases/globalvaluedlocalfiniteelement.hh:GlobalValuedLocalBasis::evaluateJacobian"]}
{"id": "C106", "title": "Evaluation in global coordinates agrees with evaluation of local functions", "statement": "If a grid function (analytic, discrete, composed, coarse function on a fine grid view, fine function on a coarse grid view, nested in any way), or a derivative of it, is evaluated in the global coordinates of a point of an element, then the result is the value that its local function returns when bound to this element and evaluated in the local coordinates, after any history of bind, unbind, copies and derivatives, at all points where the discrete functions in it have one value. For Lagrange functions these are all points, also those that belong to several elements. If a value is returned at all, then there are no face normals in the function, composed functions are not differentiated, and the order of the derivatives is admissible; otherwise an exception is thrown.", "quantifier": "all grid functions built from the above, all nested grids, all elements and points, all histories of local functions, all coefficient vectors", "why_tests_cant": "tests evaluate globally in quadrature points in the interior of elements, where no two elements compete, and not for nested wrappers", "anchors": ["dune/functions/gridfunctions/discreteglobalbasisfunction.hh:DiscreteGlobalBasisFunction::operator()", "dune/functions/gridfunctions/composedgridfunction.hh:ComposedGridFunction::operator()", "dune/functions/gridfunctions/coarsefunctiononfinegridview.hh:CoarseFunctionOnFineGridView::operator()", "dune/functions/gridfunctions/finefunctiononcoarsegridview.hh:FineFunctionOnCoarseGridView::operator()", "dune/functions/gridfunctions/analyticgridviewfunction.hh:AnalyticGridViewFunction::operator()"]}
{"id": "C107", "title": "Lagrange bases of order 0 are the piecewise constants", "statement": "The continuous and the discontinuous Lagrange basis of order 0 have exactly one index per element, every index below the dimension belongs to exactly one element, and both bases number the elements in the same way. Their functions are exactly those that are constant on each element, without any continuity, the coefficient is the value on the element, and interpolation on any list of elements in any order gives the values in the interpolation points and changes nothing elsewhere.", "quantifier": "all grids of simplices, cubes, prisms and pyramids of any dimension up to 3, all coefficient vectors, all functions, all lists of elements", "why_tests_cant": "tests of order 0 use a few grids and compare no indices between the two bases; the order 0 takes a path of its own in the layout", "anchors": ["dune/functions/functionspacebases/lagrangebasis.hh:LagrangePreBasis::dofLayout", "dune/functions/functionspacebases/lagrangebasis.hh:LagrangePreBasis::indices", "dune/functions/functionspacebases/lagrangedgbasis.hh:LagrangeDGPreBasis"]}
{"id": "C108", "title": "Bases that combine Raviart\u2013Thomas, N\u00e9d\u00e9lec and Lagrange bases", "statement": "In a basis composed in any way of raviartThomas<0>, nedelec<1,1>, lagrange and lagrangeDG of any order, the discrete functions are exactly those whose components belong to the spaces of the leaves, with no coupling between components, and the coefficients are unique. The total flux of a Raviart\u2013Thomas component out of each element is the integral of some function of any component of order 0 of the same basis, as in the mixed Poisson example, and the gradient of a Lagrange component of order 1 is a function of any N\u00e9d\u00e9lec component, without changing the other components.", "quantifier": "all conforming 2d and 3d grids of simplices, cubes and prisms with any regular geometries, all trees of composite and power bases with any index merging, all coefficient vectors, all points of all elements", "why_tests_cant": "the mixed Poisson example runs on one grid and compares nothing; the relations between the spaces couple orientations, Piola transforms and numberings of different bases on all elements", "anchors": ["examples/poisson-mfem.cc:main", "dune/functions/functionspacebases/raviartthomasbasis.hh:RaviartThomasPreBasis", "dune/functions/functionspacebases/nedelecbasis.hh:NedelecPreBasis", "dune/functions/functionspacebases/compositebasis.hh:CompositePreBasis", "dune/functions/functionspacebases/lagrangebasis.hh:LagrangePreBasis"]}
{"id": "C109", "title": "Boundary DOFs of Raviart\u2013Thomas and N\u00e9d\u00e9lec bases on mixed grids", "statement": "On grids of simplices, cubes and prisms, the degrees of freedom visited by forEachBoundaryDOF for raviartThomas<0> determine the normal components of the discrete function in all points of the visited boundary facets and are determined by them; those visited for nedelec<1,1> on simplices and cubes do the same for the tangential components. Hence setting exactly these degrees of freedom imposes boundary conditions for the normal or tangential component and no more.", "quantifier": "all conforming 2d and 3d grids with affine or multilinear geometries, all sets of boundary intersections and elements, all pairs of coefficient vectors, all points of the boundary facets", "why_tests_cant": "tests count boundary DOFs on a few grids; that no DOF with a trace on the boundary is missing and none is superfluous is a statement about all functions and points", "anchors": ["dune/functions/functionspacebases/boundarydofs.hh:forEachBoundaryDOF", "dune/functions/functionspacebases/subentitydofs.hh:SubEntityDOFs::bind", "dune/functions/functionspacebases/raviartthomasbasis.hh:RaviartThomasPreBasis", "dune/functions/functionspacebases/nedelecbasis.hh:NedelecPreBasis"]}
{"id": "C110", "title": "Boundary DOFs of subspace bases and components", "statement": "forEachBoundaryDOF(subspaceBasis(basis, path), f), also for nested subspace bases, calls f, in the same order, exactly for those calls of forEachBoundaryDOF(basis, f) that belong to basis functions below the node with that path; for a leaf of the tree these are the boundary DOFs of the leaf basis alone, with the multi-indices of the whole basis. Therefore two coefficient vectors of a tree of Raviart\u2013Thomas, N\u00e9d\u00e9lec and Lagrange bases agree in the visited entries if and only if all components below the node have the same boundary values (normal components, tangential components, values), and copying the visited entries sets the boundary values of these components and leaves all other components unchanged.", "quantifier": "all basis trees with all merging strategies and restrictions, all paths and nestings of paths, all grids and sets of boundary intersections, all coefficient vectors", "why_tests_cant": "tests set boundary values of one or two fixed trees; that no DOF of another component is touched and none of the component is missed for every nesting and merging strategy needs an argument about all trees", "anchors": ["dune/functions/functionspacebases/boundarydofs.hh:forEachBoundaryDOF", "dune/functions/functionspacebases/subentitydofs.hh:SubEntityDOFs::bind", "dune/functions/functionspacebases/subspacebasis.hh:SubspaceBasis", "dune/functions/functionspacebases/subspacelocalview.hh:SubspaceLocalView"]}
{"id": "C111", "title": "Marking boundary DOFs and interpolating sets boundary values", "statement": "The program of the examples - resize a nested bit vector to the basis, assign false, set the entries visited by forEachBoundaryDOF(subspaceBasis(basis, path), ...) to true, call interpolate(subspaceBasis(basis, path), x, f, isBoundary) - is defined, marks exactly the visited multi-indices, gives the coefficients of x with these multi-indices the values that interpolate(subspaceBasis(basis, path), y, f) computes, and leaves all others as they were after resizing. For trees of Raviart-Thomas, Nedelec and Lagrange bases the components below the node then have the boundary values of the interpolated function (those of f itself, if f is a discrete function of this basis), and all other components of the discrete function are unchanged.", "quantifier": "all basis trees with all merging strategies and restrictions, all paths, all nestings of bit vector and coefficient vector that have an entry for each multi-index, all previous contents, all grids and sets of boundary intersections, all functions", "why_tests_cant": "tests and examples run this program for one basis, one container type and one function; it combines the traversal, the index access of two containers, resizing and interpolation, and each pair of them has to agree for every tree and nesting", "anchors": ["dune/functions/functionspacebases/interpolate.hh:interpolate", "dune/functions/functionspacebases/boundarydofs.hh:forEachBoundaryDOF", "dune/functions/backends/istlvectorbackend.hh:ISTLVectorBackend", "examples/stokes-taylorhood.cc:main", "examples/interpolation.cc:main"]}
{"id": "C112", "title": "Boundary values on a part of the boundary", "statement": "If the callback of forEachBoundaryDOF(subspaceBasis(basis, path), ...) ignores the calls for which a condition on the intersection fails, the remaining calls are those of a traversal where only the intersections that satisfy the condition are boundary intersections, in the same order. Marking these entries and interpolating with the bit vector, as in the mixed Poisson example, gives the components below the node the boundary values of the interpolated function at these intersections and leaves all other components unchanged; for a Raviart-Thomas component the normal components at all other facets, on the rest of the boundary and in the interior, are unchanged too.", "quantifier": "all basis trees with all merging strategies, all paths, all conditions on intersections, all nestings of bit vector and coefficient vector with an entry for each multi-index, all previous contents, all conforming grids with boundary intersections, all functions", "why_tests_cant": "the example runs one condition on one grid for one basis, and no test looks at the values on the rest of the boundary; an entry marked for the wrong intersection (the callback gets the intersection from a loop whose SubEntityDOFs object is reused) only shows for conditions that select some but not all facets of an element", "anchors": ["dune/functions/functionspacebases/boundarydofs.hh:forEachBoundaryDOF", "dune/functions/functionspacebases/subentitydofs.hh:SubEntityDOFs", "dune/functions/functionspacebases/interpolate.hh:interpolate", "examples/poisson-mfem.cc:markBoundaryDOFsByIndicator"]}
{"id": "C113", "title": "Linear systems assembled with local views", "statement": "Assembling element matrices with the multi-indices of a local view, as in the Poisson examples, first the occupation pattern and then the entries, never writes an entry outside the pattern, and the matrix represents the sum of the element forms for all coefficient vectors. If marked rows are replaced by rows of the identity, or marked coefficients are eliminated symmetrically, the solutions are the vectors with the given marked coefficients that satisfy the equation for all test vectors without marked coefficients. With the bits of forEachBoundaryDOF(subspaceBasis(basis, path), ...) and values from interpolate, the solutions are the functions whose components below the node have the boundary values of the interpolated function and which satisfy the variational equation for all test functions without boundary values there.", "quantifier": "all basis trees with all merging strategies, all grids, all element matrices and local right hand sides over any field, all sets of marked coefficients; for functions: all trees of Raviart-Thomas, Nedelec and Lagrange bases on conforming grids, all nodes, all boundary functions, all nestings of vectors", "why_tests_cant": "the examples solve one problem each and write the result to a file that nobody compares; whether the system is equivalent to the variational problem is a statement about all coefficient vectors and test functions, and depends on completeness and uniqueness of the multi-indices and on which boundary degrees of freedom are visited", "anchors": ["examples/poisson-pq2.cc:getOccupationPattern", "examples/poisson-pq2.cc:assembleLaplaceMatrix", "examples/poisson-pq2.cc:main", "examples/poisson-mfem.cc:main", "dune/functions/functionspacebases/defaultlocalview.hh:DefaultLocalView", "dune/functions/functionspacebases/boundarydofs.hh:forEachBoundaryDOF", "dune/functions/functionspacebases/interpolate.hh:interpolate"]}
{"id": "C114", "title": "Element matrices and discrete functions mean the same forms", "statement": "The element matrices and local right hand sides computed by the Poisson examples with quadrature rules, written to the positions node.localIndex(i) and assembled with localView.index(i), represent the forms of discrete functions: for coefficient vectors u and w the assembled form is the quadrature of grad u * grad w, or of sigma*tau + div tau u + div sigma v for the mixed problem, where values, gradients and divergences are those returned by the local functions of makeDiscreteGlobalBasisFunction and its derivative for u and w. All writes are inside the element matrix. So the solutions of the assembled systems are the discrete functions with the boundary values of the interpolated function that satisfy the variational equation.", "quantifier": "all leaf bases with scalar finite elements and all basis trees with a vector valued leaf 0 and a scalar leaf 1 (with any further leaves), all grids, shape functions, geometries, quadrature rules and sources over any field, all coefficient vectors; for boundary values: all trees of Raviart-Thomas, Nedelec and Lagrange bases on conforming grids", "why_tests_cant": "the examples compute element matrices in one way and evaluate the solution in another (through discrete functions); that both use the same shape functions, coefficients and transformations for all inputs is never compared, and a wrong local index gives a plausible but wrong solution", "anchors": ["examples/poisson-pq2.cc:getLocalMatrix", "examples/poisson-pq2.cc:getVolumeTerm", "examples/poisson-mfem.cc:getLocalMatrix", "examples/poisson-mfem.cc:getVolumeTerm", "examples/poisson-mfem.cc:assembleMixedPoissonMatrix", "dune/functions/functionspacebases/nodes.hh:localIndex", "dune/functions/gridfunctions/discreteglobalbasisfunction.hh:DiscreteGlobalBasisFunction"]}
{"id": "C115", "title": "The Stokes program solves the discrete Stokes problem", "statement": "The matrix assembled by the Stokes example through the nodes child(_0,k) and child(_1) of the tree represents the quadrature of grad u : grad w - div w p - div u q of the discrete functions with the given coefficients, although only the shape functions of the velocity component (0,0) are evaluated. Replacing the rows of the marked degrees of freedom by rows of the identity, element by element, gives the same linear system as replacing whole rows, even if a multi-index appears twice in a local view. So the solutions of the system of the program, with rows modified and the boundary velocity interpolated into the right hand side for the subspace basis (_0), are exactly the coefficients of the discrete velocities and pressures with the boundary values of the interpolated velocity that satisfy the variational equation.", "quantifier": "all basis trees with dimworld equal scalar leaves (0,k) and a scalar leaf 1, all index merging strategies of inner nodes, all grids, shape functions, geometries and rules over any field, all element orders; for boundary values all trees of Lagrange, Raviart-Thomas and Nedelec leaves on conforming grids, all boundary functions and library interpolations", "why_tests_cant": "the example has no expected output, and its matrix is only used inside an iterative solver; that rows, columns, boundary degrees of freedom and interpolated values refer to the same functions is a statement about all trees and grids", "anchors": ["examples/stokes-taylorhood.cc:getLocalMatrix", "examples/stokes-taylorhood.cc:assembleStokesMatrix", "examples/stokes-taylorhood.cc:main", "dune/functions/functionspacebases/nodes.hh:localIndex", "dune/functions/functionspacebases/boundarydofs.hh:forEachBoundaryDOF", "dune/functions/functionspacebases/interpolate.hh:interpolate"]}
{"id": "C116", "title": "The discontinuous Galerkin program solves a variational equation with jumps", "statement": "The system assembled by the advection-reaction example with one local view for the element and a new one for each neighbor is the variational equation of discrete functions: no entry outside the occupation pattern is written, and the solutions are the discrete functions u with: integral of c u w + u beta*grad w, minus the integral of beta*n (u - u_neighbor) w over interior intersections, minus that of min(beta*n,0) u w over boundary intersections, equals the integral of f w, for all discrete w. The values are those of local functions of makeDiscreteGlobalBasisFunction, on the neighbor bound to the neighbor. For functions without jumps interior intersections do not contribute. A function of the space that satisfies beta*grad u + c u = f with zero inflow values solves the system.", "quantifier": "all leaf bases with scalar finite elements, all grids (also nonconforming: any list of intersections per element), velocity fields, reaction coefficients, sources, shape functions, geometries and rules for elements and intersections, over any field with a linear order", "why_tests_cant": "the example is only run, its result is not compared with anything; which functions the assembled matrix couples is a statement about all coefficient vectors, and the missing consistency cannot be seen from a program that ends normally", "anchors": ["examples/advection-reaction-dg.cc:getLocalMatrix", "examples/advection-reaction-dg.cc:getOffDiagonalLocalMatrix", "examples/advection-reaction-dg.cc:getOccupationPattern", "examples/advection-reaction-dg.cc:assembleStiffnessMatrix", "dune/functions/functionspacebases/defaultlocalview.hh:bind", "dune/functions/gridfunctions/discreteglobalbasisfunction.hh:DiscreteGlobalBasisFunction"]}
{"id": "C117", "title": "The nested matrix of the Stokes program is the matrix of the basis", "statement": "The digits of the multi-indices of the Taylor-Hood basis select entries of the nested matrix correctly, for the blocked basis (MultiTypeBlockMatrix of BCRSMatrix of FieldMatrix) and for the flat basis (Matrix of BCRSMatrix): all index set additions are inside basis.size({i}) x basis.size({j}), matrixEntry(matrix,row,col) always refers to an existing entry, different pairs of multi-indices refer to different entries, and the product with a nested vector, and so the system after rows of boundary degrees of freedom were changed, is the same as for a sparse matrix with multi-indices as rows and columns: a nested vector solves the nested system if and only if its coefficients satisfy the equations of the basis functions. With the Stokes element matrix and the boundary values of the program, these are the coefficients of the solutions of the discrete Stokes problem.", "quantifier": "all Taylor-Hood trees (velocity and pressure leaves are any leaf bases, any number of components), both variants of the example, all grids, element matrices over any field, sets of marked degrees of freedom, vectors and right hand sides", "why_tests_cant": "the two variants are chosen by a macro and only one is compiled; an entry that two pairs of multi-indices share, or one outside a dense block, gives a wrong matrix without an error", "anchors": ["examples/stokes-taylorhood.cc:setOccupationPattern", "examples/stokes-taylorhood.cc:matrixEntry", "examples/stokes-taylorhood.cc:assembleStokesMatrix", "examples/stokes-taylorhood.cc:main", "dune/functions/functionspacebases/compositebasis.hh:size", "dune/functions/functionspacebases/powerbasis.hh:size"]}
{"id": "C118", "title": "Essential conditions in the linear systems of the Python programs", "statement": "The Python examples add element matrices and vectors at localView.index(i)[0] to a scipy matrix and a numpy vector and then write essential conditions into the system. All indices are smaller than len(basis). A vector solves the resulting system if and only if its constrained entries have the given values and it satisfies the variational equation for all test vectors without constrained entries. With incorporateEssentialConstraints (poisson-mfem.py) this holds for all matrices and a symmetric matrix stays symmetric. With the loop of poisson-pq2.py it holds if the constrained rows have no zero on the diagonal, in particular for element matrices whose energy is zero for constants only and never negative; otherwise it is false, since A.nonzero() leaves that entry out.", "quantifier": "all flat bases (trees of any pre-bases), all grids, element matrices and vectors over any field, markers with entries zero and one, prescribed values", "why_tests_cant": "a matrix with a zero on the diagonal, for instance by cancellation or in the pressure block of a mixed problem, does not occur in the example; tests solve one system and look at the result", "anchors": ["examples/poisson-pq2.py:assembleLaplaceMatrix", "examples/poisson-mfem.py:assembleMixedPoissonMatrix", "examples/poisson-mfem.py:assembleMixedPoissonRhs", "examples/poisson-mfem.py:incorporateEssentialConstraints", "dune/python/functions/globalbasis.hh:registerGlobalBasis"]}
{"id": "C119", "title": "Divergence of shape functions in the Python program", "statement": "fluxDivergence[i] in getLocalMatrix of poisson-mfem.py is the divergence of the i-th flux shape function, the trace of the product of the Jacobian on the reference element with the inverse Jacobian of the geometry. True for all shape functions exactly on elements whose inverse Jacobian is diagonal; false on others, since arrays of numpy are multiplied entry by entry.", "quantifier": "all dimensions, Jacobians of shape functions and inverse Jacobians of geometries over any field", "why_tests_cant": "the example uses an axis-parallel grid, where both products have the same trace", "anchors": ["examples/poisson-mfem.py:getLocalMatrix"]}
{"id": "C120", "title": "The Python program for the Poisson problem solves the discrete Poisson problem", "statement": "In poisson-pq2.py, localAssembler, assembleLaplaceMatrix and the replacement of constrained rows together give a linear system whose solutions are exactly the coefficients of the discrete functions that have the prescribed coefficients and satisfy the variational equation of the Poisson problem for all test functions whose constrained coefficients are zero. Gradients and values are those of the discrete function; integrals are those of the quadrature rules. All accesses to local and global matrices are inside their bounds.", "quantifier": "all flat bases with scalar finite elements, all grids, geometries, quadrature rules with positive weights that see every non-constant local function, volume terms, markers and prescribed values, over any ordered field", "why_tests_cant": "the program is run on one grid and its output is not compared; a wrong coefficient or an exchanged index gives a plausible solution", "anchors": ["examples/poisson-pq2.py:localAssembler", "examples/poisson-pq2.py:assembleLaplaceMatrix", "dune/python/functions/globalbasis.hh:registerGlobalBasis", "dune/functions/gridfunctions/discreteglobalbasisfunction.hh:DiscreteGlobalBasisFunction"]}
