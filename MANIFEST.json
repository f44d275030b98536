{
 "claims": [
  {
   "property": "C01",
   "status": "proved",
   "theorems": [
    "Verif.IndexTree.C01_digits_lt_size"
   ],
   "note": ""
  },
  {
   "property": "C02",
   "status": "proved",
   "theorems": [
    "Verif.IndexTree.C02_unique"
   ],
   "note": ""
  },
  {
   "property": "C03",
   "status": "proved",
   "theorems": [
    "Verif.IndexTree.C03_complete"
   ],
   "note": ""
  },
  {
   "property": "C04",
   "status": "proved",
   "theorems": [
    "Verif.IndexTree.C04_prefixFree"
   ],
   "note": ""
  },
  {
   "property": "C05",
   "status": "proved",
   "theorems": [
    "Verif.IndexTree.C05_dimension"
   ],
   "note": ""
  },
  {
   "property": "C06",
   "status": "proved",
   "theorems": [
    "Verif.IndexTree.C06_length"
   ],
   "note": "capacity overflow is the undefined outcome of the model; the theorem shows it is never reached"
  },
  {
   "property": "C07",
   "status": "proved",
   "theorems": [
    "Verif.IndexTree.C07_fill"
   ],
   "note": ""
  },
  {
   "property": "C08",
   "status": "proved",
   "theorems": [
    "Verif.IndexTree.C08_power",
    "Verif.IndexTree.C08_composite"
   ],
   "note": ""
  },
  {
   "property": "C09",
   "status": "proved",
   "theorems": [
    "Verif.IndexTree.C09_history"
   ],
   "note": ""
  },
  {
   "property": "C10",
   "status": "proved",
   "theorems": [
    "Verif.IndexTree.C10_localIndices",
    "Verif.IndexTree.C10_treeIndices"
   ],
   "note": ""
  },
  {
   "property": "C11",
   "status": "proved",
   "theorems": [
    "Verif.IndexTree.C11_maxSize",
    "Verif.Mapper.mapperLeaf_WF",
    "Verif.Lagrange.lagrangeLeaf_WF"
   ],
   "note": "mapper based and Lagrange leaf bases are shown to satisfy the hypothesis on leaves"
  },
  {
   "property": "C12",
   "status": "proved",
   "theorems": [
    "Verif.IndexTree.C12_descriptor",
    "Verif.IndexTree.C12_valid_prefixes",
    "Verif.IndexTree.C12_taylorHood",
    "Verif.IndexTree.C12_empty_leaf_false"
   ],
   "note": "holds for all prefixes of existing multi-indices; for prefixes that are only size-valid it needs non-empty leaf bases, with an empty leaf basis it is false (C12_empty_leaf_false)"
  },
  {
   "property": "C14",
   "status": "proved",
   "theorems": [
    "Verif.IndexTree.C14_restricted",
    "Verif.IndexTree.C14_restricted_tree"
   ],
   "note": ""
  },
  {
   "property": "C15",
   "status": "partial",
   "theorems": [
    "Verif.IndexTree.C15_partial",
    "Verif.IndexTree.C15_order",
    "Verif.IndexTree.C15_basis",
    "Verif.IndexTree.C15_false"
   ],
   "note": "false for sets of pairs that are not closed (C15_false); everything else proved"
  },
  {
   "property": "C16",
   "status": "partial",
   "theorems": [
    "Verif.IndexTree.C16_sizes",
    "Verif.IndexTree.C16_partial",
    "Verif.IndexTree.C16_false"
   ],
   "note": "size() and dimension() agree; the descriptor is that of the raw basis, it agrees iff nothing was unified"
  },
  {
   "property": "C17",
   "status": "partial",
   "theorems": [
    "Verif.IndexTree.C17_flat_partial",
    "Verif.IndexTree.C17_hybrid_sizes_partial",
    "Verif.IndexTree.C17_hybrid_indices",
    "Verif.IndexTree.C17_hybrid_false"
   ],
   "note": "flat variant proved; hybrid variant: sizes and dimension proved, multi-indices are wrong (C17_hybrid_false)"
  },
  {
   "property": "C18",
   "status": "partial",
   "theorems": [
    "Verif.ReservedDeque.C18_partial",
    "Verif.ReservedDeque.C18_no_push_back_partial",
    "Verif.ReservedDeque.C18_false",
    "Verif.ReservedDeque.C18_initializer_list_false"
   ],
   "note": "push_back is wrong after push_front/pop_front and the initializer list constructor leaves the start uninitialised"
  },
  {
   "property": "C19",
   "status": "partial",
   "theorems": [
    "Verif.OverflowArray.C19_partial",
    "Verif.OverflowArray.C19_eq",
    "Verif.OverflowArray.C19_push_front_false",
    "Verif.OverflowArray.C19_push_front_empty_false"
   ],
   "note": "all operations but push_front, which is wrong"
  },
  {
   "property": "C13",
   "status": "proved",
   "theorems": [
    "Verif.IndexTree.C13_subspace"
   ],
   "note": ""
  },
  {
   "property": "C20",
   "status": "proved",
   "theorems": [
    "Verif.Lagrange.C20_edge",
    "Verif.Lagrange.C20_C22_conformity"
   ],
   "note": ""
  },
  {
   "property": "C21",
   "status": "proved",
   "theorems": [
    "Verif.Lagrange.C21_triangle",
    "Verif.Lagrange.C20_C22_conformity"
   ],
   "note": ""
  },
  {
   "property": "C22",
   "status": "proved",
   "theorems": [
    "Verif.Lagrange.C22_quadrilateral",
    "Verif.Lagrange.C20_C22_conformity"
   ],
   "note": ""
  },
  {
   "property": "C23",
   "status": "proved",
   "theorems": [
    "Verif.Lagrange.C23_tables",
    "Verif.Lagrange.C23_sharp"
   ],
   "note": ""
  },
  {
   "property": "C24",
   "status": "proved",
   "theorems": [
    "Verif.Lagrange.C24_counts",
    "Verif.Lagrange.C24_maxNodeSize",
    "Verif.Lagrange.C24_simplex",
    "Verif.Lagrange.C24_cube",
    "Verif.Lagrange.C24_leaf",
    "Verif.Lagrange.C24_pyramid_order3"
   ],
   "note": "pyramids: orders accepted by the constructor (<= 2); for order 3 the layout would be wrong (C24_pyramid_order3)"
  },
  {
   "property": "C25",
   "status": "proved",
   "theorems": [
    "Verif.Lagrange.C25_dg"
   ],
   "note": ""
  },
  {
   "property": "C57",
   "status": "proved",
   "theorems": [
    "Verif.Lagrange.C57_layouts",
    "Verif.Lagrange.C57_bubble_1d"
   ],
   "note": "bubble on P2 for d >= 2; in 1d the bubble coincides with the edge function"
  },
  {
   "property": "C58",
   "status": "partial",
   "theorems": [
    "Verif.Lagrange.C58_partial",
    "Verif.Lagrange.C58_maxNodeSize",
    "Verif.Lagrange.C58_false"
   ],
   "note": "holds if all facets have the same type; false for 3d grids with tetrahedra and hexahedra, which the constructor accepts (C58_false)"
  },
  {
   "property": "C47",
   "status": "proved",
   "theorems": [
    "Verif.HDiv.C47_raviartThomas",
    "Verif.HDiv.C47_facet",
    "Verif.HDiv.C47_boundary",
    "Verif.HDiv.C47_bdm",
    "Verif.HDiv.C47_nedelec",
    "Verif.HDiv.C47_edgeOrientations",
    "Verif.HDiv.C47_bdm_not_contained_false",
    "Verif.HDiv.C47_fixed_prism_false"
   ],
   "note": "BDM: for grid views containing all neighbours of their elements (C47_bdm_not_contained_false); Raviart-Thomas on grids with a fixed element type: simplices and cubes (C47_fixed_prism_false)"
  },
  {
   "property": "C48",
   "status": "partial",
   "theorems": [
    "Verif.HDiv.C48_raviartThomas",
    "Verif.HDiv.C48_rt_quadrilateral",
    "Verif.HDiv.C48_bdm1",
    "Verif.HDiv.C48_nedelec",
    "Verif.HDiv.C48_bdm2_false",
    "Verif.HDiv.C48_bdm2_unused"
   ],
   "note": "Raviart-Thomas, Nedelec and BDM of order 1 proved; false for BDM of order 2 (C48_bdm2_false, C48_bdm2_unused)"
  },
  {
   "property": "C26",
   "status": "proved",
   "theorems": [
    "Verif.BSpline.C26_element",
    "Verif.BSpline.C26_digits",
    "Verif.BSpline.C26_open",
    "Verif.BSpline.C26_uniform",
    "Verif.BSpline.C26_basis",
    "Verif.BSpline.C26_repeated_false"
   ],
   "note": "knots at distance at least 1e-8; with repeated knots the constructor computes a wrong number of elements (C26_repeated_false, documented as todo in the code)"
  },
  {
   "property": "C27",
   "status": "proved",
   "theorems": [
    "Verif.BSpline.C27_values",
    "Verif.BSpline.C27_tensor",
    "Verif.BSpline.C27_basis",
    "Verif.BSpline.C27_threshold_false"
   ],
   "note": "exact arithmetic; different knots must differ by more than the threshold 1e-10 of the code (C27_threshold_false); sum one on inner knot spans, which are all spans of open knot vectors"
  },
  {
   "property": "C28",
   "status": "proved",
   "theorems": [
    "Verif.BSpline.C28_derivatives",
    "Verif.BSpline.C28_tensor"
   ],
   "note": "exact arithmetic, knots as in C27"
  },
  {
   "property": "C29",
   "status": "partial",
   "theorems": [
    "Verif.BSpline.C29_one",
    "Verif.BSpline.C29_two_partial",
    "Verif.BSpline.C29_two_false",
    "Verif.BSpline.C29_distinct_false"
   ],
   "note": "one direction proved; two directions: everything but consecutive numbers of the inner functions, which is false (C29_two_false); keys occur twice if an element has a single function in a direction or in 3d (C29_distinct_false)"
  },
  {
   "property": "C59",
   "status": "proved",
   "theorems": [
    "Verif.BSpline.C59_smooth"
   ],
   "note": "exact arithmetic, knots as in C27"
  },
  {
   "property": "C30",
   "status": "proved",
   "theorems": [
    "Verif.SubDomain.C30_indexSet",
    "Verif.SubDomain.C30_stable",
    "Verif.SubDomain.C30_reinsert"
   ],
   "note": ""
  },
  {
   "property": "C31",
   "status": "proved",
   "theorems": [
    "Verif.SubDomain.C31_elements",
    "Verif.SubDomain.C31_subdomain",
    "Verif.SubDomain.C31_intersections",
    "Verif.SubDomain.C31_interface",
    "Verif.SubDomain.C31_membership",
    "Verif.SubDomain.C31_no_intersections_false"
   ],
   "note": "the intersection iterator needs at least one intersection per element (C31_no_intersections_false); the interface iterator visits the oriented intersections, as documented"
  },
  {
   "property": "C32",
   "status": "proved",
   "theorems": [
    "Verif.Dofs.C32_bind",
    "Verif.Dofs.C32_view",
    "Verif.Dofs.C32_boundary",
    "Verif.Dofs.C32_global"
   ],
   "note": ""
  },
  {
   "property": "C33",
   "status": "partial",
   "theorems": [
    "Verif.Container.C33_shape",
    "Verif.Container.C33_access",
    "Verif.Container.C33_error",
    "Verif.Container.C33_error_basis",
    "Verif.Container.C33_access_false",
    "Verif.Container.C33_empty_basis_false"
   ],
   "note": "sizes after resize proved for all types; access in range unless a single coefficient is represented by nested dynamic vectors (C33_access_false); errors only if the type cannot represent the tree if all leaf bases are non-empty (C33_empty_basis_false)"
  },
  {
   "property": "C34",
   "status": "partial",
   "theorems": [
    "Verif.Container.C34_container",
    "Verif.Container.C34_basis",
    "Verif.Container.C34_istl_partial",
    "Verif.Container.C34_istl_basis_partial",
    "Verif.Container.C34_istl_false"
   ],
   "note": "makeContainer proved; makeISTLVector proved except for arrays with a single BlockVector, where it loses a level (C34_istl_false)"
  },
  {
   "property": "C35",
   "status": "proved",
   "theorems": [
    "Verif.Container.C35_access",
    "Verif.Container.C35_access_iff",
    "Verif.Container.C35_access_final",
    "Verif.Container.C35_hybrid",
    "Verif.Container.C35_static",
    "Verif.Container.C35_write",
    "Verif.Container.C35_write_basis",
    "Verif.Container.C35_tuple_out_of_range_false"
   ],
   "note": "out of range digits for multi-type containers silently address entry 0 (C35_tuple_out_of_range_false)"
  },
  {
   "property": "C36",
   "status": "partial",
   "theorems": [
    "Verif.FlatView.C36_partial",
    "Verif.FlatView.C36_blocks",
    "Verif.FlatView.C36_nested_vector_false"
   ],
   "note": "proved for arrays of arrays ... of scalars, matrices, vectors of scalars; nested FieldVectors are not flattened (C36_nested_vector_false)"
  },
  {
   "property": "C37",
   "status": "proved",
   "theorems": [
    "Verif.Analytic.C37_eval",
    "Verif.Analytic.C37_derivative",
    "Verif.Analytic.C37_static",
    "Verif.Analytic.C37_eq",
    "Verif.Analytic.C37_count",
    "Verif.Analytic.C37_skip_false"
   ],
   "note": "exact arithmetic; the documented elimination of static zeros does not take place (C37_skip_false), values are unaffected"
  },
  {
   "property": "C38",
   "status": "proved",
   "theorems": [
    "Verif.Analytic.C38_exponents",
    "Verif.Analytic.C38_values",
    "Verif.Analytic.C38_derivatives"
   ],
   "note": "exact arithmetic, any commutative ring"
  },
  {
   "property": "C55",
   "status": "proved",
   "theorems": [
    "Verif.Analytic.C55",
    "Verif.Analytic.C55_period"
   ],
   "note": "over the real numbers"
  },
  {
   "property": "C39",
   "status": "proved",
   "theorems": [
    "Verif.Interpolate.C39",
    "Verif.Interpolate.C39_basis",
    "Verif.Interpolate.C39_visits",
    "Verif.Interpolate.C39_all"
   ],
   "note": "the coefficients computed by the local finite elements are a parameter"
  },
  {
   "property": "C40",
   "status": "proved",
   "theorems": [
    "Verif.Interpolate.C40"
   ],
   "note": ""
  },
  {
   "property": "C41",
   "status": "partial",
   "theorems": [
    "Verif.Discrete.C41_linearCombination_partial",
    "Verif.Discrete.C41_linear",
    "Verif.Discrete.C41_global",
    "Verif.Discrete.C41_shared_entry_false",
    "Verif.Discrete.C41_assign_false"
   ],
   "note": "proved for all histories; leaves sharing a range entry overwrite each other (C41_shared_entry_false); copy assignment of local functions copies element pointers, which Raviart-Thomas, BDM and Nedelec elements use (C41_assign_false)"
  },
  {
   "property": "C43",
   "status": "partial",
   "theorems": [
    "Verif.GridFunctions.C43_partial",
    "Verif.GridFunctions.C43_copy_false",
    "Verif.GridFunctions.C43_temporary_false"
   ],
   "note": "proved for bound objects and coordinate maps of copies; coarseElement of copies is wrong if fathers were visited (C43_copy_false); binding to temporaries is undefined (C43_temporary_false)"
  },
  {
   "property": "C44",
   "status": "partial",
   "theorems": [
    "Verif.Distance.C44_inside",
    "Verif.Distance.C44_checkInside",
    "Verif.Distance.C44_attained",
    "Verif.Distance.C44_l1_partial",
    "Verif.Distance.C44_l1_iff",
    "Verif.Distance.C44_pyramid_false"
   ],
   "note": "zero set and checkInside proved for all topologies; the l1 distance is computed exactly for topologies without a cone over a product (C44_l1_iff), false for the square pyramid (C44_pyramid_false)"
  },
  {
   "property": "C45",
   "status": "proved",
   "theorems": [
    "Verif.GridFunctions.C45",
    "Verif.GridFunctions.C45_inside"
   ],
   "note": "exact arithmetic, distances below the largest number"
  },
  {
   "property": "C46",
   "status": "proved",
   "theorems": [
    "Verif.FaceNormal.C46",
    "Verif.FaceNormal.C46_normal"
   ],
   "note": "points of the reference element; real numbers"
  },
  {
   "property": "C54",
   "status": "proved",
   "theorems": [
    "Verif.GridFunctions.C54",
    "Verif.GridFunctions.C54_coarse_derivative_false"
   ],
   "note": "also for coarse and fine functions in arbitrary combinations; derivatives of coarse functions that are not bound are undefined (C54_coarse_derivative_false)"
  },
  {
   "property": "C42",
   "status": "partial",
   "theorems": [
    "Verif.SmallObject.C42_partial",
    "Verif.SmallObject.C42_no_leak",
    "Verif.SmallObject.C42_fits",
    "Verif.SmallObject.C42_copy_empty_false",
    "Verif.SmallObject.C42_throw_false",
    "Verif.SmallObject.C42_self_move_false",
    "Verif.SmallObject.C42_offset_false"
   ],
   "note": "all histories of any number of wrappers, except for copies of empty wrappers, copy assignment that throws, self move assignment, types in the buffer whose base class is not at the beginning: false for each of them"
  },
  {
   "property": "C56",
   "status": "proved",
   "theorems": [
    "Verif.MeshSize.C56",
    "Verif.MeshSize.C56_pos",
    "Verif.MeshSize.C56_perm"
   ],
   "note": "real numbers; counters do not overflow; different local sub-entities of an element are different entities (contract of the grid)"
  },
  {
   "property": "C52",
   "status": "partial",
   "theorems": [
    "Verif.Piola.C52_inverse",
    "Verif.Piola.C52_dual",
    "Verif.Piola.C52_flux",
    "Verif.Piola.C52_tangential",
    "Verif.Piola.C52_jacobian",
    "Verif.Piola.C52_partial_derivatives",
    "Verif.Piola.C52_nonaffine_false"
   ],
   "note": "values, degrees of freedom, fluxes and tangential components for all (curved) elements; Jacobians for affine elements, false otherwise (C52_nonaffine_false, documented in the code)"
  },
  {
   "property": "C49",
   "status": "proved",
   "theorems": [
    "Verif.FE.Hermite.C49",
    "Verif.FE.Hermite.C49_polynomials",
    "Verif.FE.Hermite.C49_reproduction"
   ],
   "note": "all existing variants (1d, 2d, 2d reduced, 3d); exact arithmetic in a field of characteristic zero; the mesh size pointer of the interpolation refers to the same object"
  },
  {
   "property": "C50",
   "status": "proved",
   "theorems": [
    "Verif.FE.Morley.C50",
    "Verif.FE.Morley.C50_polynomials",
    "Verif.FE.Morley.C50_constant",
    "Verif.FE.Morley.C50_reproduction"
   ],
   "note": "real numbers; also after binding to other elements before; error of the decimal constant for the square root of two bounded in C50_constant"
  },
  {
   "property": "C51",
   "status": "proved",
   "theorems": [
    "Verif.FE.Argyris.C51",
    "Verif.FE.Argyris.C51_polynomials",
    "Verif.FE.Argyris.C51_constant",
    "Verif.FE.Argyris.C51_reproduction"
   ],
   "note": "real numbers; mesh sizes may be any nonzero numbers; error of the decimal constant for the square root of two bounded in C51_constant"
  },
  {
   "property": "C53",
   "status": "partial",
   "theorems": [
    "Verif.Update.C53_partial",
    "Verif.Update.C53_raviartThomas_find",
    "Verif.Update.C53_nedelec_find",
    "Verif.Update.C53_argyris_edges",
    "Verif.Update.C53_taylorHood_partial",
    "Verif.Update.C53_taylorHood_false",
    "Verif.Update.C53_morley_partial",
    "Verif.Update.C53_morley_false",
    "Verif.Update.C53_periodic_partial",
    "Verif.Update.C53_periodic_false",
    "Verif.Update.C53_checks_false"
   ],
   "note": "all histories, all bases without Morley, Taylor-Hood and periodic parts; Taylor-Hood keeps the old grid view (C53_taylorHood_false), Morley the old element mapper (C53_morley_false), periodic bases the old index table (C53_periodic_false)"
  },
  {
   "property": "C60",
   "status": "proved",
   "theorems": [
    "Verif.FE.C60_hermite",
    "Verif.FE.C60_morley",
    "Verif.FE.C60_argyris"
   ],
   "note": "grids of simplices with the standard numbering of sub-entities"
  },
  {
   "property": "C61",
   "status": "proved",
   "theorems": [
    "Verif.FE.Conform.C61_argyris",
    "Verif.FE.Conform.C61_argyris_vertex",
    "Verif.FE.Conform.C61_morley",
    "Verif.FE.Conform.C61_morley_vertex"
   ],
   "note": "real numbers, affine geometries; derivatives for the exact value of the constant used for the square root of two (values for any constant)"
  },
  {
   "property": "C62",
   "status": "proved",
   "theorems": [
    "Verif.FE.HermiteConform.C62_vertex",
    "Verif.FE.HermiteConform.C62_facet"
   ],
   "note": "real numbers, affine geometries, all existing variants (1d, 2d, 2d reduced, 3d)"
  },
  {
   "property": "C63",
   "status": "proved",
   "theorems": [
    "Verif.RoundTrip.C63",
    "Verif.RoundTrip.C63_all"
   ],
   "note": "scalar coefficients; duality of the finite elements is a hypothesis (proved for Hermite, Morley, Argyris in C49-C51); different leaves have different range entries (necessary by C41_shared_entry_false)"
  },
  {
   "property": "C64",
   "status": "proved",
   "theorems": [
    "Verif.FE.HermiteInterp.C64_hermite",
    "Verif.FE.HermiteInterp.C64_hermite_polynomials",
    "Verif.FE.HermiteInterp.C64_hermite_projection",
    "Verif.FE.TriangleInterp.C64_morley",
    "Verif.FE.TriangleInterp.C64_morley_polynomials",
    "Verif.FE.TriangleInterp.C64_morley_projection",
    "Verif.FE.TriangleInterp.C64_argyris",
    "Verif.FE.TriangleInterp.C64_argyris_polynomials"
   ],
   "note": "real numbers, affine geometries, flat indices; statements on normal derivatives, polynomials and Morley projections for the exact value of the constant used for the square root of two"
  },
  {
   "property": "C65",
   "status": "partial",
   "theorems": [
    "Verif.FE.Describe.C65_hermite_partial",
    "Verif.FE.Describe.C65_hermite_false",
    "Verif.FE.Describe.C65_morley",
    "Verif.FE.Describe.C65_argyris"
   ],
   "note": "proved for Morley, Argyris and Hermite in dimensions 2 and 3; false for Hermite in dimension 1, where FunctionalDescriptor({1}) selects the constructor for normal derivatives (C65_hermite_false)"
  },
  {
   "property": "C66",
   "status": "partial",
   "theorems": [
    "Verif.FE.Copies.C66_partial",
    "Verif.FE.Copies.C66_hermite_partial",
    "Verif.FE.Copies.C66_morley",
    "Verif.FE.Copies.C66_argyris_partial",
    "Verif.FE.Copies.C66_rebound",
    "Verif.FE.Copies.C66_bspline_partial",
    "Verif.FE.Copies.C66_copy_false",
    "Verif.FE.Copies.C66_assign_false",
    "Verif.FE.Copies.C66_bspline_false"
   ],
   "note": "proved for programs without copy assignment: shape functions of all objects (Hermite, Morley, Argyris), interpolation of all Morley objects and of Hermite and Argyris objects bound after construction, B-spline objects bound after construction; false otherwise: the interpolation of a Hermite or Argyris copy reads the mesh sizes of the original (C66_copy_false), the shape functions of an assigned element are those of the source (C66_assign_false), the knot spans of a copied B-spline element are not initialized (C66_bspline_false)"
  },
  {
   "property": "C67",
   "status": "proved",
   "theorems": [
    "Verif.HDiv.Trace.C67_raviartThomas",
    "Verif.HDiv.Trace.C67_simplex",
    "Verif.HDiv.Trace.C67_mixed"
   ],
   "note": "in terms of the fluxes of the shape functions of dune-localfunctions for all element types (C67_raviartThomas), with the shape functions for affine triangles and tetrahedra (C67_simplex) and for grids of triangles, quadrilaterals, tetrahedra, hexahedra and prisms with multilinear geometries (C67_mixed)"
  },
  {
   "property": "C68",
   "status": "proved",
   "theorems": [
    "Verif.HDiv.Tangential.C68_edge",
    "Verif.HDiv.Tangential.C68_shared",
    "Verif.HDiv.Tangential.C68_simplex",
    "Verif.HDiv.Tangential.C68_mixed"
   ],
   "note": "edges of simplices and cubes, also mixed, in terms of the tangential components of the shape functions of dune-localfunctions (discharged by simplex_tangents and cube_tangents); common faces of any dimension for affine simplices; facets of simplices and cubes with multilinear geometries, also mixed"
  },
  {
   "property": "C69",
   "status": "proved",
   "theorems": [
    "Verif.Lagrange.Continuity.C69_matching",
    "Verif.Lagrange.Continuity.C69_face",
    "Verif.Lagrange.Continuity.C69_continuous",
    "Verif.Lagrange.Continuity.C69_simplex"
   ],
   "note": "any element types in terms of the traces of the shape functions of dune-localfunctions (discharged by simplex_traces, cube_traces and prism_traces); the shape functions of pyramids are a hypothesis of C69_face"
  },
  {
   "property": "C70",
   "status": "partial",
   "theorems": [
    "Verif.Erased.C70_partial",
    "Verif.Erased.C70_independent",
    "Verif.Erased.C70_derivative",
    "Verif.Erased.C70_buffer_size_false",
    "Verif.Erased.C70_empty_false"
   ],
   "note": "empty wrappers cannot be copied or called (as in C42), and the template parameter bufferSize is ignored"
  },
  {
   "property": "C71",
   "status": "partial",
   "theorems": [
    "Verif.Callables.C71_partial",
    "Verif.Callables.C71_chain",
    "Verif.Callables.C71_reference_false"
   ],
   "note": "callables passed as lvalues are stored by reference; the statement holds for rvalues and while the originals are neither changed nor destroyed"
  },
  {
   "property": "C72",
   "status": "partial",
   "theorems": [
    "Verif.Lifetime.C72_partial",
    "Verif.Lifetime.C72_temporary",
    "Verif.Lifetime.C72_false",
    "Verif.Lifetime.C72_derivative_false",
    "Verif.Lifetime.C72_local_derivative_false"
   ],
   "note": "while the variables a local function refers to exist; C72_temporary says exactly which grid functions may be destroyed before their local functions"
  },
  {
   "property": "C73",
   "status": "partial",
   "theorems": [
    "Verif.Nodes.C73_views",
    "Verif.Nodes.C73_references_partial",
    "Verif.Nodes.C73_python",
    "Verif.Nodes.C73_child_partial",
    "Verif.Nodes.C73_assign_false",
    "Verif.Nodes.C73_child_false",
    "Verif.Nodes.C73_tree_false"
   ],
   "note": "values are right for all programs; element and finite element of nodes while no local view is assigned, or after a bind; Python nodes are copies that go stale with the next bind, and trees dangle without their local view"
  },
  {
   "property": "C74",
   "status": "partial",
   "theorems": [
    "Verif.PyInterpolate.C74_interpolate_partial",
    "Verif.PyInterpolate.C74_exception",
    "Verif.PyInterpolate.C74_reported",
    "Verif.PyInterpolate.C74_roundtrip",
    "Verif.PyInterpolate.C74_convert_false",
    "Verif.PyInterpolate.C74_asFunction_false"
   ],
   "note": "flat bases and arrays with entries of type double, bool or int; for other entry types a temporary copy is filled and the array of the caller is left unchanged, and asFunction ignores all but the first digit of multi-indices"
  },
  {
   "property": "C75",
   "status": "proved",
   "theorems": [
    "Verif.Transformed.C75",
    "Verif.Transformed.C75_indexSet",
    "Verif.Transformed.C75_rotate",
    "Verif.Transformed.C75_renumber",
    "Verif.Transformed.C75_merge_false"
   ],
   "note": "for consistent transformations, a contract on the callbacks of the user; C75_merge_false: dimension() is wrong for callbacks that identify multi-indices"
  },
  {
   "property": "C76",
   "status": "proved",
   "theorems": [
    "Verif.NodeToRange.C76",
    "Verif.NodeToRange.C76_eval",
    "Verif.NodeToRange.C76_roundTrip"
   ],
   "note": "for ranges with index access nested like the tree, and for single leaves; for other trees a scalar range is shared by all leaves (C41_shared_entry_false)"
  },
  {
   "property": "C77",
   "status": "partial",
   "theorems": [
    "Verif.Assign.C77_number",
    "Verif.Assign.C77_basis",
    "Verif.Assign.C77_first",
    "Verif.Assign.C77_backend_partial",
    "Verif.Assign.C77_backend_false"
   ],
   "note": "values for all container types; assignments between backends of different types; backends of the same type copy the pointer instead of the entries"
  },
  {
   "property": "C78",
   "status": "proved",
   "theorems": [
    "Verif.BSpline.C78_independent",
    "Verif.BSpline.C78_reproduce",
    "Verif.BSpline.C78_open",
    "Verif.BSpline.C78_outer_false"
   ],
   "note": "independence for all knot vectors; polynomials if all elements are inner knot spans, as for open knot vectors (C78_outer_false: needed)"
  },
  {
   "property": "C79",
   "status": "proved",
   "theorems": [
    "Verif.Lagrange.Continuity.C79_value",
    "Verif.Lagrange.Continuity.C79_unique",
    "Verif.Lagrange.Continuity.C79_interpolate"
   ],
   "note": "simplices, cubes and prisms, also mixed, exact arithmetic, order at least 1; the shape functions and points of dune-localfunctions are a specification"
  },
  {
   "property": "C80",
   "status": "proved",
   "theorems": [
    "Verif.Lagrange.Continuity.C80_visited",
    "Verif.Lagrange.Continuity.C80_boundary"
   ],
   "note": "C80_visited for all element types; C80_boundary for simplices, cubes and prisms, also mixed, order at least 1; basis trees with more leaves: C32_boundary"
  },
  {
   "property": "C81",
   "status": "partial",
   "theorems": [
    "Verif.BasisLifetime.C81_safe",
    "Verif.BasisLifetime.C81_scopes",
    "Verif.BasisLifetime.C81_references",
    "Verif.BasisLifetime.C81_nested",
    "Verif.BasisLifetime.C81_constant",
    "Verif.BasisLifetime.C81_view",
    "Verif.BasisLifetime.C81_asNew",
    "Verif.BasisLifetime.C81_function",
    "Verif.BasisLifetime.C81_localFunction",
    "Verif.BasisLifetime.C81_owned",
    "Verif.BasisLifetime.C81_library",
    "Verif.BasisLifetime.C81_copy_partial",
    "Verif.BasisLifetime.C81_temporarySubspace_false",
    "Verif.BasisLifetime.C81_temporaryVector_false",
    "Verif.BasisLifetime.C81_copy_false"
   ],
   "note": "false for temporary vectors that cannot be accessed by multi-indices: the function refers to the temporary (C81_temporaryVector_false); copies of bound local views after an update differ from the original (C81_copy_false); a local view of a temporary subspace basis dangles (C81_temporarySubspace_false)"
  },
  {
   "property": "C82",
   "status": "partial",
   "theorems": [
    "Verif.PyBasis.C82_typeName",
    "Verif.PyBasis.C82_module",
    "Verif.PyBasis.C82_composite",
    "Verif.PyBasis.C82_power",
    "Verif.PyBasis.C82_wellFormed",
    "Verif.PyBasis.C82_product",
    "Verif.PyBasis.C82_regroup",
    "Verif.PyBasis.C82_exists",
    "Verif.PyBasis.C82_rangeDim",
    "Verif.PyBasis.C82_interleaved_false",
    "Verif.PyBasis.C82_dg_false",
    "Verif.PyBasis.C82_asFunction_false"
   ],
   "note": "false for Composite with layout interleaved: the name exists but the type does not compile (C82_interleaved_false), DG is never supported (C82_dg_false); asFunction depends on the grouping (C82_asFunction_false)"
  },
  {
   "property": "C83",
   "status": "partial",
   "theorems": [
    "Verif.PyLife.C83_safe",
    "Verif.PyLife.C83_variables",
    "Verif.PyLife.C83_free",
    "Verif.PyLife.C83_gridViewFunction_false",
    "Verif.PyLife.C83_setGridView_false",
    "Verif.PyLife.C83_getGridView_false",
    "Verif.PyLife.C83_tree_false",
    "Verif.PyLife.C83_basis_false",
    "Verif.PyLife.C83_unbind_false"
   ],
   "note": "false for GridViewFunction(f), basis.gridView, basis.gridView = other grid and localView.tree(), which do not keep what they need (the _false theorems); f.basis and unbind() lose memory forever (C83_basis_false, C83_unbind_false); true for all other statements"
  },
  {
   "property": "C84",
   "status": "proved",
   "theorems": [
    "Verif.Lagrange.Continuity.C84_space",
    "Verif.Lagrange.Continuity.C84_nested",
    "Verif.Lagrange.Continuity.C84_reproduce",
    "Verif.Lagrange.Continuity.C84_projection",
    "Verif.Lagrange.Continuity.C84_roundTrip"
   ],
   "note": "simplices, cubes and prisms, also mixed, exact arithmetic, order at least 1; the shape functions and points of dune-localfunctions are a specification"
  },
  {
   "property": "C85",
   "status": "proved",
   "theorems": [
    "Verif.Lagrange.Continuity.C85_value",
    "Verif.Lagrange.Continuity.C85_space",
    "Verif.Lagrange.Continuity.C85_interpolate",
    "Verif.Lagrange.Continuity.C85_local",
    "Verif.Lagrange.Continuity.C85_continuous"
   ],
   "note": "simplices, cubes and prisms, also mixed, exact arithmetic, order at least 1; the shape functions and points of dune-localfunctions are a specification"
  },
  {
   "property": "C86",
   "status": "proved",
   "theorems": [
    "Verif.SubDomain.C86_gridView",
    "Verif.SubDomain.C86_lagrangeGrid",
    "Verif.SubDomain.C86_mapper",
    "Verif.SubDomain.C86_lagrange",
    "Verif.SubDomain.C86_dimension",
    "Verif.SubDomain.C86_functions",
    "Verif.SubDomain.C86_restricted",
    "Verif.SubDomain.C86_insert",
    "Verif.SubDomain.C86_insert_false"
   ],
   "note": "C86_insert_false shows that the update demanded for new elements is needed"
  },
  {
   "property": "C87",
   "status": "proved",
   "theorems": [
    "Verif.HDiv.Trace.C87_space",
    "Verif.HDiv.Trace.C87_facet",
    "Verif.HDiv.Trace.C87_unique",
    "Verif.HDiv.Trace.C87_divergence"
   ],
   "note": "elements of dune-localfunctions for triangles and tetrahedra modelled; affine simplices"
  },
  {
   "property": "C88",
   "status": "proved",
   "theorems": [
    "Verif.HDiv.Tangential.C88_space",
    "Verif.HDiv.Tangential.C88_unique",
    "Verif.HDiv.Tangential.C88_face",
    "Verif.HDiv.Tangential.C88_gradient",
    "Verif.HDiv.Tangential.C88_curl"
   ],
   "note": "elements of dune-localfunctions for triangles and tetrahedra modelled; affine simplices"
  },
  {
   "property": "C89",
   "status": "proved",
   "theorems": [
    "Verif.FE.TriangleSpace.C89_morley",
    "Verif.FE.TriangleSpace.C89_morley_unique",
    "Verif.FE.TriangleSpace.C89_argyris",
    "Verif.FE.TriangleSpace.C89_argyris_unique",
    "Verif.FE.HermiteSpace.C89_hermite",
    "Verif.FE.HermiteSpace.C89_hermite_unique"
   ],
   "note": "affine simplices; model of C61, C62 and C64"
  },
  {
   "property": "C90",
   "status": "proved",
   "theorems": [
    "Verif.FE.BoundaryDofs.C90_morley",
    "Verif.FE.BoundaryDofs.C90_argyris",
    "Verif.FE.BoundaryDofs.C90_morley_values_false",
    "Verif.FE.BoundaryDofs.Hermite.C90_hermite",
    "Verif.FE.BoundaryDofs.Hermite.C90_hermite_values_false",
    "Verif.HDiv.BoundaryDofs.C90_raviartThomas",
    "Verif.HDiv.BoundaryDofs.C90_nedelec"
   ],
   "note": "affine simplices; models of C32, C61, C62, C67 and C68"
  },
  {
   "property": "C91",
   "status": "proved",
   "theorems": [
    "Verif.BSpline.C91_space",
    "Verif.BSpline.C91_open",
    "Verif.BSpline.C91_outer_false"
   ],
   "note": "exact arithmetic; knots equal or at distance 1e-8 and more"
  },
  {
   "property": "C92",
   "status": "partial",
   "theorems": [
    "Verif.Factories.C92_program_partial",
    "Verif.Factories.C92_defined",
    "Verif.Factories.C92_depends",
    "Verif.Factories.C92_owned",
    "Verif.Factories.C92_refers",
    "Verif.Factories.C92_plain",
    "Verif.Factories.C92_temporary_false",
    "Verif.Factories.C92_changed_false",
    "Verif.Factories.C92_subdomain_false"
   ],
   "note": "false for factories of bSpline and restrict that are kept: they refer to their arguments"
  },
  {
   "property": "C93",
   "status": "proved",
   "theorems": [
    "Verif.Lagrange.Hierarchical.C93_continuous",
    "Verif.Lagrange.Hierarchical.C93_space",
    "Verif.Lagrange.Hierarchical.C93_unique",
    "Verif.Lagrange.Hierarchical.C93_lagrange",
    "Verif.Lagrange.Hierarchical.C93_line",
    "Verif.Lagrange.Hierarchical.C93_interpolate",
    "Verif.Lagrange.Hierarchical.C93_roundTrip"
   ],
   "note": ""
  },
  {
   "property": "C94",
   "status": "partial",
   "theorems": [
    "Verif.Lagrange.Nonconforming.C94_space_partial",
    "Verif.Lagrange.Nonconforming.C94_center",
    "Verif.Lagrange.Nonconforming.C94_unique_partial",
    "Verif.Lagrange.Nonconforming.C94_interpolate_partial",
    "Verif.Lagrange.Nonconforming.C94_roundTrip_partial",
    "Verif.Lagrange.Nonconforming.C94_meets",
    "Verif.Lagrange.Nonconforming.C94_conforming_partial",
    "Verif.Lagrange.Nonconforming.C94_mean_triangles",
    "Verif.Lagrange.Nonconforming.C94_mean_tetrahedra",
    "Verif.Lagrange.Nonconforming.C94_mean_false",
    "Verif.Lagrange.Nonconforming.C94_false"
   ],
   "note": "needs one type of facets, false otherwise (C94_false); means agree on simplices, not on cubes (C94_mean_false)"
  },
  {
   "property": "C95",
   "status": "proved",
   "theorems": [
    "Verif.Lagrange.Refined.C95_continuous",
    "Verif.Lagrange.Refined.C95_space",
    "Verif.Lagrange.Refined.C95_contains",
    "Verif.Lagrange.Refined.C95_nodal",
    "Verif.Lagrange.Refined.C95_unique",
    "Verif.Lagrange.Refined.C95_interpolate",
    "Verif.Lagrange.Refined.C95_roundTrip",
    "Verif.Lagrange.Refined.C95_constant",
    "Verif.Lagrange.Refined.C95_constant_unique",
    "Verif.Lagrange.Refined.C95_constant_interpolate"
   ],
   "note": ""
  },
  {
   "property": "C96",
   "status": "partial",
   "theorems": [
    "Verif.HDiv.BDM.C96_jump",
    "Verif.HDiv.BDM.C96_partial",
    "Verif.HDiv.BDM.C96_false"
   ],
   "note": ""
  },
  {
   "property": "C97",
   "status": "proved",
   "theorems": [
    "Verif.HDiv.BDM.C97_space",
    "Verif.HDiv.BDM.C97_edge",
    "Verif.HDiv.BDM.C97_unique",
    "Verif.HDiv.BDM.C97_contains",
    "Verif.HDiv.BDM.C97_divergence",
    "Verif.HDiv.BDM.C97_square"
   ],
   "note": ""
  },
  {
   "property": "C98",
   "status": "proved",
   "theorems": [
    "Verif.Lagrange.BoundaryValues.C98_hierarchical",
    "Verif.Lagrange.BoundaryValues.C98_refined",
    "Verif.Lagrange.BoundaryValues.C98_nonconforming",
    "Verif.Lagrange.BoundaryValues.C98_nonconforming_ends",
    "Verif.HDiv.BDM.C98_bdm"
   ],
   "note": ""
  },
  {
   "property": "C99",
   "status": "proved",
   "theorems": [
    "Verif.Product.C99_components",
    "Verif.Product.C99_space",
    "Verif.Product.C99_unique",
    "Verif.Product.C99_outside",
    "Verif.Lagrange.Product.C99_lagrange",
    "Verif.Lagrange.Product.C99_lagrange_unique",
    "Verif.Lagrange.Product.C99_taylorHood"
   ],
   "note": ""
  },
  {
   "property": "C100",
   "status": "partial",
   "theorems": [
    "Verif.BSpline.C100_side",
    "Verif.BSpline.C100_boundary",
    "Verif.BSpline.C100_visited_partial",
    "Verif.BSpline.C100_values_partial",
    "Verif.BSpline.C100_open",
    "Verif.BSpline.C100_interior_false",
    "Verif.BSpline.C100_missed_false",
    "Verif.BSpline.C100_order0_false",
    "Verif.BSpline.C100_closed_false"
   ],
   "note": ""
  },
  {
   "property": "C101",
   "status": "partial",
   "theorems": [
    "Verif.Renumbered.C101_transformed",
    "Verif.Renumbered.C101_pull",
    "Verif.Renumbered.C101_periodic_partial",
    "Verif.Renumbered.C101_unique",
    "Verif.Renumbered.C101_open_false",
    "Verif.Lagrange.Periodic.C101_value",
    "Verif.Lagrange.Periodic.C101_lagrange_partial",
    "Verif.Lagrange.Periodic.C101_lagrange_unique"
   ],
   "note": ""
  },
  {
   "property": "C102",
   "status": "proved",
   "theorems": [
    "Verif.HDiv.Trace.C102_space",
    "Verif.HDiv.Trace.C102_facet",
    "Verif.HDiv.Trace.C102_unique",
    "Verif.HDiv.Trace.C102_divergence"
   ],
   "note": ""
  },
  {
   "property": "C103",
   "status": "proved",
   "theorems": [
    "Verif.HDiv.Tangential.C103_space",
    "Verif.HDiv.Tangential.C103_edge",
    "Verif.HDiv.Tangential.C103_unique",
    "Verif.HDiv.Tangential.C103_facet",
    "Verif.HDiv.Tangential.C103_gradient"
   ],
   "note": ""
  },
  {
   "property": "C104",
   "status": "proved",
   "theorems": [
    "Verif.SubDomain.C104_visits",
    "Verif.SubDomain.C104_equal",
    "Verif.SubDomain.C104_end"
   ],
   "note": ""
  },
  {
   "property": "C105",
   "status": "partial",
   "theorems": [
    "Verif.Derivative.C105_local_partial",
    "Verif.Derivative.C105_global_partial",
    "Verif.Derivative.C105_elements",
    "Verif.Derivative.C105_piola",
    "Verif.Derivative.C105_contract",
    "Verif.Derivative.C105_nonaffine_false"
   ],
   "note": ""
  },
  {
   "property": "C106",
   "status": "proved",
   "theorems": [
    "Verif.GridFunctions.C106_sound",
    "Verif.GridFunctions.C106_agree",
    "Verif.GridFunctions.C106_lagrange",
    "Verif.GridFunctions.C106_discontinuous"
   ],
   "note": ""
  },
  {
   "property": "C107",
   "status": "proved",
   "theorems": [
    "Verif.Lagrange.Constant.C107_index",
    "Verif.Lagrange.Constant.C107_same",
    "Verif.Lagrange.Constant.C107_space",
    "Verif.Lagrange.Constant.C107_unique",
    "Verif.Lagrange.Constant.C107_interpolate"
   ],
   "note": ""
  },
  {
   "property": "C108",
   "status": "proved",
   "theorems": [
    "Verif.HDiv.Trees.C108_space",
    "Verif.HDiv.Trees.C108_unique",
    "Verif.HDiv.Trees.C108_divergence",
    "Verif.HDiv.Trees.C108_gradient"
   ],
   "note": ""
  },
  {
   "property": "C109",
   "status": "proved",
   "theorems": [
    "Verif.HDiv.BoundaryMixed.C109_raviartThomas",
    "Verif.HDiv.BoundaryMixed.C109_nedelec"
   ],
   "note": ""
  },
  {
   "property": "C110",
   "status": "proved",
   "theorems": [
    "Verif.Dofs.C110_subspace",
    "Verif.Dofs.C110_component",
    "Verif.Dofs.C110_agree",
    "Verif.HDiv.Trees.C110_trees",
    "Verif.HDiv.Trees.C110_set"
   ],
   "note": ""
  },
  {
   "property": "C111",
   "status": "proved",
   "theorems": [
    "Verif.Dirichlet.C111_marker",
    "Verif.Dirichlet.C111_interpolate",
    "Verif.HDiv.Trees.C111_trees",
    "Verif.HDiv.Trees.C111_discrete"
   ],
   "note": ""
  },
  {
   "property": "C112",
   "status": "proved",
   "theorems": [
    "Verif.Dofs.C112_calls",
    "Verif.Dofs.C112_program",
    "Verif.HDiv.Trees.C112_trees",
    "Verif.HDiv.Trees.C112_raviartThomas"
   ],
   "note": ""
  },
  {
   "property": "C113",
   "status": "proved",
   "theorems": [
    "Verif.Galerkin.C113_matrix",
    "Verif.Galerkin.C113_rows",
    "Verif.Galerkin.C113_eliminate",
    "Verif.HDiv.Trees.C113_trees_rows",
    "Verif.HDiv.Trees.C113_trees_eliminate"
   ],
   "note": ""
  },
  {
   "property": "C114",
   "status": "proved",
   "theorems": [
    "Verif.Galerkin.C114_laplace",
    "Verif.Galerkin.C114_mixed",
    "Verif.Galerkin.C114_poisson",
    "Verif.HDiv.Trees.C114_trees_mixed"
   ],
   "note": ""
  },
  {
   "property": "C115",
   "status": "proved",
   "theorems": [
    "Verif.Galerkin.C115_stokes",
    "Verif.Galerkin.C115_rows",
    "Verif.HDiv.Trees.C115_trees"
   ],
   "note": ""
  },
  {
   "property": "C116",
   "status": "partial",
   "theorems": [
    "Verif.Galerkin.C116_advection_partial",
    "Verif.Galerkin.C116_continuous",
    "Verif.Galerkin.C116_consistency_false"
   ],
   "note": ""
  },
  {
   "property": "C117",
   "status": "proved",
   "theorems": [
    "Verif.Galerkin.C117_blocks",
    "Verif.Galerkin.C117_system",
    "Verif.Galerkin.C117_entries",
    "Verif.HDiv.Trees.C117_stokes"
   ],
   "note": ""
  },
  {
   "property": "C118",
   "status": "partial",
   "theorems": [
    "Verif.PySystems.C118_constraints",
    "Verif.PySystems.C118_symmetric",
    "Verif.PySystems.C118_mfem",
    "Verif.PySystems.C118_rows_partial",
    "Verif.PySystems.C118_laplace",
    "Verif.PySystems.C118_rows_false"
   ],
   "note": ""
  },
  {
   "property": "C119",
   "status": "partial",
   "theorems": [
    "Verif.PySystems.C119_divergence_partial",
    "Verif.PySystems.C119_divergence_false"
   ],
   "note": ""
  },
  {
   "property": "C120",
   "status": "proved",
   "theorems": [
    "Verif.PySystems.C120_program"
   ],
   "note": ""
  }
 ]
}