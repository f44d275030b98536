c("C01","proved",[N+"C01_digits_lt_size"])
c("C02","proved",[N+"C02_unique"])
c("C03","proved",[N+"C03_complete"])
c("C04","proved",[N+"C04_prefixFree"])
c("C05","proved",[N+"C05_dimension"])
c("C06","proved",[N+"C06_length"],"capacity overflow is the undefined outcome of the model; the theorem shows it is never reached")
c("C07","proved",[N+"C07_fill"])
c("C08","proved",[N+"C08_power",N+"C08_composite"])
c("C09","proved",[N+"C09_history"])
c("C10","proved",[N+"C10_localIndices",N+"C10_treeIndices"])
c("C11","proved",[N+"C11_maxSize","Verif.Mapper.mapperLeaf_WF","Verif.Lagrange.lagrangeLeaf_WF"],"mapper based and Lagrange leaf bases are shown to satisfy the hypothesis on leaves")
c("C12","proved",[N+"C12_descriptor",N+"C12_valid_prefixes",N+"C12_taylorHood",N+"C12_empty_leaf_false"],"holds for all prefixes of existing multi-indices; for prefixes that are only size-valid it needs non-empty leaf bases, with an empty leaf basis it is false (C12_empty_leaf_false)")
c("C14","proved",[N+"C14_restricted",N+"C14_restricted_tree"])
R="Verif.ReservedDeque."
O="Verif.OverflowArray."
c("C15","partial",[N+"C15_partial",N+"C15_order",N+"C15_basis",N+"C15_false"],"false for sets of pairs that are not closed (C15_false); everything else proved")
c("C16","partial",[N+"C16_sizes",N+"C16_partial",N+"C16_false"],"size() and dimension() agree; the descriptor is that of the raw basis, it agrees iff nothing was unified")
c("C17","partial",[N+"C17_flat_partial",N+"C17_hybrid_sizes_partial",N+"C17_hybrid_indices",N+"C17_hybrid_false"],"flat variant proved; hybrid variant: sizes and dimension proved, multi-indices are wrong (C17_hybrid_false)")
c("C18","partial",[R+"C18_partial",R+"C18_no_push_back_partial",R+"C18_false",R+"C18_initializer_list_false"],"push_back is wrong after push_front/pop_front and the initializer list constructor leaves the start uninitialised")
c("C19","partial",[O+"C19_partial",O+"C19_eq",O+"C19_push_front_false",O+"C19_push_front_empty_false"],"all operations but push_front, which is wrong")
L="Verif.Lagrange."
MP="Verif.Mapper."
c("C13","proved",[N+"C13_subspace"])
c("C20","proved",[L+"C20_edge",L+"C20_C22_conformity"])
c("C21","proved",[L+"C21_triangle",L+"C20_C22_conformity"])
c("C22","proved",[L+"C22_quadrilateral",L+"C20_C22_conformity"])
c("C23","proved",[L+"C23_tables",L+"C23_sharp"])
c("C24","proved",[L+"C24_counts",L+"C24_maxNodeSize",L+"C24_simplex",L+"C24_cube",L+"C24_leaf",L+"C24_pyramid_order3"],"pyramids: orders accepted by the constructor (<= 2); for order 3 the layout would be wrong (C24_pyramid_order3)")
H="Verif.HDiv."
c("C25","proved",[L+"C25_dg"])
c("C57","proved",[L+"C57_layouts",L+"C57_bubble_1d"],"bubble on P2 for d >= 2; in 1d the bubble coincides with the edge function")
c("C58","partial",[L+"C58_partial",L+"C58_maxNodeSize",L+"C58_false"],"holds if all facets have the same type; false for 3d grids with tetrahedra and hexahedra, which the constructor accepts (C58_false)")
c("C47","proved",[H+"C47_raviartThomas",H+"C47_facet",H+"C47_boundary",H+"C47_bdm",H+"C47_nedelec",H+"C47_edgeOrientations",H+"C47_bdm_not_contained_false",H+"C47_fixed_prism_false"],"BDM: for grid views containing all neighbours of their elements (C47_bdm_not_contained_false); Raviart-Thomas on grids with a fixed element type: simplices and cubes (C47_fixed_prism_false)")
c("C48","partial",[H+"C48_raviartThomas",H+"C48_rt_quadrilateral",H+"C48_bdm1",H+"C48_nedelec",H+"C48_bdm2_false",H+"C48_bdm2_unused"],"Raviart-Thomas, Nedelec and BDM of order 1 proved; false for BDM of order 2 (C48_bdm2_false, C48_bdm2_unused)")
B="Verif.BSpline."
c("C26","proved",[B+"C26_element",B+"C26_digits",B+"C26_open",B+"C26_uniform",B+"C26_basis",B+"C26_repeated_false"],"knots at distance at least 1e-8; with repeated knots the constructor computes a wrong number of elements (C26_repeated_false, documented as todo in the code)")
c("C27","proved",[B+"C27_values",B+"C27_tensor",B+"C27_basis",B+"C27_threshold_false"],"exact arithmetic; different knots must differ by more than the threshold 1e-10 of the code (C27_threshold_false); sum one on inner knot spans, which are all spans of open knot vectors")
c("C28","proved",[B+"C28_derivatives",B+"C28_tensor"],"exact arithmetic, knots as in C27")
c("C29","partial",[B+"C29_one",B+"C29_two_partial",B+"C29_two_false",B+"C29_distinct_false"],"one direction proved; two directions: everything but consecutive numbers of the inner functions, which is false (C29_two_false); keys occur twice if an element has a single function in a direction or in 3d (C29_distinct_false)")
c("C59","proved",[B+"C59_smooth"],"exact arithmetic, knots as in C27")
SD="Verif.SubDomain."
D="Verif.Dofs."
c("C30","proved",[SD+"C30_indexSet",SD+"C30_stable",SD+"C30_reinsert"])
c("C31","proved",[SD+"C31_elements",SD+"C31_subdomain",SD+"C31_intersections",SD+"C31_interface",SD+"C31_membership",SD+"C31_no_intersections_false"],"the intersection iterator needs at least one intersection per element (C31_no_intersections_false); the interface iterator visits the oriented intersections, as documented")
c("C32","proved",[D+"C32_bind",D+"C32_view",D+"C32_boundary",D+"C32_global"])
CO="Verif.Container."
FV="Verif.FlatView."
c("C33","partial",[CO+"C33_shape",CO+"C33_access",CO+"C33_error",CO+"C33_error_basis",CO+"C33_access_false",CO+"C33_empty_basis_false"],"sizes after resize proved for all types; access in range unless a single coefficient is represented by nested dynamic vectors (C33_access_false); errors only if the type cannot represent the tree if all leaf bases are non-empty (C33_empty_basis_false)")
c("C34","partial",[CO+"C34_container",CO+"C34_basis",CO+"C34_istl_partial",CO+"C34_istl_basis_partial",CO+"C34_istl_false"],"makeContainer proved; makeISTLVector proved except for arrays with a single BlockVector, where it loses a level (C34_istl_false)")
c("C35","proved",[CO+"C35_access",CO+"C35_access_iff",CO+"C35_access_final",CO+"C35_hybrid",CO+"C35_static",CO+"C35_write",CO+"C35_write_basis",CO+"C35_tuple_out_of_range_false"],"out of range digits for multi-type containers silently address entry 0 (C35_tuple_out_of_range_false)")
c("C36","partial",[FV+"C36_partial",FV+"C36_blocks",FV+"C36_nested_vector_false"],"proved for arrays of arrays ... of scalars, matrices, vectors of scalars; nested FieldVectors are not flattened (C36_nested_vector_false)")
AN="Verif.Analytic."
c("C37","proved",[AN+"C37_eval",AN+"C37_derivative",AN+"C37_static",AN+"C37_eq",AN+"C37_count",AN+"C37_skip_false"],"exact arithmetic; the documented elimination of static zeros does not take place (C37_skip_false), values are unaffected")
c("C38","proved",[AN+"C38_exponents",AN+"C38_values",AN+"C38_derivatives"],"exact arithmetic, any commutative ring")
c("C55","proved",[AN+"C55",AN+"C55_period"],"over the real numbers")
IP="Verif.Interpolate."
DI="Verif.Discrete."
c("C39","proved",[IP+"C39",IP+"C39_basis",IP+"C39_visits",IP+"C39_all"],"the coefficients computed by the local finite elements are a parameter")
c("C40","proved",[IP+"C40"])
c("C41","partial",[DI+"C41_linearCombination_partial",DI+"C41_linear",DI+"C41_global",DI+"C41_shared_entry_false",DI+"C41_assign_false"],"proved for all histories; leaves sharing a range entry overwrite each other (C41_shared_entry_false); copy assignment of local functions copies element pointers, which Raviart-Thomas, BDM and Nedelec elements use (C41_assign_false)")
DS="Verif.Distance."
GF="Verif.GridFunctions."
FN="Verif.FaceNormal."
c("C43","partial",[GF+"C43_partial",GF+"C43_copy_false",GF+"C43_temporary_false"],"proved for bound objects and coordinate maps of copies; coarseElement of copies is wrong if fathers were visited (C43_copy_false); binding to temporaries is undefined (C43_temporary_false)")
c("C44","partial",[DS+"C44_inside",DS+"C44_checkInside",DS+"C44_attained",DS+"C44_l1_partial",DS+"C44_l1_iff",DS+"C44_pyramid_false"],"zero set and checkInside proved for all topologies; the l1 distance is computed exactly for topologies without a cone over a product (C44_l1_iff), false for the square pyramid (C44_pyramid_false)")
c("C45","proved",[GF+"C45",GF+"C45_inside"],"exact arithmetic, distances below the largest number")
c("C46","proved",[FN+"C46",FN+"C46_normal"],"points of the reference element; real numbers")
c("C54","proved",[GF+"C54",GF+"C54_coarse_derivative_false"],"also for coarse and fine functions in arbitrary combinations; derivatives of coarse functions that are not bound are undefined (C54_coarse_derivative_false)")
SO="Verif.SmallObject."
c("C42","partial",[SO+"C42_partial",SO+"C42_no_leak",SO+"C42_fits",SO+"C42_copy_empty_false",SO+"C42_throw_false",SO+"C42_self_move_false",SO+"C42_offset_false"],"all histories of any number of wrappers, except for copies of empty wrappers, copy assignment that throws, self move assignment, types in the buffer whose base class is not at the beginning: false for each of them")
MS="Verif.MeshSize."
c("C56","proved",[MS+"C56",MS+"C56_pos",MS+"C56_perm"],"real numbers; counters do not overflow; different local sub-entities of an element are different entities (contract of the grid)")
PI="Verif.Piola."
c("C52","partial",[PI+"C52_inverse",PI+"C52_dual",PI+"C52_flux",PI+"C52_tangential",PI+"C52_jacobian",PI+"C52_partial_derivatives",PI+"C52_nonaffine_false"],"values, degrees of freedom, fluxes and tangential components for all (curved) elements; Jacobians for affine elements, false otherwise (C52_nonaffine_false, documented in the code)")
HE="Verif.FE.Hermite."
c("C49","proved",[HE+"C49",HE+"C49_polynomials",HE+"C49_reproduction"],"all existing variants (1d, 2d, 2d reduced, 3d); exact arithmetic in a field of characteristic zero; the mesh size pointer of the interpolation refers to the same object")
MO="Verif.FE.Morley."
c("C50","proved",[MO+"C50",MO+"C50_polynomials",MO+"C50_constant",MO+"C50_reproduction"],"real numbers; also after binding to other elements before; error of the decimal constant for the square root of two bounded in C50_constant")
AR="Verif.FE.Argyris."
c("C51","proved",[AR+"C51",AR+"C51_polynomials",AR+"C51_constant",AR+"C51_reproduction"],"real numbers; mesh sizes may be any nonzero numbers; error of the decimal constant for the square root of two bounded in C51_constant")
UP="Verif.Update."
c("C53","partial",[UP+x for x in ["C53_partial","C53_raviartThomas_find","C53_nedelec_find","C53_argyris_edges","C53_taylorHood_partial","C53_taylorHood_false","C53_morley_partial","C53_morley_false","C53_periodic_partial","C53_periodic_false","C53_checks_false"]],"all histories, all bases without Morley, Taylor-Hood and periodic parts; Taylor-Hood keeps the old grid view (C53_taylorHood_false), Morley the old element mapper (C53_morley_false), periodic bases the old index table (C53_periodic_false)")
FEN="Verif.FE."
c("C60","proved",[FEN+"C60_hermite",FEN+"C60_morley",FEN+"C60_argyris"],"grids of simplices with the standard numbering of sub-entities")
CF="Verif.FE.Conform."
c("C61","proved",[CF+"C61_argyris",CF+"C61_argyris_vertex",CF+"C61_morley",CF+"C61_morley_vertex"],"real numbers, affine geometries; derivatives for the exact value of the constant used for the square root of two (values for any constant)")
HC="Verif.FE.HermiteConform."
c("C62","proved",[HC+"C62_vertex",HC+"C62_facet"],"real numbers, affine geometries, all existing variants (1d, 2d, 2d reduced, 3d)")
RT="Verif.RoundTrip."
c("C63","proved",[RT+"C63",RT+"C63_all"],"scalar coefficients; duality of the finite elements is a hypothesis (proved for Hermite, Morley, Argyris in C49-C51); different leaves have different range entries (necessary by C41_shared_entry_false)")
HI="Verif.FE.HermiteInterp."
TI="Verif.FE.TriangleInterp."
c("C64","proved",[HI+"C64_hermite",HI+"C64_hermite_polynomials",HI+"C64_hermite_projection",TI+"C64_morley",TI+"C64_morley_polynomials",TI+"C64_morley_projection",TI+"C64_argyris",TI+"C64_argyris_polynomials"],"real numbers, affine geometries, flat indices; statements on normal derivatives, polynomials and Morley projections for the exact value of the constant used for the square root of two")
DE="Verif.FE.Describe."
c("C65","partial",[DE+"C65_hermite_partial",DE+"C65_hermite_false",DE+"C65_morley",DE+"C65_argyris"],"proved for Morley, Argyris and Hermite in dimensions 2 and 3; false for Hermite in dimension 1, where FunctionalDescriptor({1}) selects the constructor for normal derivatives (C65_hermite_false)")
CP="Verif.FE.Copies."
c("C66","partial",[CP+x for x in ["C66_partial","C66_hermite_partial","C66_morley","C66_argyris_partial","C66_rebound","C66_bspline_partial","C66_copy_false","C66_assign_false","C66_bspline_false"]],"proved for programs without copy assignment: shape functions of all objects (Hermite, Morley, Argyris), interpolation of all Morley objects and of Hermite and Argyris objects bound after construction, B-spline objects bound after construction; false otherwise: the interpolation of a Hermite or Argyris copy reads the mesh sizes of the original (C66_copy_false), the shape functions of an assigned element are those of the source (C66_assign_false), the knot spans of a copied B-spline element are not initialized (C66_bspline_false)")
TR="Verif.HDiv.Trace."
c("C67","proved",[TR+"C67_raviartThomas",TR+"C67_simplex",TR+"C67_mixed"],"in terms of the fluxes of the shape functions of dune-localfunctions for all element types (C67_raviartThomas), with the shape functions for affine triangles and tetrahedra (C67_simplex) and for grids of triangles, quadrilaterals, tetrahedra, hexahedra and prisms with multilinear geometries (C67_mixed)")
TT="Verif.HDiv.Tangential."
c("C68","proved",[TT+"C68_edge",TT+"C68_shared",TT+"C68_simplex",TT+"C68_mixed"],"edges of simplices and cubes, also mixed, in terms of the tangential components of the shape functions of dune-localfunctions (discharged by simplex_tangents and cube_tangents); common faces of any dimension for affine simplices; facets of simplices and cubes with multilinear geometries, also mixed")
LC="Verif.Lagrange.Continuity."
c("C69","proved",[LC+"C69_matching",LC+"C69_face",LC+"C69_continuous",LC+"C69_simplex"],"any element types in terms of the traces of the shape functions of dune-localfunctions (discharged by simplex_traces, cube_traces and prism_traces); the shape functions of pyramids are a hypothesis of C69_face")
ER="Verif.Erased."
c("C70","partial",[ER+"C70_partial",ER+"C70_independent",ER+"C70_derivative",ER+"C70_buffer_size_false",ER+"C70_empty_false"],"empty wrappers cannot be copied or called (as in C42), and the template parameter bufferSize is ignored")
CA="Verif.Callables."
c("C71","partial",[CA+"C71_partial",CA+"C71_chain",CA+"C71_reference_false"],"callables passed as lvalues are stored by reference; the statement holds for rvalues and while the originals are neither changed nor destroyed")
LT="Verif.Lifetime."
c("C72","partial",[LT+"C72_partial",LT+"C72_temporary",LT+"C72_false",LT+"C72_derivative_false",LT+"C72_local_derivative_false"],"while the variables a local function refers to exist; C72_temporary says exactly which grid functions may be destroyed before their local functions")
ND="Verif.Nodes."
c("C73","partial",[ND+"C73_views",ND+"C73_references_partial",ND+"C73_python",ND+"C73_child_partial",ND+"C73_assign_false",ND+"C73_child_false",ND+"C73_tree_false"],"values are right for all programs; element and finite element of nodes while no local view is assigned, or after a bind; Python nodes are copies that go stale with the next bind, and trees dangle without their local view")
PI="Verif.PyInterpolate."
c("C74","partial",[PI+"C74_interpolate_partial",PI+"C74_exception",PI+"C74_reported",PI+"C74_roundtrip",PI+"C74_convert_false",PI+"C74_asFunction_false"],"flat bases and arrays with entries of type double, bool or int; for other entry types a temporary copy is filled and the array of the caller is left unchanged, and asFunction ignores all but the first digit of multi-indices")
TR="Verif.Transformed."
c("C75","proved",[TR+"C75",TR+"C75_indexSet",TR+"C75_rotate",TR+"C75_renumber",TR+"C75_merge_false"],"for consistent transformations, a contract on the callbacks of the user; C75_merge_false: dimension() is wrong for callbacks that identify multi-indices")
NR="Verif.NodeToRange."
c("C76","proved",[NR+"C76",NR+"C76_eval",NR+"C76_roundTrip"],"for ranges with index access nested like the tree, and for single leaves; for other trees a scalar range is shared by all leaves (C41_shared_entry_false)")
AS="Verif.Assign."
c("C77","partial",[AS+"C77_number",AS+"C77_basis",AS+"C77_first",AS+"C77_backend_partial",AS+"C77_backend_false"],"values for all container types; assignments between backends of different types; backends of the same type copy the pointer instead of the entries")
BS="Verif.BSpline."
c("C78","proved",[BS+"C78_independent",BS+"C78_reproduce",BS+"C78_open",BS+"C78_outer_false"],"independence for all knot vectors; polynomials if all elements are inner knot spans, as for open knot vectors (C78_outer_false: needed)")
LC="Verif.Lagrange.Continuity."
c("C79","proved",[LC+"C79_value",LC+"C79_unique",LC+"C79_interpolate"],"simplices, cubes and prisms, also mixed, exact arithmetic, order at least 1; the shape functions and points of dune-localfunctions are a specification")
c("C80","proved",[LC+"C80_visited",LC+"C80_boundary"],"C80_visited for all element types; C80_boundary for simplices, cubes and prisms, also mixed, order at least 1; basis trees with more leaves: C32_boundary")
BL="Verif.BasisLifetime."
c("C81","partial",[BL+x for x in ["C81_safe","C81_scopes","C81_references","C81_nested","C81_constant","C81_view","C81_asNew","C81_function","C81_localFunction","C81_owned","C81_library","C81_copy_partial","C81_temporarySubspace_false","C81_temporaryVector_false","C81_copy_false"]],"false for temporary vectors that cannot be accessed by multi-indices: the function refers to the temporary (C81_temporaryVector_false); copies of bound local views after an update differ from the original (C81_copy_false); a local view of a temporary subspace basis dangles (C81_temporarySubspace_false)")
PT="Verif.PyBasis."
c("C82","partial",[PT+x for x in ["C82_typeName","C82_module","C82_composite","C82_power","C82_wellFormed","C82_product","C82_regroup","C82_exists","C82_rangeDim","C82_interleaved_false","C82_dg_false","C82_asFunction_false"]],"false for Composite with layout interleaved: the name exists but the type does not compile (C82_interleaved_false), DG is never supported (C82_dg_false); asFunction depends on the grouping (C82_asFunction_false)")
PL="Verif.PyLife."
c("C83","partial",[PL+x for x in ["C83_safe","C83_variables","C83_free","C83_gridViewFunction_false","C83_setGridView_false","C83_getGridView_false","C83_tree_false","C83_basis_false","C83_unbind_false"]],"false for GridViewFunction(f), basis.gridView, basis.gridView = other grid and localView.tree(), which do not keep what they need (the _false theorems); f.basis and unbind() lose memory forever (C83_basis_false, C83_unbind_false); true for all other statements")
c("C84","proved",[LC+x for x in ["C84_space","C84_nested","C84_reproduce","C84_projection","C84_roundTrip"]],"simplices, cubes and prisms, also mixed, exact arithmetic, order at least 1; the shape functions and points of dune-localfunctions are a specification")
c("C85","proved",[LC+x for x in ["C85_value","C85_space","C85_interpolate","C85_local","C85_continuous"]],"simplices, cubes and prisms, also mixed, exact arithmetic, order at least 1; the shape functions and points of dune-localfunctions are a specification")
SV="Verif.SubDomain."
c("C86","proved",[SV+x for x in ["C86_gridView","C86_lagrangeGrid","C86_mapper","C86_lagrange","C86_dimension","C86_functions","C86_restricted","C86_insert","C86_insert_false"]],"C86_insert_false shows that the update demanded for new elements is needed")
c("C87","proved",["Verif.HDiv.Trace."+x for x in ["C87_space","C87_facet","C87_unique","C87_divergence"]],"elements of dune-localfunctions for triangles and tetrahedra modelled; affine simplices")
c("C88","proved",[TT+x for x in ["C88_space","C88_unique","C88_face","C88_gradient","C88_curl"]],"elements of dune-localfunctions for triangles and tetrahedra modelled; affine simplices")
c("C89","proved",["Verif.FE.TriangleSpace."+x for x in ["C89_morley","C89_morley_unique","C89_argyris","C89_argyris_unique"]]+["Verif.FE.HermiteSpace."+x for x in ["C89_hermite","C89_hermite_unique"]],"affine simplices; model of C61, C62 and C64")
c("C90","proved",["Verif.FE.BoundaryDofs."+x for x in ["C90_morley","C90_argyris","C90_morley_values_false","Hermite.C90_hermite","Hermite.C90_hermite_values_false"]]+["Verif.HDiv.BoundaryDofs."+x for x in ["C90_raviartThomas","C90_nedelec"]],"affine simplices; models of C32, C61, C62, C67 and C68")
c("C91","proved",["Verif.BSpline."+x for x in ["C91_space","C91_open","C91_outer_false"]],"exact arithmetic; knots equal or at distance 1e-8 and more")
c("C92","partial",["Verif.Factories."+x for x in ["C92_program_partial","C92_defined","C92_depends","C92_owned","C92_refers","C92_plain","C92_temporary_false","C92_changed_false","C92_subdomain_false"]],"false for factories of bSpline and restrict that are kept: they refer to their arguments")
c("C93","proved",["Verif.Lagrange.Hierarchical."+x for x in ["C93_continuous","C93_space","C93_unique","C93_lagrange","C93_line","C93_interpolate","C93_roundTrip"]])
c("C94","partial",["Verif.Lagrange.Nonconforming."+x for x in ["C94_space_partial","C94_center","C94_unique_partial","C94_interpolate_partial","C94_roundTrip_partial","C94_meets","C94_conforming_partial","C94_mean_triangles","C94_mean_tetrahedra","C94_mean_false","C94_false"]],"needs one type of facets, false otherwise (C94_false); means agree on simplices, not on cubes (C94_mean_false)")
c("C95","proved",["Verif.Lagrange.Refined."+x for x in ["C95_continuous","C95_space","C95_contains","C95_nodal","C95_unique","C95_interpolate","C95_roundTrip","C95_constant","C95_constant_unique","C95_constant_interpolate"]])
c("C96","partial",["Verif.HDiv.BDM."+x for x in ["C96_jump","C96_partial","C96_false"]])
c("C97","proved",["Verif.HDiv.BDM."+x for x in ["C97_space","C97_edge","C97_unique","C97_contains","C97_divergence","C97_square"]])
c("C98","proved",["Verif.Lagrange.BoundaryValues."+x for x in ["C98_hierarchical","C98_refined","C98_nonconforming","C98_nonconforming_ends"]]+["Verif.HDiv.BDM.C98_bdm"])
c("C99","proved",["Verif.Product."+x for x in ["C99_components","C99_space","C99_unique","C99_outside"]]+["Verif.Lagrange.Product."+x for x in ["C99_lagrange","C99_lagrange_unique","C99_taylorHood"]])
c("C100","partial",["Verif.BSpline."+x for x in ["C100_side","C100_boundary","C100_visited_partial","C100_values_partial","C100_open","C100_interior_false","C100_missed_false","C100_order0_false","C100_closed_false"]])
c("C101","partial",["Verif.Renumbered."+x for x in ["C101_transformed","C101_pull","C101_periodic_partial","C101_unique","C101_open_false"]]+["Verif.Lagrange.Periodic."+x for x in ["C101_value","C101_lagrange_partial","C101_lagrange_unique"]])
c("C102","proved",["Verif.HDiv.Trace."+x for x in ["C102_space","C102_facet","C102_unique","C102_divergence"]])
c("C103","proved",["Verif.HDiv.Tangential."+x for x in ["C103_space","C103_edge","C103_unique","C103_facet","C103_gradient"]])
c("C104","proved",[SD+x for x in ["C104_visits","C104_equal","C104_end"]])
c("C105","partial",["Verif.Derivative."+x for x in ["C105_local_partial","C105_global_partial","C105_elements","C105_piola","C105_contract","C105_nonaffine_false"]])
c("C106","proved",["Verif.GridFunctions."+x for x in ["C106_sound","C106_agree","C106_lagrange","C106_discontinuous"]])
c("C107","proved",["Verif.Lagrange.Constant."+x for x in ["C107_index","C107_same","C107_space","C107_unique","C107_interpolate"]])
c("C108","proved",["Verif.HDiv.Trees."+x for x in ["C108_space","C108_unique","C108_divergence","C108_gradient"]])
c("C109","proved",["Verif.HDiv.BoundaryMixed."+x for x in ["C109_raviartThomas","C109_nedelec"]])
c("C110","proved",["Verif.Dofs."+x for x in ["C110_subspace","C110_component","C110_agree"]]+["Verif.HDiv.Trees."+x for x in ["C110_trees","C110_set"]])
c("C111","proved",["Verif.Dirichlet."+x for x in ["C111_marker","C111_interpolate"]]+["Verif.HDiv.Trees."+x for x in ["C111_trees","C111_discrete"]])
c("C112","proved",["Verif.Dofs."+x for x in ["C112_calls","C112_program"]]+["Verif.HDiv.Trees."+x for x in ["C112_trees","C112_raviartThomas"]])
c("C113","proved",["Verif.Galerkin."+x for x in ["C113_matrix","C113_rows","C113_eliminate"]]+["Verif.HDiv.Trees."+x for x in ["C113_trees_rows","C113_trees_eliminate"]])
c("C114","proved",["Verif.Galerkin."+x for x in ["C114_laplace","C114_mixed","C114_poisson"]]+["Verif.HDiv.Trees.C114_trees_mixed"])
c("C115","proved",["Verif.Galerkin."+x for x in ["C115_stokes","C115_rows"]]+["Verif.HDiv.Trees.C115_trees"])
c("C116","partial",["Verif.Galerkin."+x for x in ["C116_advection_partial","C116_continuous","C116_consistency_false"]])
c("C117","proved",["Verif.Galerkin."+x for x in ["C117_blocks","C117_system","C117_entries"]]+["Verif.HDiv.Trees.C117_stokes"])
c("C118","partial",["Verif.PySystems."+x for x in ["C118_constraints","C118_symmetric","C118_mfem","C118_rows_partial","C118_laplace","C118_rows_false"]])
c("C119","partial",["Verif.PySystems."+x for x in ["C119_divergence_partial","C119_divergence_false"]])
c("C120","proved",["Verif.PySystems.C120_program"])
