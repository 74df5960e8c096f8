{"id": "C01", "title": "Bound expressions evaluate to their mathematical value", "statement": "For every symbolic expression all of whose subexpressions evaluate without an exception (compiled conditionals compute both branches) and whose variable names do not clash with the names the compiler generates (names of the form _exprN, and CSE prefixes with optional _N suffix), calling the bound expression with values for its variables returns exactly the value obtained by evaluating the expression tree directly; splitting sums into temporaries, sharing CSEs, batching layer potentials and discarding variables early never change the result. If some operations may raise, then whatever is returned is still the value of the expression (conditions of conditionals being defined), and for an expression without conditionals a value is returned exactly if direct evaluation has one and an exception is raised otherwise.", "quantifier": "all expressions, all input values, all interpretations of the primitive operations and layer potentials, all statement priorities and all iteration orders of the operator groups", "why_tests_cant": "the compiler rewrites arbitrary expression trees; a finite test suite exercises finitely many trees and one set-iteration order per run", "anchors": ["pytential/symbolic/compiler.py:OperatorCompiler", "pytential/symbolic/compiler.py:_compute_schedule", "pytential/symbolic/execution.py:execute"]}
{"id": "C02", "title": "Evaluation does not depend on how input variables are named", "statement": "Renaming the user's input variables (and the corresponding keyword arguments) does not change the value of a bound expression.", "quantifier": "all expressions and all injective renamings of input variables", "why_tests_cant": "name capture shows up only for particular collisions between user names and generated names", "anchors": ["pytential/symbolic/compiler.py:OperatorCompiler.get_var_name", "pytential/symbolic/compiler.py:Assign.get_dependencies"]}
{"id": "C03", "title": "Compiled schedules are complete, duplicate-free and topologically ordered", "statement": "In the code of every bound expression each statement is scheduled exactly once, and only after every variable it reads is an input or has been assigned by an earlier statement and not discarded since.", "quantifier": "all statement lists produced by the compiler (and, for the safety half, all statement lists whatsoever), all priorities", "why_tests_cant": "scheduling is a greedy search over an arbitrary dependency graph", "anchors": ["pytential/symbolic/compiler.py:_get_next_step", "pytential/symbolic/compiler.py:_compute_schedule"]}
{"id": "C04", "title": "No variable is discarded while still needed", "statement": "A variable released by the schedule is never read by a later statement nor by the result expression, and releasing it never fails: executing the code of a bound expression with all required inputs never raises KeyError/unbound variable.", "quantifier": "all statement lists, priorities, input environments", "why_tests_cant": "use-after-free is schedule dependent", "anchors": ["pytential/symbolic/compiler.py:_get_next_step", "pytential/symbolic/execution.py:execute"]}
{"id": "C05", "title": "Missing inputs are reported before any computation", "statement": "If a variable occurring in a bound expression is not supplied, evaluation raises ValueError('missing input') before any statement runs.", "quantifier": "all expressions and all contexts", "why_tests_cant": "requires all placements of a variable in an expression", "anchors": ["pytential/symbolic/execution.py:execute", "pytential/symbolic/compiler.py:_compute_schedule"]}
{"id": "C06", "title": "Each layer potential group is computed once and every operator receives its own output", "statement": "All IntG operators with equal source, source kernels, densities and kernel arguments are evaluated by a single potential statement, no group is evaluated twice, and each operator's variable is bound to the output with that operator's own target kernel, target and limit.", "quantifier": "all expressions, all iteration orders of the operator sets", "why_tests_cant": "depends on hash-order of sets and arbitrary sharing", "anchors": ["pytential/symbolic/compiler.py:OperatorCompiler.map_int_g", "pytential/symbolic/compiler.py:OperatorCompiler.op_group_features"]}
{"id": "C07", "title": "Evaluating a bound expression leaves the caller's context reusable", "statement": "Calling BoundExpression.eval(context) twice with the same dictionary gives the same value both times.", "quantifier": "all expressions and contexts", "why_tests_cant": "which keys are deleted depends on the schedule", "anchors": ["pytential/symbolic/execution.py:execute", "pytential/symbolic/execution.py:BoundExpression.eval"]}
{"id": "C08", "title": "CSE caching across evaluations is transparent", "statement": "The value returned by a bound expression called repeatedly with different inputs equals the value of a fresh evaluation each time, whatever the CSE scopes in the expression, and whether or not earlier calls raised exceptions or were interrupted.", "quantifier": "all expressions, all sequences of calls with arbitrary inputs, all points at which a call fails or is interrupted", "why_tests_cant": "stale caches depend on the history of calls and on where a call stopped", "anchors": ["pytential/symbolic/execution.py:EvaluationMapperBase.map_common_subexpression", "pytential/symbolic/execution.py:BoundExpression._get_cache"]}
{"id": "C09", "title": "DOFDescriptor construction, copying and stage changes", "statement": "A descriptor can be built exactly from valid stages/granularities (others raise ValueError); copy changes exactly the given fields; to_stageN sets the stage and nothing else, the last one wins; passing a descriptor as geometry takes over its stage unless a stage is given explicitly, and never its granularity.", "quantifier": "all descriptors and all argument combinations", "why_tests_cant": "combinatorial space of field combinations and call sequences", "anchors": ["pytential/symbolic/dof_desc.py:DOFDescriptor"]}
{"id": "C10", "title": "as_dofdesc is idempotent and descriptor equality is an equivalence compatible with hashing", "statement": "as_dofdesc(as_dofdesc(x)) == as_dofdesc(x); equal descriptors have equal hashes and equality is reflexive, symmetric and transitive.", "quantifier": "all descriptor-like values", "why_tests_cant": "universal algebraic law", "anchors": ["pytential/symbolic/dof_desc.py:as_dofdesc", "pytential/symbolic/dof_desc.py:DOFDescriptor.__eq__", "pytential/symbolic/dof_desc.py:DOFDescriptor.__hash__"]}
{"id": "C11", "title": "Default tagging preserves explicit placements and leaves nothing unplaced", "statement": "After binding, every node of the expression has a concrete geometry; explicitly placed nodes keep their geometry; everything outside layer potentials defaults to the target, everything inside a layer potential's density/arguments defaults to the source; tagging twice equals tagging once. Interpolations whose ends become the same place disappear, nothing else does, and tagging fails exactly if such an interpolation is applied to another interpolation.", "quantifier": "all expressions with any mix of placed, unplaced and DEFAULT_SOURCE/DEFAULT_TARGET descriptors, any nesting depth", "why_tests_cant": "unbounded nesting of operators", "anchors": ["pytential/symbolic/mappers.py:LocationTagger", "pytential/symbolic/mappers.py:ToTargetTagger"]}
{"id": "C12", "title": "QBX forced-limit rules", "statement": "For a layer potential on a QBX source: self-evaluation accepts exactly +1, -1 and 'avg'; off-surface evaluation accepts exactly None, +2, -2; anything else raises ValueError; accepted operators other than 'avg' keep their limit.", "quantifier": "all layer potentials, at any nesting depth, any source/target descriptors", "why_tests_cant": "the decision depends on geometry, stage and nesting", "anchors": ["pytential/symbolic/mappers.py:QBXPreprocessor"]}
{"id": "C13", "title": "'avg' limits are replaced by the mean of the two one-sided limits", "statement": "After binding, no operator with limit 'avg' remains, and an 'avg' operator evaluates to half the sum of the +1 and -1 operators with the same operands.", "quantifier": "all expressions and nesting depths", "why_tests_cant": "unbounded nesting, several geometries", "anchors": ["pytential/symbolic/mappers.py:QBXPreprocessor"]}
{"id": "C14", "title": "Unregularized preprocessing affects only the potentials of unregularized sources", "statement": "Binding an expression against a collection that contains an unregularized source must not change or reject layer potentials whose source is another geometry.", "quantifier": "all expressions over collections mixing source kinds", "why_tests_cant": "mixed collections are combinatorial", "anchors": ["pytential/symbolic/mappers.py:UnregularizedPreprocessor", "pytential/unregularized.py:UnregularizedLayerPotentialSource.preprocess_optemplate"]}
{"id": "C15", "title": "Source quadrature upsampling", "statement": "After binding, every layer potential on a QBX source has its densities on the quadrature stage (QBX_SOURCE_QUAD_STAGE2) unless the user chose a stage explicitly, targets have an explicit stage, and repeating the preprocessing changes nothing; potentials on other sources are untouched.", "quantifier": "all expressions and nesting depths", "why_tests_cant": "unbounded nesting", "anchors": ["pytential/symbolic/mappers.py:InterpolationPreprocessor", "pytential/symbolic/primitives.py:interpolate"]}
{"id": "C16", "title": "Symbolic derivatives are linear and correct", "statement": "Taking a target derivative of a linear combination of layer potentials gives the same linear combination of the differentiated potentials; constants differentiate to zero; a product with more than one spatially varying factor is rejected. grad has one component per axis with the derivative along that axis, laplace is the sum of the second derivatives, and both exist for every linear combination.", "quantifier": "all sums/products/constants/potentials of any size", "why_tests_cant": "arbitrary expression trees", "anchors": ["pytential/symbolic/mappers.py:DerivativeTaker", "pytential/symbolic/mappers.py:_IsSptiallyVaryingMapper"]}
{"id": "C17", "title": "Distinct layer potentials compare unequal", "statement": "Two IntG objects compare equal (and hash equal) exactly when all their components, including qbx_forced_limit, are equal.", "quantifier": "all pairs of IntG objects", "why_tests_cant": "equality is a universally quantified relation; the failing pair involves Python's hash(-1)==hash(-2)", "anchors": ["pytential/symbolic/primitives.py:IntG.__eq__", "pytential/symbolic/primitives.py:IntG.__hash__"]}
{"id": "C18", "title": "Geometry collections only ever hold valid places", "statement": "Constructing a GeometryCollection succeeds exactly if the default geometries are present, string identifiers are valid Python identifiers, every value is a source/target/discretization and all ambient dimensions agree; every documented input form (single geometry, pair, mapping) is accepted.", "quantifier": "all place mappings, scalars and pairs, all auto_where values", "why_tests_cant": "input space", "anchors": ["pytential/collection.py:GeometryCollection.__init__", "pytential/symbolic/execution.py:_prepare_auto_where"]}
{"id": "C19", "title": "Refined discretizations are computed once and stay stable", "statement": "In one GeometryCollection, get_discretization(geometry, stage) returns the same object every time, whatever other stages/geometries have been requested before or in between; a stage of None means stage 1; existing cache entries are never overwritten.", "quantifier": "all sequences of requests", "why_tests_cant": "history dependent", "anchors": ["pytential/collection.py:GeometryCollection._get_qbx_discretization", "pytential/qbx/refinement.py:_refine_for_global_qbx"]}
{"id": "C20", "title": "Copies and merges of collections are independent", "statement": "copy()/merge() never modify their arguments; the copy starts with its own caches, so refining in one collection never changes what the other returns; merge prefers the argument's places; add_geometry_to_collection rejects existing names and keeps every existing place and its cached discretizations.", "quantifier": "all collections and histories", "why_tests_cant": "aliasing over histories", "anchors": ["pytential/collection.py:GeometryCollection.copy", "pytential/collection.py:GeometryCollection.merge", "pytential/collection.py:add_geometry_to_collection"]}
{"id": "C21", "title": "Connections between stages compose end to end", "statement": "connection_from_dds(from, to) either raises or returns a chain of connections, each starting on the discretization where the previous one ends, from the discretization of `from` to that of `to` (followed by the granularity change); identical descriptors give the identity; unsupported requests raise ValueError.", "quantifier": "all pairs of descriptors, all collections and cache histories", "why_tests_cant": "all stage/granularity combinations and histories", "anchors": ["pytential/symbolic/dof_connection.py:connection_from_dds"]}
{"id": "C22", "title": "Operator wrapping for solvers is lossless", "statement": "For the operator returned by scipy_op, the component ranges partition [0, shape[0]) contiguously in order, unflatten(flatten(x)) == x and flatten(unflatten(v)) == v for vectors of matching sizes, and matvec applies the bound expression to exactly these components.", "quantifier": "all component counts and sizes", "why_tests_cant": "arbitrary sizes", "anchors": ["pytential/symbolic/execution.py:MatVecOp", "pytential/symbolic/execution.py:BoundExpression.scipy_op"]}
{"id": "C23", "title": "Block matrices are assembled at the right offsets", "statement": "In the matrix returned by build_matrix, block (i, j) of the expression/input pair occupies exactly the rows of output i and the columns of input j, zero blocks are filled with zeros, and the product of the assembled matrix with a stacked vector is the stacked sum of block products.", "quantifier": "all block counts and sizes, any pattern of zero blocks", "why_tests_cant": "arbitrary shapes", "anchors": ["pytential/symbolic/execution.py:_bmat", "pytential/symbolic/execution.py:build_matrix"]}
{"id": "C24", "title": "Matrix building agrees with evaluation", "statement": "For an expression linear in the chosen input, the matrix produced by MatrixBuilder applied to any input vector equals the value of the expression at that vector (with other inputs zero); expressions that are not linear are rejected.", "quantifier": "all expressions built from sums, products, numbers, context vectors and the input; all vectors", "why_tests_cant": "all linear expressions and all vectors", "anchors": ["pytential/symbolic/matrix.py:MatrixBuilderBase", "pytential/symbolic/matrix.py:MatrixBuilder"]}
{"id": "C25", "title": "Index lists partition their indices", "statement": "For an IndexList, cluster_indices(0..nclusters-1) concatenated give the whole index array, sizes add up, make_index_list round-trips a non-empty list of clusters (an empty one raises ValueError), cluster_take picks exactly that cluster's entries, and out-of-range clusters raise IndexError.", "quantifier": "all cluster structures and sizes", "why_tests_cant": "arbitrary sizes", "anchors": ["pytential/linalg/utils.py:IndexList", "pytential/linalg/utils.py:make_index_list"]}
{"id": "C26", "title": "Cluster-pair (cartesian product) indexing is consistent", "statement": "The flattened row/column index arrays of a TargetAndSourceClusterList enumerate each diagonal block in row-major order without gaps or overlaps, so taking a block from the flat array equals taking the block directly from the full matrix; mismatched cluster counts raise ValueError.", "quantifier": "all cluster structures", "why_tests_cant": "arbitrary sizes", "anchors": ["pytential/linalg/utils.py:TargetAndSourceClusterList", "pytential/linalg/utils.py:make_index_cluster_cartesian_product", "pytential/linalg/utils.py:make_flat_cluster_diag"]}
{"id": "C27", "title": "GMRES success means the residual is small", "statement": "If gmres reports success for a linear operator, then (in exact arithmetic) the returned solution x satisfies norm(b - A x) < tol * norm(b) or equals zero residual; the residual list it reports are the true residual norms.", "quantifier": "all linear operators, right hand sides, initial guesses, restart lengths, inner products", "why_tests_cant": "loop invariant over unboundedly many iterations", "anchors": ["pytential/linalg/gmres.py:_gmres"]}
{"id": "C28", "title": "GMRES always terminates within maxiter and reports failure honestly", "statement": "gmres performs at most maxiter operator iterations, and returns success=False (or raises when hard_failure) when it stops for any reason other than convergence; it never indexes outside its history.", "quantifier": "all operators (not necessarily linear, arbitrary floating point behaviour), restart lengths of at least one, non-negative stall windows and all other parameters", "why_tests_cant": "termination over all inputs", "anchors": ["pytential/linalg/gmres.py:_gmres"]}
{"id": "C29", "title": "Muller's method only returns converged roots", "statement": "muller(f) returns (z, n) only if its convergence criterion held at z after n iterations with n below maxiter, and raises RuntimeError otherwise; it never returns NaN; roots found with deflation are found for the deflated function. The points visited form one sequence in which each point comes from the three before it and the values of f at exactly those; in exact arithmetic it is the zero, closest to the last point, of the parabola through them, and z is the point n + 2 of the sequence.", "quantifier": "all functions f and start values", "why_tests_cant": "arbitrary functions and iteration counts", "anchors": ["pytential/muller.py:muller", "pytential/muller.py:muller_deflate"]}
{"id": "C30", "title": "Associated QBX centers are valid and optimal", "statement": "If target association assigns center c to a target, then c lies on the requested side, the target lies within (1+tol) times c's expansion radius, c has the least relative distance among the eligible centers on its side, and its distance is not larger than that of the best center on the other side.", "quantifier": "all configurations of targets, centers, radii, side requests, and all orders in which leaf boxes and centers are enumerated", "why_tests_cant": "order-dependent running minimum over arbitrary particle sets", "anchors": ["pytential/qbx/target_assoc.py:QBX_CENTER_FINDER"]}
{"id": "C31", "title": "Targets far from the geometry never use QBX and close targets always do", "statement": "A target is left without center exactly if no source has it inside its tunnel radius; if a close target has no eligible center association fails with QBXTargetAssociationFailedError whose flags mark exactly these targets, and the refine flags mark at least one element close to such a target.", "quantifier": "all configurations and enumeration orders", "why_tests_cant": "arbitrary configurations", "anchors": ["pytential/qbx/target_assoc.py:associate_targets_to_qbx_centers", "pytential/qbx/target_assoc.py:QBX_TARGET_MARKER", "pytential/qbx/target_assoc.py:QBX_FAILED_TARGET_ASSOCIATION_REFINER"]}
{"id": "C32", "title": "Refinement either satisfies the criteria or warns", "statement": "Stage-1/stage-2 refinement stops after at most maxiter rounds, and if it returns without a not-converged warning then every criterion holds for the discretization it returns (for stage 2: for the one it had before the requested uniform rounds, which are then performed exactly as many times as requested); the returned connection leads from the original to the refined discretization through exactly the performed refinements.", "quantifier": "all meshes, criteria outcomes and iteration counts", "why_tests_cant": "loop over arbitrary mesh evolution", "anchors": ["pytential/qbx/refinement.py:_refine_qbx_stage1", "pytential/qbx/refinement.py:_refine_qbx_stage2"]}
{"id": "C33", "title": "Refinement modes are honored", "statement": "NO_REFINEMENT returns the original discretizations with identity connections; ERROR_ON_REFINEMENT raises QBXRefinementNeededError exactly if some criterion is violated and otherwise leaves the mesh unchanged (apart from forced uniform rounds, which are carried out in both refining modes exactly the requested number of times).", "quantifier": "all criteria outcomes and parameters", "why_tests_cant": "all histories of the refinement loop", "anchors": ["pytential/qbx/refinement.py:QBXRefinementMode", "pytential/qbx/refinement.py:_refine_qbx_stage1", "pytential/qbx/refinement.py:_refine_qbx_stage2"]}
{"id": "C34", "title": "Refinement checks flag exactly the offending elements", "statement": "The expansion-disk check flags exactly the elements owning a center that has a source within (1-tol) times its radius; the quadrature-resolution check flags exactly the elements with a source node having a center within its danger zone; the threshold check flags exactly elements above the threshold; the returned boolean is true iff some element is flagged by the check.", "quantifier": "all particle configurations and enumeration orders (including early exit from leaf loops)", "why_tests_cant": "arbitrary configurations", "anchors": ["pytential/qbx/refinement.py:EXPANSION_DISK_UNDISTURBED_BY_SOURCES_CHECKER", "pytential/qbx/refinement.py:SUFFICIENT_SOURCE_QUADRATURE_RESOLUTION_CHECKER", "pytential/qbx/refinement.py:RefinerWrangler.check_element_prop_threshold"]}
{"id": "C35", "title": "Particle numbering in QBX trees is consistent", "statement": "In a tree with QBX metadata sources, centers and targets occupy disjoint consecutive ranges covering all particles; element start tables are such that binary search of a source (or center) finds precisely the element whose nodes contain it; center 2i (2i+1) is the interior (exterior) center of source i.", "quantifier": "all numbers of groups, elements and nodes per element", "why_tests_cant": "arbitrary mesh sizes", "anchors": ["pytential/qbx/utils.py:build_tree_with_qbx_metadata", "pytential/qbx/utils.py:QBX_TREE_C_PREAMBLE"]}
{"id": "C36", "title": "Target slices of the QBX FMM are disjoint and complete", "statement": "The target list consists of the centers followed by the targets of each target discretization; target_discr_starts delimit disjoint consecutive slices whose sizes are the discretizations' DOF counts, and each output of a potential statement is cut from the slice of its own (target, side) pair.", "quantifier": "all lists of target discretizations and outputs", "why_tests_cant": "arbitrary lists", "anchors": ["pytential/qbx/geometry.py:QBXFMMGeometryData.target_info", "pytential/qbx/__init__.py:QBXLayerPotentialSource.get_target_discrs_and_qbx_sides"]}
{"id": "C37", "title": "Center-to-target lists invert the target-to-center map", "statement": "center_to_tree_targets lists, for each center, precisely the targets (by their number in the tree) associated with it, each once; global_qbx_centers are exactly the centers with at least one associated target; the non-QBX target list holds exactly the targets that are not centers and have no associated center.", "quantifier": "all associations and tree permutations", "why_tests_cant": "arbitrary permutations", "anchors": ["pytential/qbx/geometry.py:QBXFMMGeometryData.center_to_tree_targets", "pytential/qbx/geometry.py:QBXFMMGeometryData.global_qbx_centers", "pytential/qbx/geometry.py:QBXFMMGeometryData.non_qbx_box_target_lists"]}
{"id": "C38", "title": "The QBX FMM adds up every source exactly once at every target", "statement": "If the translation operators are exact and the traversal lists cover each (target box, source box) pair exactly once, the QBX FMM driver returns in user order, for every target, the sum over all sources, through its QBX center if it has one and directly otherwise.", "quantifier": "all trees, traversals, source strengths and associations", "why_tests_cant": "arbitrary trees", "anchors": ["pytential/qbx/fmm.py:drive_fmm", "pytential/qbx/interactions.py"]}
{"id": "C39", "title": "The two QBX cost models agree", "statement": "The OpenCL cost model (box-centric) and the reference Python cost model (center-centric) report the same cost for every target box and stage, for every tree and association.", "quantifier": "all trees, traversals, associations and cost factors", "why_tests_cant": "arbitrary trees", "anchors": ["pytential/qbx/cost.py:QBXCostModel", "pytential/qbx/cost.py:_PythonQBXCostModel"]}
{"id": "C40", "title": "Direct QBX evaluation fills every output exactly once", "statement": "Direct (non-FMM) evaluation returns one entry per requested output in order, self targets use the expansion on the requested side for every node, other targets use the QBX center value where a center is associated and the plain quadrature value elsewhere, and a +-1 request with an unassociated target raises RuntimeError.", "quantifier": "all output lists, target sets and associations", "why_tests_cant": "arbitrary lists", "anchors": ["pytential/qbx/__init__.py:QBXLayerPotentialSource.exec_compute_potential_insn_direct", "pytential/qbx/direct.py"]}
{"id": "C41", "title": "Interleaving places interior and exterior center data alternately", "statement": "interleave(a, b) yields a DOF vector with entry 2i = a[i] and 2i+1 = b[i] in every element group, so sides and radii of interleaved centers match the side convention used by target association.", "quantifier": "all group structures and sizes", "why_tests_cant": "arbitrary sizes", "anchors": ["pytential/symbolic/dof_connection.py:interleave_dof_arrays", "pytential/symbolic/primitives.py:interleaved_expansion_centers"]}
{"id": "C42", "title": "Elementwise reductions", "statement": "ElementwiseSum/Min/Max with node granularity returns at each node the reduction over its own element and with element granularity one such value per element; other granularities raise ValueError; applying ElementwiseMax/Min twice equals applying it once (node granularity).", "quantifier": "all meshes and values", "why_tests_cant": "arbitrary sizes and values", "anchors": ["pytential/symbolic/execution.py:EvaluationMapperBase._map_elementwise_reduction"]}
{"id": "C43", "title": "Small matrix formulas used for metric terms are exact", "statement": "The closed-form inverses and eigenvalues used for first fundamental forms and shape operators satisfy A*inv(A)=I (nonzero determinant) and yield exactly the real roots of the characteristic polynomial, which exist unless the square root of a negative number is taken.", "quantifier": "all real 1x1/2x2 matrices", "why_tests_cant": "universally quantified real algebra", "anchors": ["pytential/symbolic/primitives.py:_small_mat_inverse", "pytential/symbolic/primitives.py:_small_mat_eigenvalues", "pytential/symbolic/primitives.py:_small_sym_mat_eigenvalues"]}
{"id": "C44", "title": "Maximum curvature is the largest principal curvature", "statement": "In 3D, the maximum curvature used by the refinement criterion is the largest absolute eigenvalue of the shape operator.", "quantifier": "all first/second fundamental forms", "why_tests_cant": "universally quantified real algebra", "anchors": ["pytential/symbolic/primitives.py:_max_curvature", "pytential/symbolic/primitives.py:shape_operator"]}
{"id": "C45", "title": "Tangential frames are orthonormal and conversions invert each other", "statement": "tangential_onb returns orthonormal vectors spanning the tangent space, tangential_to_xyz and xyz_to_tangential are mutually inverse on tangential fields, project_to_tangential is the idempotent orthogonal projection.", "quantifier": "all tangent vectors (linearly independent)", "why_tests_cant": "real algebra", "anchors": ["pytential/symbolic/primitives.py:tangential_onb", "pytential/symbolic/primitives.py:xyz_to_tangential", "pytential/symbolic/primitives.py:project_to_tangential"]}
{"id": "C46", "title": "Proxy balls contain their clusters", "statement": "With a radius factor of at least one, the ball of the proxy radius around the center of a (nonempty) cluster covers all points of the cluster (and, for QBX, their expansion disks); proxy points of cluster i are stored in the slice [i*nproxy, (i+1)*nproxy) and lie on the sphere of that radius; in two dimensions the reference points are the distinct corners of a regular polygon.", "quantifier": "all point sets and clusterings", "why_tests_cant": "arbitrary point sets", "anchors": ["pytential/linalg/proxy.py:ProxyGeneratorBase.__call__"]}
{"id": "C47", "title": "Neighbor gathering is exact and never returns own points", "statement": "gather_cluster_neighbor_points returns for every cluster exactly those points of the target index list outside the cluster that lie within the cluster's proxy ball (up to a floating point tolerance by which the radius is enlarged), each once, as a valid index list with the same number of clusters.", "quantifier": "all point sets, clusterings, proxy balls", "why_tests_cant": "arbitrary point sets", "anchors": ["pytential/linalg/proxy.py:gather_cluster_neighbor_points"]}
{"id": "C48", "title": "Node partitioning covers every degree of freedom exactly once", "statement": "partition_by_nodes returns clusters that contain each DOF of the discretization precisely once. With tree_kind set they are the boxtree leaves; with tree_kind=None they are max(ndofs//max_particles_in_box, 2) consecutive ranges whose sizes differ by at most one, and anything but a one-dimensional curve is rejected.", "quantifier": "all sizes", "why_tests_cant": "arbitrary sizes", "anchors": ["pytential/linalg/proxy.py:partition_by_nodes"]}
{"id": "C49", "title": "Skeletonization yields consistent index sets", "statement": "The skeleton of each cluster is a subset of the cluster's own indices, has the same number of rows and columns for targets and sources of the cluster, and interpolation matrices have matching shapes; a single cluster or missing/both of id_eps/id_rank is rejected.", "quantifier": "all clusterings and matrices", "why_tests_cant": "arbitrary sizes", "anchors": ["pytential/linalg/skeletonization.py:_skeletonize_block_by_proxy_with_mats", "pytential/linalg/skeletonization.py:SkeletonizationResult"]}
{"id": "C50", "title": "sort_arrays_together applies one stable permutation", "statement": "sort_arrays_together returns its (nonempty) arrays permuted by one and the same permutation, sorted by the key of the first; entries that belonged together stay together; hence operator grouping does not depend on the order in which kernels/densities are listed, as long as the key tells them apart.", "quantifier": "all arrays and keys", "why_tests_cant": "arbitrary arrays", "anchors": ["pytential/utils.py:sort_arrays_together", "pytential/qbx/__init__.py:QBXLayerPotentialSource.op_group_features"]}
{"id": "C51", "title": "Copying a layer potential source preserves its configuration", "statement": "source.copy() without arguments has the same configuration as source, copy(x=v) changes precisely x, and conflicting FMM order specifications raise TypeError.", "quantifier": "all configurations and override combinations", "why_tests_cant": "combinatorial", "anchors": ["pytential/qbx/__init__.py:QBXLayerPotentialSource.copy", "pytential/unregularized.py:UnregularizedLayerPotentialSource.copy"]}
{"id": "C52", "title": "Placing an expression keeps its discretization stage and granularity", "statement": "A quantity requested on a certain discretization stage or with a certain granularity, without naming a geometry, is evaluated on that stage and with that granularity of the default geometry after binding.", "quantifier": "all expressions, stages, granularities and default geometries", "why_tests_cant": "unbounded nesting and all descriptor combinations", "anchors": ["pytential/symbolic/mappers.py:LocationTagger._default_dofdesc", "pytential/symbolic/dof_desc.py:DOFDescriptor.copy"]}
{"id": "C53", "title": "GMRES residuals never increase", "statement": "For a linear operator and an inner product, in exact arithmetic, the residual norms gmres reports never increase from one iteration to the next (through restarts and residual recomputation), so the solver never stops with 'non-monotonic residuals'; a breakdown of the orthogonalization only leads to NaNs and never to reported success.", "quantifier": "all linear operators, inner products, right hand sides, initial guesses, restart lengths", "why_tests_cant": "loop invariant over unboundedly many iterations", "anchors": ["pytential/linalg/gmres.py:_gmres"]}
{"id": "C54", "title": "Every QBX center is attributed to the target box containing it", "statement": "qbx_center_to_target_box()[c] is the index in traversal.target_boxes of the one box whose own targets include center c, whatever the order in which the device kernel executes.", "quantifier": "all trees, tree permutations, numbers of centers and kernel schedules", "why_tests_cant": "arbitrary trees and schedules; the kernel's write-race warning is silenced on the strength of this", "anchors": ["pytential/qbx/geometry.py:QBXFMMGeometryData.qbx_center_to_target_box", "pytential/qbx/geometry.py:QBXFMMGeometryDataCodeContainer.qbx_center_to_target_box_lookup"]}
{"id": "C55", "title": "Normals are unit and orthogonal, area elements are lengths/areas, centers sit at the radius", "statement": "For every nondegenerate parametrization in 2D/3D the normal has length one and is orthogonal to all tangent vectors; the area element is the square root of the determinant of the first fundamental form; the cross-product helpers obey the vector identities; expansion centers lie at distance exactly the expansion radius on the chosen side.", "quantifier": "all tangent vectors, points, radii and sides", "why_tests_cant": "universally quantified real algebra", "anchors": ["pytential/symbolic/primitives.py:normal", "pytential/symbolic/primitives.py:area_element", "pytential/symbolic/primitives.py:expansion_centers", "pytential/symbolic/primitives.py:cross", "pytential/symbolic/primitives.py:n_cross"]}
{"id": "C56", "title": "The stretch factor bounds how far the element mapping stretches, independent of orientation", "statement": "The mapping stretch factor driving quadrature-resolution checks is twice the largest factor by which the derivative of the reference-to-global map stretches a (bi-unit/equilateral) reference direction, and does not change when the element is rotated or embedded in another ambient space.", "quantifier": "all Jacobians of 1D/2D elements", "why_tests_cant": "universally quantified real algebra", "anchors": ["pytential/symbolic/primitives.py:_simplex_mapping_max_stretch_factor", "pytential/symbolic/primitives.py:_hypercube_mapping_max_stretch_factor", "pytential/symbolic/primitives.py:_quad_resolution"]}
{"id": "C57", "title": "Cluster matrix builders return the entries of the full matrix", "statement": "For every expression accepted by both, a cluster matrix builder returns exactly the entries of the full operator matrix at the requested (target, source) index pairs, so that its diagonal blocks are the blocks of the full matrix; it accepts all linear combinations of the density and of layer potentials of it, and refuses what the full builder refuses (expressions nonlinear in the density).", "quantifier": "all expressions, index lists and kernels", "why_tests_cant": "arbitrary expressions and index lists", "anchors": ["pytential/symbolic/matrix.py:ClusterMatrixBuilderBase", "pytential/symbolic/matrix.py:QBXClusterMatrixBuilder", "pytential/symbolic/matrix.py:P2PClusterMatrixBuilder"]}
{"id": "C58", "title": "Proxy expressions keep exactly the layer potential terms, with untransformed kernels, at the given places", "statement": "prepare_proxy_expr turns a sum of terms, each of which is free of layer potentials, a layer potential, or a product with one layer potential, into the sum of the layer potentials with their numerical factors; products of several layer potentials are refused; all kernels of the result are free of source and target transformations; all layer potentials of the result go from the given source to the given target, and all quantities in their densities are on the source.", "quantifier": "all expressions, kernels and descriptors", "why_tests_cant": "arbitrary nesting of expressions", "anchors": ["pytential/linalg/direct_solver_symbolic.py:prepare_proxy_expr", "pytential/linalg/direct_solver_symbolic.py:IntGTermCollector", "pytential/linalg/direct_solver_symbolic.py:KernelTransformationRemover", "pytential/linalg/direct_solver_symbolic.py:DOFDescriptorReplacer"]}
{"id": "C59", "title": "The FMMLib backend computes the same sums, with and without target-specific QBX", "statement": "The FMMLib backend accepts exactly the nonempty lists of 2D/3D Laplace/Helmholtz kernels with at most one directional source derivative and one target derivative that agree in source direction and Helmholtz parameter (and are within reach of target-specific QBX if that is demanded); on accepted lists, with exact translation operators and a covering traversal, it returns for each kernel and target the sum over all sources, through the target's center if it has one, of the potential or of the gradient component, whether or not target-specific QBX is used, and never raises the error about gradients of dipoles.", "quantifier": "all kernel lists, trees, traversals, associations, weights, thread schedules", "why_tests_cant": "arbitrary trees and schedules; three different code paths have to sum every source exactly once", "anchors": ["pytential/qbx/fmmlib.py:QBXFMMLibTreeIndependentDataForWrangler", "pytential/qbx/fmmlib.py:QBXFMMLibExpansionWrangler", "pytential/qbx/target_specific/impl.pyx:eval_target_specific_qbx_locals", "pytential/qbx/fmm.py:drive_fmm"]}
{"id": "C60", "title": "Dirichlet and Neumann operators are the boundary values of their representations", "statement": "For DirichletOperator and NeumannOperator, operator(u) equals the square root of the quadrature weight times the boundary value (Dirichlet) or boundary normal derivative (Neumann), on the side given by loc_sign, of the field representation(u) \u2014 plus the mean of the density for the problems reported as unique only up to a constant. So a density solving operator(u) = prepare_rhs(b) represents a field with boundary data b; L2 weighting is only a change of variables; all potentials in operator(u) satisfy the limit rules checked by bind; keyword arguments override the constructor's kernel arguments in both methods; representation works at any target.", "quantifier": "all kernels, sides, alpha, weighting and improved-operator settings, densities, discretizations, kernel arguments, and all boundary integral operators satisfying the jump relations and the Calderon identity", "why_tests_cant": "A unit test solves one problem on one curve with one setting of the flags to a discretization tolerance; the sign and scaling bookkeeping must be right for every combination of kernel, side, alpha, weighting and target.", "anchors": ["pytential/symbolic/pde/scalar.py: L2WeightedPDEOperator, DirichletOperator, NeumannOperator", "pytential/symbolic/primitives.py: S, D, Sp, Dp, int_g_vec, int_g_dsource, IntG.__post_init__"]}
{"id": "C61", "title": "Stokes potentials sum the right kernel components and the exterior operators are traces of the flow", "statement": "In 2D and 3D StokesletWrapper and StressletWrapper never miss a kernel and their apply, apply_derivative, apply_pressure and apply_stress return, component by component, the tensor contractions they document (Stokeslet: sum_i S_ci[sigma_i]; Stresslet: sum_ij T_cij[n_i sigma_j]; stress: (-p delta_cj + mu (d_j u_c + d_c u_j)) dir_j); other dimensions are rejected. For HsiaoKressExteriorStokesOperator and HebekerExteriorStokesOperator, a density solving operator(sigma) = prepare_rhs(b) gives a velocity whose exterior boundary value is b.", "quantifier": "all densities, normals, directions, viscosities, limits, all parameters omega/alpha/eta, and all symmetric Stokeslet/Stresslet potentials satisfying the Stresslet jump relation", "why_tests_cant": "The contraction relies on a hand-written dictionary of symmetric components; a test checks a few flows to a tolerance, while a wrong key or index affects only some component pairs.", "anchors": ["pytential/symbolic/stokes.py: StokesletWrapper, StressletWrapper, HsiaoKressExteriorStokesOperator, HebekerExteriorStokesOperator"]}
{"id": "C62", "title": "Beltrami operators", "statement": "For the Yukawa-, Helmholtz- and other Beltrami operators and either preconditioning, a density solving operator(sigma) = prepare_rhs(b) gives, through prepare_solution(sigma), a solution of the Beltrami equation with right-hand side b; for the Laplace-Beltrami operator it gives the solution with right-hand side b - mean(b), of mean zero if b has mean zero. Keyword arguments given to operator() override the kernel arguments; an unknown preconditioning, the Laplace kernel in the general operator and missing kernel arguments are refused.", "quantifier": "all kernels, dimensions, densities, right-hand sides, curvatures, kernel arguments and interpretations of the potentials satisfying the Calderon identities and the decomposition of the surface Laplacian (with an injective single layer potential in the case of left preconditioning)", "why_tests_cant": "tests solve two equations on a circle and a sphere with one right-hand side", "anchors": ["pytential/symbolic/pde/beltrami.py:BeltramiOperator", "pytential/symbolic/pde/beltrami.py:LaplaceBeltramiOperator", "pytential/symbolic/pde/beltrami.py:YukawaBeltramiOperator", "pytential/symbolic/pde/beltrami.py:HelmholtzBeltramiOperator"]}
{"id": "C63", "title": "Point sources and unregularized sources compute the sums they stand for", "statement": "Executing a potential of a point source or an unregularized layer potential source returns, for the requested outputs in order and with their names, the sum over all source points (times quadrature weights and area elements for layer potentials) and all source kernels of the output's own target kernel, on the points of the output's own target: flat for point targets, in element groups for discretizations of the requested stage. With an FMM the results are the same, although each distinct target is handed to it once and kernel arguments are reordered to tree order; one-sided limits are refused and unknown geometries raise KeyError.", "quantifier": "all collections, kernels, densities (constant or varying), kernel arguments, group structures, output lists with repeated targets, source orderings of the tree, exact FMMs", "why_tests_cant": "tests evaluate a handful of kernels on one or two target geometries, and hardly ever several outputs of one instruction", "anchors": ["pytential/source.py:PointPotentialSource.exec_compute_potential_insn", "pytential/source.py:evaluate_kernel_arguments", "pytential/source.py:LayerPotentialSourceBase.get_fmm_expansion_wrangler_extra_kwargs", "pytential/unregularized.py:UnregularizedLayerPotentialSource.exec_compute_potential_insn_direct", "pytential/unregularized.py:UnregularizedLayerPotentialSource.exec_compute_potential_insn_fmm", "pytential/unregularized.py:_FMMGeometryData.target_info", "pytential/collection.py:GeometryCollection.get_target_or_discretization"]}
{"id": "C64", "title": "Potentials are computed in a type that can hold them, whatever was computed before", "statement": "The array type in which a potential is computed has the precision of the source and is complex exactly when a kernel or a density is complex-valued, for direct and FMM evaluation; the entry type of a value is found exactly when all arrays nested in it agree; and the evaluator of point-to-point interactions an array context hands out has the kernels asked for and the type this source would choose, whatever other sources, kernels and densities were evaluated in that context before.", "quantifier": "all source precisions, kernel lists, density types and nestings, and all histories of earlier evaluations in the same array context", "why_tests_cant": "tests use one precision and one kernel per process, so neither mixed real/complex densities nor cache hits between sources of different precision occur", "anchors": ["pytential/source.py:PotentialSource.get_p2p", "pytential/source.py:_entry_dtype", "pytential/source.py:LayerPotentialSourceBase.get_fmm_output_and_expansion_dtype", "pytential/source.py:LayerPotentialSourceBase.complex_dtype", "pytential/qbx/__init__.py:QBXLayerPotentialSource.get_lpot_applier", "pytential/qbx/__init__.py:QBXLayerPotentialSource.get_lpot_applier_on_tgt_subset"]}
{"id": "C65", "title": "Integrals, means and norms are the quadrature quantities they are named after", "statement": "integral(discr, x) is the sum over all nodes of weight times area element times value; means of constants are those constants, means lie between bounds of the field and subtracting the mean leaves integral zero. norm(discr, x) is the square root of the integral of the squared pointwise length, for one field and for vectors of fields, and norm(discr, x, inf) the largest absolute value of any component at any node: both satisfy the triangle inequality, scaling and definiteness. A multivector is measured like the vector of its components and refused if it is not a vector; other orders raise ValueError. The array context used is the one supplied or occurring in the arguments, however nested; several different ones raise ValueError, none raises TypeError.", "quantifier": "all discretizations (groups, nodes, weights), complex fields and vectors of any length, multivectors, argument nestings and contexts", "why_tests_cant": "tests compare a few norms with known values; the norm laws and the search for the array context quantify over all fields and all nestings", "anchors": ["pytential/__init__.py:integral", "pytential/__init__.py:norm", "pytential/__init__.py:_norm_2_op", "pytential/__init__.py:_norm_inf_op", "pytential/symbolic/primitives.py:integral", "pytential/symbolic/primitives.py:area", "pytential/symbolic/primitives.py:mean", "pytential/symbolic/execution.py:_find_array_context_from_args_in_context"]}
{"id": "C66", "title": "Maxwell: incident fields satisfy Maxwell's equations and the MFIE imposes the conductor conditions", "statement": "The symbolic vector product, curl and divergence are the textbook ones. The point source field satisfies Maxwell's equations away from the source for every current, and the plane wave satisfies them at the given frequency in the given medium for every direction and amplitude. For a perfect conductor, j_operator(loc, J) = j_rhs(Hinc) says exactly that the total magnetic field has no tangential component on the side opposite to loc, and then n x H on loc is the current; rho_operator(loc, rho) = rho_rhs(J, Einc) says exactly that the total electric field has no normal component on that side, and then n . E on loc is the charge; the scattered field satisfies Maxwell's equations exactly if current and charge potentials satisfy the Lorenz condition.", "quantifier": "all currents, charges, incident fields, wave numbers, directions, amplitudes, media, sides, and all layer potentials satisfying the jump relations", "why_tests_cant": "tests solve one scattering problem on a torus; that the equations impose these conditions is a statement about all densities and incident fields", "anchors": ["pytential/symbolic/pde/maxwell/__init__.py:get_sym_maxwell_point_source", "pytential/symbolic/pde/maxwell/__init__.py:get_sym_maxwell_plane_wave", "pytential/symbolic/pde/maxwell/__init__.py:PECChargeCurrentMFIEOperator", "pytential/symbolic/primitives.py:cross", "pytential/symbolic/primitives.py:n_cross", "pytential/symbolic/primitives.py:n_dot", "pytential/symbolic/primitives.py:curl", "pytential/symbolic/primitives.py:tangential_to_xyz", "pytential/symbolic/primitives.py:xyz_to_tangential"]}
{"id": "C67", "title": "Maxwell transmission: Mueller's operator imposes the transmission conditions on the represented fields", "statement": "For two domains the six rows of operator(unk) are the jumps, across the surface, of tangential H, normal D, tangential E and normal B of the fields that unk represents in the two media, so operator(unk) = rhs(Einc, Hinc) says exactly that the incident field minus the outside field and minus the inside field fit together. representation(i, unk) gives those fields in domain i, and they satisfy Maxwell's equations of that medium if the potentials satisfy the Lorenz conditions. Any other number of domains raises, and an index that is no domain raises IndexError.", "quantifier": "all unknowns, incident fields, media (epsilon, mu), frequencies, numbers of domains and all layer potentials satisfying the jump relations", "why_tests_cant": "tests solve one transmission problem with fixed media; the equivalence with the transmission conditions is a statement about all densities and media", "anchors": ["pytential/symbolic/pde/maxwell/__init__.py:MuellerAugmentedMFIEOperator", "pytential/symbolic/pde/maxwell/__init__.py:MaxwellDomain", "pytential/symbolic/pde/maxwell/__init__.py:MuellerUnknowns"]}
{"id": "C68", "title": "Modeled costs: per box and per stage add up, scale with their calibration parameter and count operations", "statement": "qbx_cost_per_box and qbx_cost_per_stage describe the same total: summing over boxes equals summing over stages, if this holds for the FMM part. The cost of a box is its FMM cost plus its entries of the applicable QBX stages, exactly one of the two near field stages being used. Each stage cost is proportional to the one calibration parameter that calibration fits for that stage and independent of the others; with unit parameters the costs count operations (pairs of center and direct source, center and list 3 box, center, center and target). The OpenCL and the Python model agree. A result exists exactly if every level has an order and all five parameters are given; the metadata record the orders.", "quantifier": "all trees, target box lists, centers, interaction lists, orders, calibration parameters, dimensions, both cost models", "why_tests_cant": "tests compare the two models on a few geometries; additivity, proportionality and the counts quantify over all trees, lists and parameters", "anchors": ["pytential/qbx/cost.py:AbstractQBXCostModel.qbx_cost_per_box", "pytential/qbx/cost.py:AbstractQBXCostModel.qbx_cost_per_stage", "pytential/qbx/cost.py:AbstractQBXCostModel.qbx_cost_factors_for_kernels_from_model", "pytential/qbx/cost.py:QBXTranslationCostModel", "pytential/qbx/cost.py:make_pde_aware_translation_cost_model", "pytential/qbx/cost.py:make_taylor_translation_cost_model", "pytential/qbx/cost.py:AbstractQBXCostModel.get_unit_calibration_params", "pytential/qbx/cost.py:AbstractQBXCostModel.gather_metadata"]}
{"id": "C69", "title": "Costs of bound expressions can be modeled, calibrated and applied", "statement": "BoundExpression.cost_per_stage and cost_per_box return one entry for every potential of the expression, for exactly the expressions all of whose potentials are computed by FMM-accelerated QBX; other sources raise. These entries, together with timings, can be given to estimate_kernel_specific_calibration_params, which fits the parameters of each set of kernels to all pairs of modeled and measured costs for it and raises AssertionError exactly if something timed has no modeled cost; the parameters so obtained can be passed back to cost_per_stage for the same expressions. Evaluation itself is direct exactly if fmm_order is False.", "quantifier": "all programs (sequences of statements), sources, kernel sets, lists of models and timings, calibration dictionaries", "why_tests_cant": "tests run a few operators with constant_one and look at nothing in the result; the workflow is a statement about all programs and calibration histories", "anchors": ["pytential/symbolic/execution.py:CostModelMapper", "pytential/symbolic/execution.py:BoundExpression.cost_per_stage", "pytential/symbolic/execution.py:BoundExpression.cost_per_box", "pytential/qbx/__init__.py:QBXLayerPotentialSource.cost_model_compute_potential_insn", "pytential/qbx/__init__.py:QBXLayerPotentialSource._dispatch_compute_potential_insn", "pytential/qbx/cost.py:AbstractQBXCostModel.estimate_kernel_specific_calibration_params"]}
{"id": "C70", "title": "Skeletonization errors measure what they say", "statement": "cluster_skeletonization_error(mat, skeleton, ord, relative) succeeds for every skeletonization whose points are rows and columns of mat and returns a tuple (src_errors, tgt_errors) of (nclusters, nclusters) arrays, where for different clusters i, j the target error is the norm of A_ij - L_i T_ij and the source error that of A_ij - S_ij R_j (divided by the norm of A_ij if relative), and the diagonals are zero. skeletonization_error returns, for clusters that do not overlap, the norm of A - D - L S R (divided by that of A if relative), i.e. of the matrix whose blocks for different clusters are A_ij - L_i S_ij R_j and which is zero elsewhere. If all cluster errors vanish, so does the error of the whole matrix; in general it is at most the sum over all pairs of clusters of the source error plus the target error times the norm of R_j.", "quantifier": "all matrices over a ring, norms, skeletonizations, numbers and sizes of clusters", "why_tests_cant": "tests print errors or compare them to a tolerance for one geometry; whether the numbers are the documented ones is a statement about all matrices and skeletons", "anchors": ["pytential/linalg/utils.py:cluster_skeletonization_error", "pytential/linalg/utils.py:skeletonization_error", "pytential/linalg/skeletonization.py:SkeletonizationResult"]}
{"id": "C71", "title": "Skeletonization wranglers evaluate and weight the right interactions", "statement": "make_skeletonization_wrangler accepts one expression or many, one density or many, no domain, one, or one per density, and weights that are on by default, one flag or a pair of flags (else ValueError). For every block, the four interactions are evaluated for the density and the domain of its column and the expression of its row, sources being columns and targets rows; target proxy interactions of cluster i are multiplied by the mean of the quadrature weights over the neighbors of cluster i, which lies between the smallest and the largest of them, so that weighting keeps interactions finite. Proxies and neighbors of target clusters are found around the target points. skeletonize_by_proxy returns an array of shape (number of expressions, number of densities) of the skeletonizations of all blocks.", "quantifier": "all expressions, densities, domains, flags, cluster index lists, neighbor lists and weights", "why_tests_cant": "tests use one geometry and clusters with neighbors; the claims are about all cluster geometries and block shapes", "anchors": ["pytential/linalg/skeletonization.py:make_skeletonization_wrangler", "pytential/linalg/skeletonization.py:SkeletonizationWrangler", "pytential/linalg/skeletonization.py:_approximate_geometry_waa_magnitude", "pytential/linalg/skeletonization.py:_apply_weights", "pytential/linalg/skeletonization.py:skeletonize_by_proxy", "pytential/symbolic/execution.py:_prepare_domains"]}
{"id": "C72", "title": "Fourth-order operators: clamped plate and Cahn-Hilliard", "statement": "BiharmonicClampedPlateOperator accepts exactly kernels in two dimensions and the interior side, and two densities (else AssertionError); for potentials with the jump relations of the clamped plate kernels, its operator is the interior boundary trace of its representation and of the normal derivative of that, on any geometry. CahnHilliardOperator.operator is the boundary trace of the boundary conditions applied to its representation u, i.e. of du/dn + c u and dv/dn with v = b u - Laplacian u, on one side; it raises ZeroDivisionError if the two wave numbers have equal squares.", "quantifier": "all kernels, kernel arguments, sides, densities, geometries (dofdescs), coefficients and interpretations of the potentials obeying the jump relations", "why_tests_cant": "tests solve one interior problem on one curve (clamped plate) or only evaluate (Cahn-Hilliard); that the operator is the trace of the representation is a statement about all densities and geometries", "anchors": ["pytential/symbolic/pde/scalar.py:BiharmonicClampedPlateOperator", "pytential/symbolic/pde/cahn_hilliard.py:CahnHilliardOperator"]}
{"id": "C73", "title": "Curvatures are geometric: Frenet, principal curvatures, invariance under parametrization and scale", "statement": "mean_curvature is available exactly for curves in the plane and surfaces in space (else NotImplementedError). For every regular, twice differentiable curve it is the signed curvature of Frenet's formula: the unit tangent turns with it, away from the normal if it is positive. For every regular surface it is minus the mean of the principal curvatures, and of the normal curvatures in any two orthogonal tangent directions. It does not depend on the parametrization except for its sign, which changes with the orientation; it is 1/R for circles and spheres of radius R with exterior normals; the conventions in two and three dimensions agree on cylinders. The scaled maximum curvature used in refinement does not change when the geometry is scaled.", "quantifier": "all regular curves and surfaces (given by derivatives up to second order), changes of parameter, rotations, scale factors, dimensions", "why_tests_cant": "tests compute curvatures of a circle or ellipse, a sphere and a torus in one parametrization", "anchors": ["pytential/symbolic/primitives.py:mean_curvature", "pytential/symbolic/primitives.py:first_fundamental_form", "pytential/symbolic/primitives.py:second_fundamental_form", "pytential/symbolic/primitives.py:shape_operator", "pytential/symbolic/primitives.py:_max_curvature", "pytential/symbolic/primitives.py:_scaled_max_curvature"]}
{"id": "C74", "title": "Expansion radii and centers fit together at every granularity", "statement": "expansion_radii at a node is half (for surfaces a quarter) of the stretch factor of the element map there; source danger zone and tunnel radii are 3/4 and 1/2 of it. With center granularity both centers of a node get the radius of the node, in the order of interleaved_expansion_centers: interior center first, and the k-th center lies exactly at the k-th radius from node k/2, along the normal on its side. h_max and h_min are the largest and smallest stretch factor and bound the radii; for straight uniform elements they are the element lengths. Element granularity (ValueError), mixed meshes (NotImplementedError), other shapes (RuntimeError) and other element types (TypeError) are refused.", "quantifier": "all discretizations (numbers of groups and nodes, positions, unit normals, stretch factors), dimensions and granularities", "why_tests_cant": "tests look at radii and centers of a few meshes; the correspondence of the two flattened orders must hold for all", "anchors": ["pytential/symbolic/primitives.py:expansion_radii", "pytential/symbolic/primitives.py:_quad_resolution", "pytential/symbolic/primitives.py:interleaved_expansion_centers", "pytential/symbolic/primitives.py:h_max", "pytential/symbolic/primitives.py:h_min", "pytential/symbolic/primitives.py:_mapping_max_stretch_factor", "pytential/symbolic/execution.py:map_is_shape_class", "pytential/symbolic/dof_connection.py:connection_from_dds"]}
{"id": "C75", "title": "GMRES entry point: the default inner product is the Hermitian product of all entries, the defaults solve to 1e-5", "statement": "With no inner product given, gmres uses one that, for vectors of the same structure (numbers, NumPy arrays, device arrays, DOFArrays, object arrays nested in any way), is the Hermitian product of all entries with the first argument conjugated. It works exactly for numbers and NumPy arrays of numbers and, if the operator, the right-hand side and the initial guess agree on one PyOpenCL array context, for vectors on the device; without such a context it raises ValueError, for different Python types TypeError. With it, and unless hard_failure=False is given, every solution returned has a residual below tol (1e-5 by default) times the norm of the right-hand side, or none, and residual norms never increase; with no optional arguments a non-empty system ends in a result or GMRESError after at most 2n residuals, and an empty one in GMRESError.", "quantifier": "all vectors (shapes, nesting, entries), array contexts, operators, right-hand sides, initial guesses and parameters, in exact arithmetic", "why_tests_cant": "tests use flat arrays and one nested array; the claim ranges over all nestings, contexts and operators", "anchors": ["pytential/linalg/gmres.py: structured_vdot, gmres, _gmres", "pytential/symbolic/execution.py: _find_array_context_from_args_in_context"]}
{"id": "C76", "title": "bind and evaluate: the value of an expression is its meaning with all locations filled in", "statement": "Evaluating bind(places, expr) with values for all variables returns the value obtained by filling in the default locations (inside layer potentials the source, outside the target), computing each layer potential on a QBX source without a chosen stage from densities interpolated from stage 1 and arguments evaluated on stage 2, both taken to the quadrature stage, taking 'avg' as the mean of the two one-sided limits and targets without a stage on stage 1, and applying all other operations to the values of their operands. The value does not depend on caches, on the schedule of statements or on the iteration order of sets; a layer potential on a QBX source with a limit that does not fit its target makes bind raise ValueError. Evaluation of a successfully bound expression returns a value exactly if that meaning exists, and raises exactly if an operation in it raises or a variable it needs is not given.", "quantifier": "all scalar expressions, collections of places, default locations, interpretations of the elementary operations, inputs, valid cache contents, schedules and set iteration orders", "why_tests_cant": "tests evaluate a few operators; the claim ranges over all expressions and is about the composition of four rewriting passes, the compiler and the interpreter", "anchors": ["pytential/symbolic/execution.py: bind, BoundExpression, _prepare_expr", "pytential/symbolic/mappers.py: ToTargetTagger, QBXPreprocessor, InterpolationPreprocessor", "pytential/symbolic/compiler.py: OperatorCompiler, Code"]}
{"id": "C77", "title": "The FMM and the direct path evaluate the same layer potential", "statement": "Whether a layer potential is evaluated with the FMM or directly does not change the result: with exact expansions both return for each output, in order, at each point of its target the sum over all sources through the center that association picks for the point and the requested side, or plain quadrature where it picks none. Association depends only on the point and the side, not on the tree or the other targets. On the source itself association picks each node's own center. Both use as strengths quadrature weight times area element times density in node order, and refuse (TypeError) densities which are not DOFArrays.", "quantifier": "all sources, targets, outputs and side requests, trees and traversals, kernel values, strengths and orders in which kernels perform their stores", "why_tests_cant": "a test compares the paths on a few geometries within a tolerance; the claim ranges over all geometries, trees and target lists and is exact once expansions are", "anchors": ["pytential/qbx/__init__.py: QBXLayerPotentialSource.exec_compute_potential_insn_fmm, exec_compute_potential_insn_direct, get_target_discrs_and_qbx_sides, get_flat_strengths_from_densities", "pytential/qbx/fmm.py: drive_fmm", "pytential/qbx/geometry.py: QBXFMMGeometryData.user_target_to_center", "pytential/qbx/target_assoc.py: associate_targets_to_qbx_centers"]}
{"id": "C78", "title": "Layer potential constructors stand for the operators they name", "statement": "S is the single layer potential of the kernel given (with whatever derivatives it already carries), D the one of its derivative along the source normal, Sp and Spp the first and second derivative of S along the (fixed) target normal, Dp that of D; int_g_dsource with a vector v has as components the derivative along v and those along v_a e_b - v_b e_a; normal_derivative, normal_second_derivative and (on curves) tangential_derivative are the derivatives of the field of the potential in these directions. Densities, source, target and side are passed on; the side defaults to +1 for S, Spp, Dp and to the average for D and Sp. Kernel arguments, in a dictionary or by keyword, must be exactly those the kernel takes: else ValueError. Object arrays of densities give one potential per entry, in order.", "quantifier": "all dimensions, kernels with any nesting of source and target derivatives, argument dictionaries, sources, targets, densities, quadrature rules, targets away from the sources", "why_tests_cant": "a test evaluates a few operators on a few curves within a tolerance; the claim is an identity between derivatives of fields for every kernel, every nesting of derivatives and every surface", "anchors": ["pytential/symbolic/primitives.py: S, D, Sp, Dp, Spp, int_g_vec, int_g_dsource, normal_derivative, normal_second_derivative, tangential_derivative, IntG, _insert_source_derivative_into_kernel, _get_dir_vec", "pytential/symbolic/mappers.py: DerivativeTaker, DerivativeBinder"]}
{"id": "C79", "title": "Back ends and expansions chosen for a potential statement", "statement": "For a batched potential statement, the sumpy FMM back end accepts any kernels with one common base kernel unless target-specific QBX is demanded, and uses the factory's expansions of that base kernel, one and the same QBX expansion for forming, translating and evaluating; the FMMLib back end accepts exactly single source kernels that are 2D or 3D Laplace or Helmholtz kernels or a directional source derivative thereof, with potentials and gradient components as outputs (target-specific QBX: three dimensions, not both derivatives), passes the user's Helmholtz parameter and dipole directions by their names, computes for each output its own component; anything else is a ValueError (a missing argument a KeyError). Unknown back ends are refused. Direct evaluation uses line Taylor expansions on the source if no target derivative is wanted, else the factory's local expansion, and volume Taylor expansions off the source, always of the source's QBX order. Which expansion is used for a potential does not depend on what else is computed in the statement.", "quantifier": "all lists of source and target kernels with any nesting of derivatives, argument dictionaries, expansion factories, orders, back end names and settings", "why_tests_cant": "tests use a handful of kernels with one back end; the claim says for every combination of kernels which one is accepted and which expansion, parameter and component is used", "anchors": ["pytential/qbx/__init__.py: QBXLayerPotentialSource._tree_indep_data_for_wrangler, exec_compute_potential_insn_fmm, get_expansion_for_qbx_direct_eval, get_lpot_applier, get_lpot_applier_on_tgt_subset", "pytential/qbx/fmm.py: QBXSumpyTreeIndependentDataForWrangler, QBXExpansionWrangler", "pytential/qbx/fmmlib.py: QBXFMMLibTreeIndependentDataForWrangler, QBXFMMLibExpansionWrangler", "pytential/source.py: PotentialSource.get_fmm_kernel"]}
{"id": "C80", "title": "GMRES minimizes the residual over Krylov spaces and converges", "statement": "In exact arithmetic and for any inner product, up to the first restart the n-th iterate of gmres lies in the initial guess plus the n-th Krylov space of the initial residual, and no vector there has a smaller residual. For operators whose numerical range does not contain zero every iteration strictly reduces the residual, through restarts; if the operator is bounded by M and coercive with constant m the squared residual shrinks by the factor 1-(m/M)^2 at least, so gmres succeeds once this guarantees the tolerance within maxiter (and the stall test asks for no more progress). An invertible system with n unknowns is solved within n iterations if there is no restart before; with the defaults every such system of up to ten unknowns is solved. For an arbitrary operator success is reported exactly if no residual met before the convergence test passes is orthogonal to its image.", "quantifier": "all real and complex inner product spaces, linear operators, right-hand sides, initial guesses, restart lengths, tolerances, iteration limits, stall windows", "why_tests_cant": "a test runs a few matrices in floating point; minimality over all vectors of a Krylov space and convergence for all coercive operators are statements about every operator and iteration", "anchors": ["pytential/linalg/gmres.py: _gmres, gmres"]}
{"id": "C81", "title": "Target-specific Laplace kernels evaluate the local expansion and its gradients", "statement": "For every source, centre, target and order, the target-specific Laplace single-layer kernel returns the charge times the order-p local expansion about the centre (the Taylor polynomial of 1/|source - (centre + l(target - centre))| in l, at l = 1); the gradient kernel adds to its output the charge times the gradient of that expansion in the target, and the double-layer kernel returns the dipole strength times its derivative in the source along the dipole vector. If the target is closer to the centre than the source the truncation errors are at most |charge| rho^(p+1)/(|s-c|-|t-c|) for the potential and |charge| sum over n>p of n rho^(n-1)/|s-c|^2 for each gradient component, rho = |t-c|/|s-c|.", "quantifier": "all sources, centres, targets in space, charges, dipole vectors and strengths, expansion orders", "why_tests_cant": "a test compares a few points at a few orders with another floating point code; the claim is an identity and an error bound for all geometries and orders", "anchors": ["pytential/qbx/target_specific/impl.pyx: legvals, dist, ts_laplace_s, ts_laplace_sp, ts_laplace_d", "pytential/qbx/target_specific/impl.h: BUFSIZE"]}
{"id": "C82", "title": "Target-specific Helmholtz kernels evaluate the local expansion and its gradients", "statement": "For every source, centre, target, wave number and order, given the spherical Bessel values of the target, the target-specific Helmholtz single-layer kernel returns the charge times the order-p local expansion i k sum_{n<=p} (2n+1) j_n(k|t-c|) h_n(k|s-c|) P_n(cos angle); the gradient kernel adds to its output the charge times the gradient of that expansion in the target, and the double-layer kernel returns the dipole strength times its derivative in the source along the dipole vector. If the target is closer to the centre than the source, that expansion converges to exp(ik|s-t|)/|s-t| geometrically with ratio rho = |t-c|/|s-c|. The precomputation returns j_n(k|t-c|) and derivatives (to a relative accuracy of 5e-19 in the values), so the potential computed from it has error at most |charge| C/(|s-c|-|t-c|) (rho^(p+1) + 5e-19) with the explicit constant C of the specification. The gradient and double layer computed from it approximate the derivatives of exp(ik|s-t|)/|s-t| with errors bounded by explicit constants times sum_{n>p} (n+1)^2 rho^n plus 4e-18 times sum_n (n+1)^2 rho^n.", "quantifier": "all sources, centres, targets in space, complex wave numbers, charges, dipole vectors and strengths, expansion orders", "why_tests_cant": "a test compares a few points at a few wave numbers and orders with another floating point code; the claim is an identity and an error bound for all geometries, wave numbers and orders", "anchors": ["pytential/qbx/target_specific/impl.pyx: ts_helmholtz_precompute, ts_helmholtz_s, ts_helmholtz_sp, ts_helmholtz_d", "pytential/qbx/target_specific/helmholtz_utils.c: jfuns3d_, h3dall_, h3d01_", "pytential/qbx/target_specific/impl.h: BUFSIZE, PADDING"]}
{"id": "C83", "title": "Target-specific QBX stores the near field of every target in every execution", "statement": "For every set of arguments and every execution of the thread-parallel loop (any assignment of centers to threads, any interleaving of their operations), a call of the target-specific evaluation stores, for each target of each listed center, the sum over the sources of the boxes in the center's near-field list of their order-p local expansions about that center (charges and dipoles, Laplace or Helmholtz), and its gradient if requested; these differ from the true field of those sources by at most the sum of the kernels' truncation and Bessel errors. Entries of targets not listed, and outputs not requested, are not touched; stale contents of the reused per-thread buffers never influence a value. ValueError is raised exactly for missing charges, missing dipole data or a requested gradient of dipoles.", "quantifier": "all source, target, center arrays, CSR lists, flags, orders, wave numbers, thread counts, assignments of centers to threads and interleavings", "why_tests_cant": "Data races and stale buffers show only under particular schedules; tests run one schedule on a few points.", "anchors": ["pytential/qbx/target_specific/impl.pyx:eval_target_specific_qbx_locals"]}
{"id": "C84", "title": "The Stokes wrappers return velocities, pressures and stresses of one flow", "statement": "In two and three dimensions, for every density, viscosity and set of weighted sources, at every point away from the sources: the velocity returned by StokesletWrapper.apply and the pressure returned by apply_pressure satisfy the Stokes equations (div u = 0, mu Laplacian u = grad p), apply_derivative returns the derivatives of that velocity, and apply_stress returns the stress -p delta + mu (grad u + grad u^T) of that velocity and pressure in the given direction; the same holds for StressletWrapper. The velocities of HsiaoKressExteriorStokesOperator and HebekerExteriorStokesOperator are Stokes flows.", "quantifier": "all densities, normals, directions, viscosities, sources and weights, all points away from the sources, dimensions 2 and 3", "why_tests_cant": "the equations hold at every point and for every density; tests compare a few flows with reference solutions up to discretization error", "anchors": ["pytential/symbolic/stokes.py: StokesletWrapper, StressletWrapper, HsiaoKressExteriorStokesOperator.velocity, HebekerExteriorStokesOperator.velocity"]}
{"id": "C85", "title": "A geometry refined without warning is usable for QBX", "statement": "If stage-1 refinement returns without a not-converged warning, then at all nodes of the returned discretization the element size is at most the kernel length scale and the scaled curvature at most its threshold (where given), no node lies within (1-tol) expansion radii of any expansion center, and associating the nodes with centers, with any side requests and any nonnegative association tolerance, succeeds, every node getting a center on the requested side at most one expansion radius away. If stage-2 refinement returns without warning and no uniform rounds were requested, every quadrature node of the returned discretization is farther from every stage-1 expansion center than three quarters of the largest expansion radius of its element. The checks never fail with an internal error.", "quantifier": "all meshes, node positions, trees, update orders of the check kernels, tolerances, thresholds, iteration limits, side requests", "why_tests_cant": "the guarantee concerns every node/center pair of every refined geometry, and holds however trees are built and kernels scheduled", "anchors": ["pytential/qbx/refinement.py: _refine_qbx_stage1, _refine_qbx_stage2, RefinerWrangler", "pytential/qbx/target_assoc.py: associate_targets_to_qbx_centers", "pytential/qbx/utils.py: build_tree_with_qbx_metadata"]}
{"id": "C86", "title": "Every documented expression node can be bound, evaluated and printed", "statement": "Every pass an expression goes through in bind, its evaluation and printing handle every expression built from pytential's documented node classes: no pass raises UnsupportedExpressionError. GraphvizMapper draws every such expression.", "quantifier": "all expressions (trees of any size) of documented nodes, all passes", "why_tests_cant": "tests exercise the nodes and passes they happen to combine; a node that no test binds is never noticed", "anchors": ["pytential/symbolic/mappers.py: IdentityMapper, CombineMapper, Collector, LocationTagger, StringifyMapper", "pytential/symbolic/execution.py: EvaluationMapperBase, _prepare_expr", "pytential/symbolic/primitives.py: IterativeInverse", "pytential/symbolic/mappers.py: GraphvizMapper"]}
{"id": "C87", "title": "Integral equations are solved: a converged solve satisfies the equation bound", "statement": "For an expression that is linear in the unknown as written (sums, products with factors free of it, layer potentials with linear densities and arguments free of it, interpolation, 'avg' limits, CSEs), bind(places, expr) is, in all calls, one and the same linear operator K, namely the meaning of the expression with locations filled in; scipy_op presents this operator on flat vectors; and if gmres, given this operator and a right-hand side b, reports success, its solution x (unflattened) satisfies ||b - K x|| < tol ||b|| or ||b - K x|| = 0.", "quantifier": "all expressions, collections, linear interpretations of the elementary operations, call histories, cache contents, schedules, inner products, norms and gmres parameters, in exact arithmetic", "why_tests_cant": "tests solve a few equations with known solutions; which residual was minimized is invisible if the operator is not the one written, e.g. because of stale caches", "anchors": ["pytential/symbolic/execution.py: bind, BoundExpression.__call__, BoundExpression.scipy_op, MatVecOp.matvec", "pytential/linalg/gmres.py: gmres", "pytential/symbolic/execution.py: EvaluationMapperBase.map_common_subexpression"]}
{"id": "C88", "title": "The matrix of a layer potential is that of its evaluation", "statement": "For an expression whose layer potentials map from a source to itself, the matrix returned by build_matrix, applied to any input, gives the value of the expression at this input with all layer potentials evaluated directly: at each target node the sum over source kernels and source nodes of the local expansion about the node's center on the requested side, times quadrature weight, times density. The results of a batched statement are those of its outputs alone. Cluster builders return the entries of this matrix. A potential without side or whose source or target is not a discretization is refused. The same holds for other targets, and point-to-point matrices are those of plain quadrature.", "quantifier": "all geometries, kernels, expansions, expressions, inputs and batches", "why_tests_cant": "Tests compare matrices and matrix-vector products for one curve and two operators; that the builder and the evaluator use the same centers, expansions, weights and kernels must hold for every operator and geometry.", "anchors": ["pytential/symbolic/matrix.py: MatrixBuilder.map_int_g, P2PMatrixBuilder.map_int_g, QBXClusterMatrixBuilder.map_int_g", "pytential/qbx/__init__.py: exec_compute_potential_insn_direct, get_flat_strengths_from_densities, get_lpot_applier", "pytential/symbolic/execution.py: build_matrix"]}
{"id": "C89", "title": "The drawing of the dataflow shows where every value comes from", "statement": "In the graph drawn by dot_dataflow_graph for the code of a bound expression there is an arrow labelled with a variable from one node to the node of a statement exactly if this statement reads the variable and the first node is the statement assigning it, or 'initial' if it is an input; arrows lead from earlier to later statements only; and the arrows into 'result' show in the same way where every variable of the result comes from.", "quantifier": "all expressions without name clashes, all priorities and set iteration orders", "why_tests_cant": "The arrows depend on names generated by the compiler, on the grouping of operators and on the schedule, so no finite set of drawings covers them.", "anchors": ["pytential/symbolic/compiler.py: dot_dataflow_graph", "pytential/symbolic/compiler.py: Code.statements"]}
{"id": "C90", "title": "A bound layer potential on an unaccelerated QBX source evaluates to the QBX sum", "statement": "For a QBXLayerPotentialSource without acceleration, bind(places, IntG(...))(**inputs) returns an array with one entry per target node. If the target is the source, entry i is the sum over all source kernels and all quadrature nodes of the value at node i of the kernel's expansion about the center of node i on the side of qbx_forced_limit, times quadrature weight, area element and the density interpolated from stage 1 to the quadrature stage (for 'avg': half the sum of the two sides). For other targets it is the same sum with the expansion about the associated center, or plain quadrature where there is none. Limits that do not fit the target make bind raise ValueError; evaluation raises exactly if direct evaluation of the layer potential raises, and whole expressions of layer potentials evaluate to their value with layer potentials evaluated directly. Nothing depends on statement order, set iteration order, cache contents or the names the compiler generates.", "quantifier": "all layer potentials with any number of source kernels, densities and kernel arguments (expressions or plain variables), all geometries, all inputs, all schedules and cache contents; a QBX source without a chosen stage, nested potentials on the same source, no clashes with generated names", "why_tests_cant": "The result is the end of a chain of rewriting passes, compilation, scheduling and execution, each with its own case distinctions on limits, stages and targets; tests check single chains.", "anchors": ["pytential/symbolic/execution.py: bind, BoundExpression.eval", "pytential/symbolic/mappers.py: QBXPreprocessor, InterpolationPreprocessor", "pytential/symbolic/compiler.py: OperatorCompiler, Code.execute", "pytential/qbx/__init__.py: QBXLayerPotentialSource.exec_compute_potential_insn_direct"]}
{"id": "C91", "title": "build_matrix times the input is what bind evaluates, end to end", "statement": "build_matrix(places, expr, x, context) and bind(places, expr)(x=v, **context) belong together: if the layer potentials of the expression map from their source to itself, then for every input array v the bound expression returns the matrix times v (zeros if the block is zero), where both go through the whole of pytential: placement, 'avg' expansion, upsampling, then the matrix builder on one side and compilation, scheduling, caching and direct QBX evaluation on the other.", "quantifier": "all expressions made of the unknown, variables of the context, numbers, sums, products, CSEs, interpolations and layer potentials with any kernels and kernel arguments, all geometries, inputs, schedules and cache contents", "why_tests_cant": "Two independent interpreters of the prepared expression have to agree on every expression and every input; a test compares one expression and a few inputs.", "anchors": ["pytential/symbolic/execution.py: build_matrix, bind, _prepare_expr", "pytential/symbolic/matrix.py: MatrixBuilder", "pytential/symbolic/compiler.py: Code.execute", "pytential/qbx/__init__.py: exec_compute_potential_insn_direct"]}
{"id": "C92", "title": "As imported, pytential never silently hands out an under-refined geometry", "statement": "With the warning filter that importing pytential installs (not-converged warnings become exceptions), refinement in the refining mode has exactly two outcomes per stage. It returns precisely if fewer than maxiter rounds, each refining exactly the elements that violate the criteria, lead to a discretization satisfying all criteria, and then returns that discretization (for stage 2: refined uniformly as often as requested) with the connections of these rounds. Otherwise it raises the not-converged exception, and the message lists for each of the maxiter rounds the criteria that were violated before it.", "quantifier": "all meshes, criteria outcomes, update orders of the check kernels, iteration limits", "why_tests_cant": "Which of the two outcomes occurs depends on the whole history of check results; a test sees a handful of geometries.", "anchors": ["pytential/__init__.py: _set_up_errors", "pytential/qbx/refinement.py: _refine_qbx_stage1, _refine_qbx_stage2, _warn_max_iterations"]}
{"id": "C93", "title": "A converged solve meets the tolerance in the boundary data", "statement": "Solving operator(u) = prepare_rhs(b) of a DirichletOperator or NeumannOperator with gmres: the operator is linear in u, and if gmres reports success, the boundary value (Dirichlet) or boundary normal derivative (Neumann), on the side of the problem, of representation(u) differs from the prescribed data b by less than tol relative to b, or not at all (with the mean of the density added for problems unique only up to a constant). The error is measured in the quadrature L2 norm if use_l2_weighting is set, and only in the Euclidean norm of the nodal values otherwise.", "quantifier": "all kernels, sides, alpha, weighting settings, boundary data, discretizations with positive weights, initial guesses, tolerances and restart lengths, and all linear boundary integral operators satisfying the jump relations", "why_tests_cant": "for every operator, right hand side and iteration history; a test solves one problem", "anchors": ["pytential/symbolic/pde/scalar.py:DirichletOperator", "pytential/symbolic/pde/scalar.py:NeumannOperator", "pytential/symbolic/pde/scalar.py:L2WeightedPDEOperator.prepare_rhs", "pytential/linalg/gmres.py:gmres"]}
{"id": "C94", "title": "bind on an FMM-accelerated QBX source evaluates to QBX sums about the associated centers, and agrees with direct evaluation", "statement": "bind(places, IntG)(**inputs) on a QBX source with fmm_order set (sumpy back end, exact translations) returns an array with one entry per target point: if the point lies in no source node's tunnel, the plain quadrature sum; otherwise the sum over source kernels and quadrature nodes of the value at the point of the QBX expansion (of the class the factory picks, of the base kernel and order of the source) about a center of the requested side whose enlarged disk contains the point, none of the same side being nearer relative to its radius, times quadrature weight, area element and the density interpolated from stage 1; 'avg' is half the sum of both sides.  This holds for every tree, traversal, order of stores, schedule, and cache content.  If the expansion classes have the same values, the result is the same as without FMM: away from the source always, on the source if association picks each node's own center. Given densities of the right size, evaluation raises exactly if the source kernels have no common translation-invariant base kernel or target association fails.", "quantifier": "all layer potentials, collections, densities and kernel arguments, geometries, trees, traversals, orders of concurrent stores, compiler schedules and cache contents", "why_tests_cant": "the claim ranges over all expressions, geometries, trees and schedules at once; tests compare FMM and direct evaluation for single geometries up to FMM error", "anchors": ["pytential/qbx/__init__.py:exec_compute_potential_insn_fmm", "pytential/qbx/fmm.py:drive_fmm", "pytential/qbx/target_assoc.py:associate_targets_to_qbx_centers", "pytential/symbolic/execution.py:BoundExpression"]}
{"id": "C95", "title": "Flattening sums and products does not change the value of an expression", "statement": "The first thing bind does is to flatten: nested sums and products are merged, zeros are dropped from sums and ones from products, a product with a zero factor becomes 0, x/1 and x**1 become x.  The result has none of these redundancies left, an expression without them is left alone, and flattening twice is the same as once.  If an expression, with its locations filled in, has a value, the flattened expression has the same value, so bind(places, expr)(**context) returns it.  A product one of whose factors flattens to 0 evaluates to the number 0 whatever the other factors are, even if they refer to undefined variables.", "quantifier": "all expressions, all interpretations of the operations in a commutative semiring, all collections, inputs, schedules and cache contents", "why_tests_cant": "the claim ranges over all nestings of sums, products and other operations; tests check single expressions", "anchors": ["pytential/symbolic/mappers.py:FlattenMapper", "pytential/symbolic/mappers.py:flatten", "pytential/symbolic/execution.py:_prepare_expr"]}
{"id": "C96", "title": "Reference derivatives are the mixed derivatives asked for, componentwise", "statement": "num_reference_derivative(operand, ref_axes, dofdesc) accepts an axis number (one derivative along that axis) and exactly the tuples of pairs (axis, order) with every axis at most once and in ascending order; other types raise TypeError, tuples that are not sorted and sorted tuples with a repeated axis raise ValueError.  Evaluated, it differentiates order times along each axis; if differentiation along different axes commutes, a derivative of a derivative is the derivative of the summed orders, and two accepted tuples with positive orders that always give the same values are equal.  Orders that are not positive are accepted and take no derivative.  Object arrays and multivectors, however nested, are differentiated componentwise, keeping their shape.", "quantifier": "all ref_axes, all nestings of arrays and multivectors, all orders and axes, all differentiation operators", "why_tests_cant": "tests check a few tuples on a few arrays; the acceptance rule, the commutation of nested derivatives and the lifting hold for tuples, orders and nestings of any size", "anchors": ["pytential/symbolic/primitives.py:NumReferenceDerivative", "pytential/symbolic/primitives.py:num_reference_derivative", "pytential/symbolic/primitives.py:for_each_expression", "pytential/symbolic/execution.py:map_num_reference_derivative"]}
{"id": "C97", "title": "Normals and area elements computed with multivectors mean what geometry says, in every dimension", "statement": "In an ambient space of any dimension, normal() of a hypersurface with linearly independent tangents is a vector (as_vector succeeds), of unit length, orthogonal to every tangent, and positively oriented with the tangents in their order; its dot product with any vector, times the area element, is the determinant of that vector and the tangents.  area_element() is the square root of the determinant of the first fundamental form, for any number of tangents in a space of any dimension: zero exactly where the tangents are dependent, the tangent's length for curves, the absolute value of the Jacobian determinant for volumes.  make_sym_surface_mv(name, ...) is the combination of the tangents with the variables name0, name1, ... as coefficients: it has no normal component, and every tangential vector is obtained from exactly one choice of coefficients.", "quantifier": "all ambient dimensions, all tangent vectors (normals: linearly independent ones), all coefficients", "why_tests_cant": "tests check normals of some curves and surfaces in two and three dimensions; orientation, orthogonality and the area formula must hold for every parametrization", "anchors": ["pytential/symbolic/primitives.py:make_sym_surface_mv", "pytential/symbolic/primitives.py:parametrization_derivative", "pytential/symbolic/primitives.py:pseudoscalar", "pytential/symbolic/primitives.py:area_element", "pytential/symbolic/primitives.py:normal"]}
{"id": "C98", "title": "The waveguide operator asks for continuous tangential fields of a mode", "statement": "For every list of interfaces, domain refractive indices and effective index, operator(unknown) of SecondKindInfZMuellerOperator has four equations per interface: for the electric and magnetic fields the densities represent in the adjoining domains (which satisfy Maxwell's equations there, with dependence exp(i ne z), lengths in units of the inverse vacuum wave number), they are the jumps of the tangential components of H and E, so that solutions of operator(u) = 0 are guided modes. The wave number in a domain of index n is the square root of n^2 - ne^2 with nonnegative imaginary part. Without contrast the equations are multiples of the unknowns. representation(domain, unknown) returns these fields.", "quantifier": "all lists of interfaces, complex refractive and effective indices, densities, layer potentials with the usual jump relations", "why_tests_cant": "no test uses this operator; that sixteen blocks with their signs and weights fit together to Maxwell's jump conditions must hold for all indices and densities", "anchors": ["pytential/symbolic/pde/maxwell/waveguide.py:SecondKindInfZMuellerOperator.__init__", "pytential/symbolic/pde/maxwell/waveguide.py:SecondKindInfZMuellerOperator.operator", "pytential/symbolic/pde/maxwell/waveguide.py:SecondKindInfZMuellerOperator.representation"]}
{"id": "C99", "title": "Programs and arrays that are kept for reuse are those the call asks for", "statement": "Helpers that keep what they generate (elementwise reductions, interleaving, cluster centers, radii, neighbor selection, cluster means and index pairs, cost model kernels, code containers of trees, refinement, target association and the FMM, integrals and norms) return, after any history of calls of any of them in one array context with any parameters, including calls that failed, exactly the program for the parameters of the present call, and raise exactly if a first call would. The nodes, expansion radii and centers that direct evaluation keeps with the collection are those of the descriptor and side asked for, after any history of evaluations in any array contexts; the arrays belong to the array context of the earliest successful request.", "quantifier": "all histories of calls (latest call included or not, failing ones included), reduction names, norms, dimensions, data types, tree parameters, discretizations, descriptors, sides, array contexts", "why_tests_cant": "a key that misses a parameter shows only for particular sequences of calls in one process", "anchors": ["pytential/symbolic/execution.py:EvaluationMapperBase._map_elementwise_reduction", "pytential/linalg/proxy.py:make_compute_cluster_centers_kernel_ex", "pytential/qbx/cost.py:QBXCostModel._fill_array_with_index_knl", "pytential/qbx/__init__.py:QBXLayerPotentialSource.exec_compute_potential_insn_direct", "pytential/linalg/utils.py:make_index_cluster_cartesian_product", "pytential/__init__.py:norm"]}
{"id": "C100", "title": "Printed programs and descriptors", "statement": "str() of a DOF descriptor tells its geometry, its granularity and its stage (no stage being stage 1) as long as geometry names have no slash and are not one of '?', 's', 't'; str() of the code of a bound expression shows every statement once, in the order of execution, so that each value is printed before it is used, followed by the result; the line of a layer potential tells its name, whether and where it is evaluated away from its source, its limit and its kernel; printing raises ValueError exactly if a layer potential is the average of both sides; the text of a node of an expression tells its type, reduction, axes, limit, the texts of its descriptors and the text of its operands, as long as descriptors are printed without brackets and dashes.", "quantifier": "all descriptors; all layer potential outputs; all compiled programs; all texts of kernels and expressions", "why_tests_cant": "Reading a program back from its text is a statement about all pairs of programs; tests compare a few strings at most.", "anchors": ["pytential/symbolic/dof_desc.py: DOFDescriptor.__str__", "pytential/symbolic/mappers.py: stringify_where, StringifyMapper", "pytential/symbolic/compiler.py: Assign.__str__, ComputePotential.__str__, Code.__str__"]}
