{
 "claims": [
  {
   "property": "C01",
   "status": "proved",
   "theorems": [
    "Verif.Compiler.C01_bound_eval",
    "Verif.Compiler.C01_untaken_branch_is_computed",
    "Verif.Compiler.C01_sound",
    "Verif.Compiler.C01_exact"
   ],
   "note": "for expressions after preprocessing; every sub-expression must evaluate without error (C01_untaken_branch_is_computed shows why: compiled conditionals are not lazy)"
  },
  {
   "property": "C02",
   "status": "partial",
   "theorems": [
    "Verif.Compiler.C02_rename_partial",
    "Verif.Compiler.C02_refuted"
   ],
   "note": "false in general: name capture by a CSE prefix (C02_refuted); proved when neither set of names clashes with generated names"
  },
  {
   "property": "C03",
   "status": "proved",
   "theorems": [
    "Verif.Compiler.C03_schedule_safe",
    "Verif.Compiler.C03_priority",
    "Verif.Compiler.C03_schedule"
   ],
   "note": ""
  },
  {
   "property": "C04",
   "status": "proved",
   "theorems": [
    "Verif.Compiler.C04_discards_safe",
    "Verif.Compiler.C04_execution_safe"
   ],
   "note": ""
  },
  {
   "property": "C05",
   "status": "partial",
   "theorems": [
    "Verif.Compiler.C05_missing_density_partial",
    "Verif.Compiler.C05_read_or_result_partial",
    "Verif.Compiler.C05_refuted"
   ],
   "note": "false for variables read only by the result expression (C05_refuted); proved for all variables occurring in layer potentials, and otherwise 'reported or occurs in the result'"
  },
  {
   "property": "C06",
   "status": "proved",
   "theorems": [
    "Verif.Compiler.C06_groups_once",
    "Verif.Compiler.C06_count"
   ],
   "note": "value side (each operator gets its own output) is part of C01"
  },
  {
   "property": "C07",
   "status": "partial",
   "theorems": [
    "Verif.Compiler.C07_call_twice_partial",
    "Verif.Compiler.C07_refuted",
    "Verif.Compiler.C07_eval_twice"
   ],
   "note": "false for eval(context) (C07_refuted: execute deletes inputs from the caller's dict); proved for __call__. C07_eval_twice says exactly what happens with one dictionary: the second call returns the same value if no variable was deleted and otherwise raises 'missing input' for a deleted one; no other value is ever returned"
  },
  {
   "property": "C08",
   "status": "partial",
   "theorems": [
    "Verif.Compiler.C08_crash",
    "Verif.Compiler.C08_crashes_partial",
    "Verif.Compiler.C08_same",
    "Verif.Compiler.C08_history_partial",
    "Verif.Compiler.C08_refuted"
   ],
   "note": "False for input-dependent EXPRESSION/DISCRETIZATION CSEs (C08_refuted); proved when cached CSEs are closed: C08_history_partial for calls that succeed, C08_crash and C08_crashes_partial for all histories, with calls that raise or are interrupted after any number of steps (caches keep what was stored; the conditions of conditionals must have values)."
  },
  {
   "property": "C09",
   "status": "proved",
   "theorems": [
    "Verif.DofDesc.C09_construct",
    "Verif.DofDesc.C09_copy_fields",
    "Verif.DofDesc.C09_copy_rejects",
    "Verif.DofDesc.C09_copy_from_descriptor",
    "Verif.DofDesc.C09_last_stage_wins"
   ],
   "note": ""
  },
  {
   "property": "C10",
   "status": "proved",
   "theorems": [
    "Verif.DofDesc.C10_as_dofdesc_idempotent",
    "Verif.DofDesc.C10_as_dofdesc_value",
    "Verif.DofDesc.C10_eq_hash",
    "Verif.DofDesc.C10_eq_fields"
   ],
   "note": ""
  },
  {
   "property": "C11",
   "status": "partial",
   "theorems": [
    "Verif.Bind.C11_exact",
    "Verif.Sym.C11_tagging",
    "Verif.Sym.C11_idempotent",
    "Verif.Sym.C11_concrete_partial",
    "Verif.Sym.C11_refuted",
    "Verif.Sym.C11_collapse_refuted"
   ],
   "note": "false for layer potentials/solves/interpolations placed at DEFAULT_SOURCE/DEFAULT_TARGET (C11_refuted: not replaced); interpolations whose ends become equal disappear, and make tagging fail exactly if applied to another interpolation (C11_exact, C11_collapse_refuted); everything else proved"
  },
  {
   "property": "C12",
   "status": "partial",
   "theorems": [
    "Verif.Sym.C12_exact",
    "Verif.Sym.C12_order",
    "Verif.Sym.C12_limits_partial",
    "Verif.Sym.C12_keep",
    "Verif.Sym.C12_refuted"
   ],
   "note": "C12_exact gives the exact outcome for every nesting: a potential is checked and expanded iff all potentials around it have its own source; the claim for all depths is therefore false (C12_refuted: potentials nested in a potential of another QBX source are never visited) and proved if nested potentials share their source. C12_order: the order of the sources does not matter. 'Self' is same geometry and same stage as in the code, so source stage None and target stage STAGE1 counts as off-surface."
  },
  {
   "property": "C13",
   "status": "partial",
   "theorems": [
    "Verif.Sym.C13_value",
    "Verif.Sym.C13_avg_partial",
    "Verif.Sym.C13_refuted"
   ],
   "note": "C13_value: values are preserved for every nesting; that no 'avg' remains is proved outside potentials of other sources (everywhere if nested potentials share their source) and false otherwise (C13_refuted)"
  },
  {
   "property": "C14",
   "status": "partial",
   "theorems": [
    "Verif.Bind.C14_characterization",
    "Verif.Bind.C14_bind_refuted",
    "Verif.Bind.C14_prepare",
    "Verif.Sym.C14_unlimited_partial",
    "Verif.Sym.C14_refuted"
   ],
   "note": "false (C14_refuted, C14_bind_refuted): the preprocessor ignores its geometry name; C14_characterization and C14_prepare say exactly what happens instead: limits of all potentials are dropped, side limits of any potential are refused; unaffected only potentials without limit"
  },
  {
   "property": "C15",
   "status": "partial",
   "theorems": [
    "Verif.Sym.C15_ready_partial",
    "Verif.Sym.C15_upsampled",
    "Verif.Sym.C15_idempotent",
    "Verif.Sym.C15_derivative",
    "Verif.Sym.C15_other",
    "Verif.Sym.C15_refuted"
   ],
   "note": "proved unless a potential is nested below one the preprocessor does not enter (C15_refuted); idempotence is proved without restriction"
  },
  {
   "property": "C16",
   "status": "partial",
   "theorems": [
    "Verif.Sym.C16_linear",
    "Verif.Sym.C16_rejects",
    "Verif.Sym.C16_accepts_partial",
    "Verif.Sym.C16_refuted",
    "Verif.Sym.C16_grad",
    "Verif.Sym.C16_laplace",
    "Verif.Sym.C16_dd_axis",
    "Verif.Sym.C16_accepts_all_partial"
   ],
   "note": "value correctness and rejection proved without restriction; acceptance fails for SpatialConstant summands (C16_refuted)"
  },
  {
   "property": "C17",
   "status": "partial",
   "theorems": [
    "Verif.Sym.C17_equality_partial",
    "Verif.Sym.C17_hash",
    "Verif.Sym.C17_refuted",
    "Verif.Sym.C17_exact",
    "Verif.Sym.C17_equivalence"
   ],
   "note": "false for limits -1/-2 (C17_refuted, hash(-1)==hash(-2) in CPython and __eq__ does not compare the limit); C17_exact: without hash collisions == is equality up to confusing these two limits; C17_equivalence: with any hash function it is an equivalence that never ignores anything but limits"
  },
  {
   "property": "C18",
   "status": "partial",
   "theorems": [
    "Verif.Coll.C18_construct_partial",
    "Verif.Coll.C18_mapping",
    "Verif.Coll.C18_refuted",
    "Verif.Coll.C18_defaults"
   ],
   "note": "false for a bare target set, a documented input form (C18_refuted: always AssertionError); proved for mappings, pairs and other single geometries"
  },
  {
   "property": "C19",
   "status": "proved",
   "theorems": [
    "Verif.Coll.C19_stable",
    "Verif.Coll.C19_none",
    "Verif.Coll.C19_other_requests",
    "Verif.Coll.C19_no_overwrite"
   ],
   "note": "refinement is an arbitrary oracle that may raise; all programs over a heap of collections"
  },
  {
   "property": "C20",
   "status": "proved",
   "theorems": [
    "Verif.Coll.C20_isolation",
    "Verif.Coll.C20_copy",
    "Verif.Coll.C20_merge",
    "Verif.Coll.C20_merge_coll",
    "Verif.Coll.C20_add_existing",
    "Verif.Coll.C20_add_type",
    "Verif.Coll.C20_add",
    "Verif.Coll.C20_store"
   ],
   "note": "heap model; caches of collections are Python dicts copied entry by entry"
  },
  {
   "property": "C21",
   "status": "partial",
   "theorems": [
    "Verif.Coll.C21_errors",
    "Verif.Coll.C21_chain_partial",
    "Verif.Coll.C21_refuted"
   ],
   "note": "false when the from-stage is unspecified (C21_refuted); proved for all other descriptors"
  },
  {
   "property": "C22",
   "status": "partial",
   "theorems": [
    "Verif.MatVec.C22_ranges",
    "Verif.MatVec.C22_roundtrip_partial",
    "Verif.MatVec.C22_flat_roundtrip",
    "Verif.MatVec.C22_matvec",
    "Verif.MatVec.C22_matvec_errors",
    "Verif.MatVec.C22_refuted",
    "Verif.MatVec.C22_flatten_iff",
    "Verif.MatVec.C22_roundtrip_iff"
   ],
   "note": "roundtrip fails for a 1-component object array, which comes back as the bare component (C22_refuted), and exactly for values that do not fit (C22_roundtrip_iff); everything else proved over any ring"
  },
  {
   "property": "C23",
   "status": "partial",
   "theorems": [
    "Verif.BMat.C23_layout_partial",
    "Verif.BMat.C23_partition",
    "Verif.BMat.C23_rejects",
    "Verif.BMat.C23_product",
    "Verif.BMat.C23_refuted"
   ],
   "note": "layout proved when every block row and block column holds at least one non-zero block; an all-zero one raises (C23_refuted)"
  },
  {
   "property": "C24",
   "status": "partial",
   "theorems": [
    "Verif.MatBuild.C24_accepts",
    "Verif.MatBuild.C24_reference_derivative",
    "Verif.MatBuild.C24_refuted_mixed",
    "Verif.MatBuild.C24_matrix_partial",
    "Verif.MatBuild.C24_linear_partial",
    "Verif.MatBuild.C24_rejects",
    "Verif.MatBuild.C24_rejects_general",
    "Verif.MatBuild.C24_refuted_power",
    "Verif.MatBuild.C24_refuted_quotient",
    "Verif.MatBuild.C24_refuted_dofarray",
    "Verif.MatBuild.C24_total"
   ],
   "note": "Visibly linear expressions (LinA): matrix built, evaluation succeeds, and they agree, without further assumptions (C24_total). In general entry-wise exactness (C24_matrix_partial) proved for expressions without powers or array quotients of the unknown, acceptance (C24_accepts) for all visibly linear expressions; false for powers, quotients by arrays, DOFArray factors (wrong matrix, C24_refuted_power/_quotient/_dofarray) and for coefficients adding a number to an array (refused, C24_refuted_mixed). Reference derivatives and node coordinates only occur in coefficients: C24_reference_derivative"
  },
  {
   "property": "C25",
   "status": "proved",
   "theorems": [
    "Verif.IndexList.C25_partition",
    "Verif.IndexList.C25_bounds",
    "Verif.IndexList.C25_take",
    "Verif.IndexList.C25_roundtrip",
    "Verif.IndexList.C25_explicit"
   ],
   "note": "WF is what the class documents for starts (first start 0, non-decreasing, last = number of indices)"
  },
  {
   "property": "C26",
   "status": "proved",
   "theorems": [
    "Verif.IndexList.C26_disjoint",
    "Verif.IndexList.C26_rowmajor",
    "Verif.IndexList.C26_blocks",
    "Verif.IndexList.C26_mismatch"
   ],
   "note": "stores of the parallel kernel executed in any order"
  },
  {
   "property": "C27",
   "status": "proved",
   "theorems": [
    "Verif.Gmres.C27_success",
    "Verif.Gmres.C27_residuals",
    "Verif.Gmres.C27_breakdown"
   ],
   "note": "exact arithmetic in any module; also with NaN after breakdown (C27_breakdown)"
  },
  {
   "property": "C28",
   "status": "proved",
   "theorems": [
    "Verif.Gmres.C28_bound",
    "Verif.Gmres.C28_honest",
    "Verif.Gmres.C28_no_index",
    "Verif.Gmres.C28_restart_zero",
    "Verif.Gmres.C28_reasons",
    "Verif.Gmres.C28_operator_count",
    "Verif.Gmres.C28_reasons_exact",
    "Verif.Gmres.C28_error_reasons"
   ],
   "note": "arbitrary operations without laws, so floating point included; restart=0 raises IndexError (C28_restart_zero)"
  },
  {
   "property": "C29",
   "status": "proved",
   "theorems": [
    "Verif.Muller.C29_returns",
    "Verif.Muller.C29_raises",
    "Verif.Muller.C29_runtime",
    "Verif.Muller.C29_no_nan",
    "Verif.Muller.C29_deflate",
    "Verif.Muller.C29_deflate_error",
    "Verif.Muller.C29_parabola",
    "Verif.Muller.C29_closest",
    "Verif.Muller.C29_visits",
    "Verif.Muller.C29_sequence",
    "Verif.Muller.C29_interpolates"
   ],
   "note": "arbitrary operations; NaN propagation as hypothesis NanLaws; C29_parabola additionally proves the step formula"
  },
  {
   "property": "C30",
   "status": "proved",
   "theorems": [
    "Verif.AreaQuery.C30_geometry",
    "Verif.TargetAssoc.C30_assigned"
   ],
   "note": "kernel level for arbitrary leaf enumerations, and geometric level (AreaQuery.lean) where the space invader and area queries are computed from positions and leaf boxes"
  },
  {
   "property": "C31",
   "status": "partial",
   "theorems": [
    "Verif.AreaQuery.C31_geometry",
    "Verif.AreaQuery.C31_geometry_failed_any",
    "Verif.AreaQuery.C31_geometry_failed_partial",
    "Verif.AreaQuery.C31_refuted",
    "Verif.TargetAssoc.C31_unassigned",
    "Verif.TargetAssoc.C31_succeeds",
    "Verif.TargetAssoc.C31_failed_any",
    "Verif.TargetAssoc.C31_failed_partial",
    "Verif.TargetAssoc.C31_never_silent"
   ],
   "note": "Success/unassigned/never-silent parts proved in full. The failure-report part holds only if the tree permutation is an involution on sources: mark_elements_for_refinement indexes tree.sources with user_source_ids (target_assoc.py:774); C31_refuted exhibits a tree for which the call dies on its assertion instead of raising QBXTargetAssociationFailedError. C31_geometry_failed_any says what holds for every tree: the call dies on the assertion or raises with exact target flags and at least one, and only correct, refine flags (some may be missing)."
  },
  {
   "property": "C32",
   "status": "proved",
   "theorems": [
    "Verif.Refine.C32_stage1",
    "Verif.Refine.C32_stage2",
    "Verif.Refine.C32_no_mismatch"
   ],
   "note": "loops with at most maxiter rounds, chain of flagged refinements, criteria on return; refiner state matches (no_mismatch). The convergence claims are for the criteria sets; the disk/quadrature checks are characterised in C34"
  },
  {
   "property": "C33",
   "status": "proved",
   "theorems": [
    "Verif.Refine.C33_none",
    "Verif.Refine.C33_error_stage1",
    "Verif.Refine.C33_error_stage2",
    "Verif.Refine.C33_maxiter_zero",
    "Verif.Refine.C33_refine_no_error"
   ],
   "note": "also records that maxiter=0 turns ERROR_ON_REFINEMENT into a warning (C33_maxiter_zero)"
  },
  {
   "property": "C34",
   "status": "proved",
   "theorems": [
    "Verif.Checks.C34_disks",
    "Verif.Checks.C34_quad",
    "Verif.Checks.C34_threshold"
   ],
   "note": "kernels modelled per box with unordered writes and early exit"
  },
  {
   "property": "C35",
   "status": "proved",
   "theorems": [
    "Verif.QTree.C35_source_lookup",
    "Verif.QTree.C35_center_lookup",
    "Verif.QTree.C35_slices",
    "Verif.QTree.C35_two_centers",
    "Verif.QTree.C35_sides",
    "Verif.QTree.C35_box_lists",
    "Verif.QTree.C35_starts_iff"
   ],
   "note": "host tables and the device binary search"
  },
  {
   "property": "C36",
   "status": "proved",
   "theorems": [
    "Verif.Geometry.C36_starts",
    "Verif.Geometry.C36_targets",
    "Verif.Geometry.C36_sides",
    "Verif.Geometry.C36_outputs",
    "Verif.Geometry.C36_failed"
   ],
   "note": "target list, side preferences, dictionary of (target, side) pairs and cutting of the outputs"
  },
  {
   "property": "C37",
   "status": "proved",
   "theorems": [
    "Verif.Geometry.C37_center_lists",
    "Verif.Geometry.C37_global_centers",
    "Verif.Geometry.C37_non_qbx"
   ],
   "note": "scan, scatter and bucket sort under arbitrary store orders; pyopencl's key-value sort and boxtree's filter by their specification"
  },
  {
   "property": "C38",
   "status": "proved",
   "theorems": [
    "Verif.FMM.C38_fmm"
   ],
   "note": "point FMM passes of boxtree/sumpy represented by their recursions; QBX stages (p2qbxl, m2qbxl with per-level tables, l2qbxl, qbxl2p) and reordering modelled in detail, geometry data computed as in C37/C54"
  },
  {
   "property": "C39",
   "status": "proved",
   "theorems": [
    "Verif.Cost.C39_form",
    "Verif.Cost.C39_l2qbxl",
    "Verif.Cost.C39_eval",
    "Verif.Cost.C39_target_specific",
    "Verif.Cost.C39_m2qbxl"
   ],
   "note": "The box-centric and the center-centric cost model agree for every stage, target box, tree, list 3 and cost table (commutative semiring arithmetic, any store order); totals over stages not included."
  },
  {
   "property": "C40",
   "status": "proved",
   "theorems": [
    "Verif.Direct.C40_direct_values",
    "Verif.Direct.C40_direct_errors"
   ],
   "note": "Values, order of results and both error cases of direct evaluation for all output lists, associations and store orders; kernel values are parameters."
  },
  {
   "property": "C41",
   "status": "proved",
   "theorems": [
    "Verif.Dofs.C41_values",
    "Verif.Dofs.C41_accepts"
   ],
   "note": "interleave/flatten"
  },
  {
   "property": "C42",
   "status": "proved",
   "theorems": [
    "Verif.Dofs.C42_node_extremum",
    "Verif.Dofs.C42_element_extremum",
    "Verif.Dofs.C42_sum",
    "Verif.Dofs.C42_center",
    "Verif.Dofs.C42_idempotent"
   ],
   "note": "node/element reductions over groups"
  },
  {
   "property": "C43",
   "status": "proved",
   "theorems": [
    "Verif.Surface.C43_inverse",
    "Verif.Surface.C43_eigenvalues",
    "Verif.Surface.C43_real",
    "Verif.Surface.C43_sym_eigenvalues",
    "Verif.Surface.C43_eigenvalue_shapes"
   ],
   "note": "Exact real arithmetic (no floating point). Inverse for 1x1/2x2 symmetric-use, eigenvalue formulas vs. characteristic polynomial (IsEigenvalue is defined with an explicit nonzero eigenvector), error cases for other shapes."
  },
  {
   "property": "C44",
   "status": "partial",
   "theorems": [
    "Verif.Curvature.C44_from_derivatives_partial",
    "Verif.Surface.C44_shape_operator",
    "Verif.Surface.C44_general_formula",
    "Verif.Surface.C44_max_curvature_partial",
    "Verif.Surface.C44_refuted",
    "Verif.Surface.C44_exact",
    "Verif.Surface.C44_underestimate_refuted"
   ],
   "note": "The code feeds the (generally non-symmetric) matrix of the shape operator to the symmetric eigenvalue formula, so the full property is FALSE of the code: C44_refuted gives a regular parametrization with principal curvatures +-1 for which 2 is returned, C44_underestimate_refuted one for which half of the largest is returned. C44_exact says exactly when the value is right (entry (0,1) of the matrix zero or equal to entry (1,0)) and when it errs on the safe side. C44_general_formula proves the property for the general eigenvalue formula also present in the code base."
  },
  {
   "property": "C45",
   "status": "proved",
   "theorems": [
    "Verif.Frames.C45_orthonormal_basis",
    "Verif.Frames.C45_tangential_roundtrip",
    "Verif.Frames.C45_orthogonal_projection",
    "Verif.Frames.C45_xyz_roundtrip",
    "Verif.Frames.C45_idempotent"
   ],
   "note": "Any ambient dimension, any number of linearly independent tangent columns, real arithmetic."
  },
  {
   "property": "C46",
   "status": "proved",
   "theorems": [
    "Verif.Proxy.C46_init",
    "Verif.Proxy.C46_reference",
    "Verif.Proxy.C46_equispaced",
    "Verif.Proxy.C46_layout",
    "Verif.Proxy.C46_contains",
    "Verif.Proxy.C46_contains_qbx",
    "Verif.Proxy.C46_center"
   ],
   "note": "Arithmetic is over the reals (no rounding); radius_factor >= 1 is a hypothesis of the containment theorem; clusters are nonempty; the 3D reference sample from pytools is a parameter with unit-norm points."
  },
  {
   "property": "C47",
   "status": "proved",
   "theorems": [
    "Verif.Neighbors.C47_exact",
    "Verif.Neighbors.C47_mismatch",
    "Verif.Neighbors.C47_after_proxy"
   ],
   "note": "boxtree's area query and the tree are contracts (TreeOK/QueryOK): the ball returned for radius r contains every point within r and only points within r+eps."
  },
  {
   "property": "C48",
   "status": "partial",
   "theorems": [
    "Verif.Partition.C48_tree",
    "Verif.Partition.C48_ranges",
    "Verif.Partition.C48_balanced",
    "Verif.Partition.C48_rejects_partial",
    "Verif.Partition.C48_curve_check_refuted",
    "Verif.Partition.C48_size_bound_refuted"
   ],
   "note": "Finding: the curve check accepts surfaces in 3D although the message says only curves are supported (C48_curve_check_refuted); finding: for tree_kind=None max_particles_in_box is not a bound on cluster size (C48_size_bound_refuted)."
  },
  {
   "property": "C49",
   "status": "proved",
   "theorems": [
    "Verif.Skeleton.C49_consistent",
    "Verif.Skeleton.C49_subset",
    "Verif.Skeleton.C49_single",
    "Verif.Skeleton.C49_id_args",
    "Verif.Skeleton.C49_success",
    "Verif.Skeleton.C49_recovers",
    "Verif.Skeleton.C49_truncation_loses"
   ],
   "note": "scipy's interpolative decomposition is a contract (IDOK/IDTotal). Finding: truncating the interpolation rows to the common rank loses the requested accuracy (C49_truncation_loses)."
  },
  {
   "property": "C50",
   "status": "proved",
   "theorems": [
    "Verif.SortTogether.C50_one_stable_permutation",
    "Verif.SortTogether.C50_strict",
    "Verif.SortTogether.C50_empty",
    "Verif.SortTogether.C50_pairs_stay_together",
    "Verif.SortTogether.C50_grouping_independent_of_listing",
    "Verif.SortTogether.C50_refuted_for_colliding_keys"
   ],
   "note": "One stable permutation, ValueError on unequal lengths, pairs stay together; grouping independent of listing if the key tells rows apart (refuted for colliding str keys); empty arrays give no arrays (C50_empty)."
  },
  {
   "property": "C51",
   "status": "partial",
   "theorems": [
    "Verif.Copy.C51_copy_identity",
    "Verif.Copy.C51_copy_overrides",
    "Verif.Copy.C51_conflicting_orders",
    "Verif.Copy.C51_defaults",
    "Verif.Copy.C51_constructor",
    "Verif.Copy.C51_unregularized_partial",
    "Verif.Copy.C51_refuted_unregularized",
    "Verif.Copy.C51_refuted_falsy_override"
   ],
   "note": "QBX sources: identity, overrides, TypeError, constructor. Unregularized sources: false (expansion factory dropped, FMM cannot be switched off), proved what holds."
  },
  {
   "property": "C52",
   "status": "partial",
   "theorems": [
    "Verif.Sym.C52_stage_partial",
    "Verif.Sym.C52_refuted"
   ],
   "note": "false (C52_refuted): placing an unplaced descriptor on a default descriptor overwrites its stage; granularity and explicitly placed descriptors proved"
  },
  {
   "property": "C53",
   "status": "proved",
   "theorems": [
    "Verif.Gmres.C53_never_nonmonotonic",
    "Verif.Gmres.C53_decreasing"
   ],
   "note": "NormLaws: scaling normalizes, Bessel inequality"
  },
  {
   "property": "C54",
   "status": "proved",
   "theorems": [
    "Verif.Geometry.C54_center_to_target_box"
   ],
   "note": "boxes' own target ranges partition the targets"
  },
  {
   "property": "C55",
   "status": "proved",
   "theorems": [
    "Verif.Frames.C55_normal_2d",
    "Verif.Frames.C55_normal_3d",
    "Verif.Frames.C55_cross",
    "Verif.Frames.C55_expansion_centers"
   ],
   "note": "2D and 3D normals via the pseudoscalar wedge product; real arithmetic."
  },
  {
   "property": "C56",
   "status": "proved",
   "theorems": [
    "Verif.Curvature.C56_vertex_order",
    "Verif.Surface.C56_hypercube_stretch",
    "Verif.Surface.C56_simplex_stretch",
    "Verif.Surface.C56_rotation_invariant",
    "Verif.Surface.C56_rotation_invariant_simplex",
    "Verif.Surface.C56_moved"
   ],
   "note": "Exact real arithmetic; IsMaxStretch spells out 'twice the largest stretch'."
  },
  {
   "property": "C57",
   "status": "partial",
   "theorems": [
    "Verif.ClusterMat.C57_entries_partial",
    "Verif.ClusterMat.C57_blocks_partial",
    "Verif.ClusterMat.C57_accepts",
    "Verif.ClusterMat.C57_no_composition",
    "Verif.ClusterMat.C57_reference_derivative",
    "Verif.ClusterMat.C57_refuted",
    "Verif.ClusterMat.C57_refuted_vector"
   ],
   "note": "Entries and blocks proved in the fragment of C24; acceptance of linear combinations proved. Refusal is false: constant and quadratic densities are accepted (C57_refuted), and products with nodal arrays, which the full builder handles, die on a missing attribute (C57_refuted_vector)."
  },
  {
   "property": "C58",
   "status": "partial",
   "theorems": [
    "Verif.Sym.C58_terms",
    "Verif.Sym.C58_product",
    "Verif.Sym.C58_refuted_terms",
    "Verif.Sym.C58_kernels_partial",
    "Verif.Sym.C58_kernels_identity",
    "Verif.Sym.C58_places_partial",
    "Verif.Sym.C58_proxy_partial",
    "Verif.Sym.C58_refuted_kernels",
    "Verif.Sym.C58_refuted_places"
   ],
   "note": "C58_terms/C58_product: terms kept, several layer potentials refused. Claim false in parts: an expression without layer potential that is not a sum survives (C58_refuted_terms); layer potentials nested in an untransformed one keep transformed kernels (C58_refuted_kernels); quantities inside densities are put on the target, and explicit interpolation descriptors stay (C58_refuted_places). C58_kernels_partial/C58_places_partial/C58_proxy_partial prove the rest when nothing is nested/interpolated/solved for. pymbolic's flattened_sum/flattened_product modelled from their documented behaviour, order of terms not modelled."
  },
  {
   "property": "C59",
   "status": "proved",
   "theorems": [
    "Verif.FMMLib.C59_digest",
    "Verif.FMMLib.C59_ts_no_dipole_gradient",
    "Verif.FMMLib.C59_fmmlib"
   ],
   "note": ""
  },
  {
   "property": "C60",
   "status": "partial",
   "theorems": [
    "Verif.PDE.C60_dirichlet_partial",
    "Verif.PDE.C60_dirichlet_solution_partial",
    "Verif.PDE.C60_neumann_partial",
    "Verif.PDE.C60_neumann_built",
    "Verif.PDE.C60_neumann_solution_partial",
    "Verif.PDE.C60_dirichlet_weighting",
    "Verif.PDE.C60_neumann_weighting_partial",
    "Verif.PDE.C60_dirichlet_field",
    "Verif.PDE.C60_kwargs_override",
    "Verif.PDE.C60_dirichlet_bindable",
    "Verif.PDE.C60_neumann_bindable",
    "Verif.PDE.C60_dirichlet_field_bindable",
    "Verif.PDE.C60_neumann_field_bindable_partial",
    "Verif.PDE.C60_defaults",
    "Verif.PDE.C60_dirichlet_kwargs_refuted",
    "Verif.PDE.C60_dirichlet_kwargs_missing_refuted",
    "Verif.PDE.C60_neumann_weight_refuted",
    "Verif.PDE.C60_neumann_target_refuted",
    "Verif.PDE.C60_neumann_yukawa_refuted",
    "Verif.PDE.C60_kernel_arguments"
   ],
   "note": "Partial: false of the code in four places, each with a refutation theorem: Dirichlet operator ignores keyword arguments; improved Neumann operator with weighting misses a division by sqrt(w); Neumann representation at an explicit target uses an illegal potential; default Neumann operator of a Yukawa kernel always raises. Jump relations and Calderon identity are hypotheses; BiharmonicClampedPlateOperator is the subject of C72."
  },
  {
   "property": "C61",
   "status": "proved",
   "theorems": [
    "Verif.Stokes.C61_stokeslet",
    "Verif.Stokes.C61_stresslet",
    "Verif.Stokes.C61_stokeslet_stress",
    "Verif.Stokes.C61_stokeslet_pressure",
    "Verif.Stokes.C61_stresslet_pressure",
    "Verif.Stokes.C61_stresslet_stress",
    "Verif.Stokes.C61_dimension",
    "Verif.Stokes.C61_hebeker",
    "Verif.Stokes.C61_hebeker_solution",
    "Verif.Stokes.C61_hsiao_kress",
    "Verif.Stokes.C61_hsiao_kress_velocity",
    "Verif.Stokes.C61_hsiao_kress_parameters",
    "Verif.Stokes.C61_hsiao_kress_meanless",
    "Verif.Stokes.C61_hsiao_kress_solution"
   ],
   "note": "Jump relation and symmetry of the kernels are hypotheses; building and evaluating the expressions are identified (C01)."
  },
  {
   "property": "C62",
   "status": "partial",
   "theorems": [
    "Verif.Beltrami.C62_operator_partial",
    "Verif.Beltrami.C62_solution_partial",
    "Verif.Beltrami.C62_laplace",
    "Verif.Beltrami.C62_laplace_solution",
    "Verif.Beltrami.C62_constructed",
    "Verif.Beltrami.C62_rejects",
    "Verif.Beltrami.C62_kwargs_refuted"
   ],
   "note": "False for keyword arguments: operator(sigma, **kwargs) with any keyword raises ValueError because the keywords are also handed to the argument-free Laplace kernel (C62_kwargs_refuted); everything else proved. Left and right preconditioned Laplace-Beltrami operators give solutions whose means have opposite signs when b does not have mean zero (C62_laplace_solution)."
  },
  {
   "property": "C63",
   "status": "partial",
   "theorems": [
    "Verif.SrcExec.C63_point_source",
    "Verif.SrcExec.C63_unregularized_direct",
    "Verif.SrcExec.C63_unknown_geometry",
    "Verif.SrcExec.C63_unregularized_fmm_partial",
    "Verif.SrcExec.C63_fmm_targets_once",
    "Verif.SrcExec.C63_fmm_one_sided_limit",
    "Verif.SrcExec.C63_fmm_surface_target_refuted",
    "Verif.SrcExec.C63_fmm_kernel",
    "Verif.SrcExec.C63_dispatch"
   ],
   "note": "False for FMM evaluation at layer potential sources: the FMM path looks targets up with get_geometry (ignoring the stage), and layer potential sources have no nodes(), so the evaluation raises AttributeError (C63_fmm_surface_target_refuted), while direct evaluation of the same expression works. Everything else proved."
  },
  {
   "property": "C64",
   "status": "partial",
   "theorems": [
    "Verif.Dtype.C64_direct_partial",
    "Verif.Dtype.C64_direct_complex_density_refuted",
    "Verif.Dtype.C64_entry_dtype",
    "Verif.Dtype.C64_fmm_partial",
    "Verif.Dtype.C64_fmm_first_density_refuted",
    "Verif.Dtype.C64_p2p_kernels",
    "Verif.Dtype.C64_p2p_history_partial",
    "Verif.Dtype.C64_p2p_history_refuted"
   ],
   "note": "False in three corners, each with a witness: direct evaluation chooses the type from the target kernels alone (complex densities with real kernels); FMM evaluation looks at the first density only; get_p2p is memoized in the array context with the kernels as key but captures the precision of the first source. Proved with those corners excluded by explicit hypotheses; C64_entry_dtype and C64_p2p_kernels hold without restriction."
  },
  {
   "property": "C65",
   "status": "partial",
   "theorems": [
    "Verif.Norms.C65_context",
    "Verif.Norms.C65_context_disagree",
    "Verif.Norms.C65_integral",
    "Verif.Norms.C65_integral_number",
    "Verif.Norms.C65_integral_linear",
    "Verif.Norms.C65_mean",
    "Verif.Norms.C65_mean_bounds",
    "Verif.Norms.C65_norm2",
    "Verif.Norms.C65_norm2_triangle",
    "Verif.Norms.C65_norm2_scale",
    "Verif.Norms.C65_norm2_definite",
    "Verif.Norms.C65_norm_inf_partial",
    "Verif.Norms.C65_norm_inf_laws",
    "Verif.Norms.C65_order",
    "Verif.Norms.C65_multivector",
    "Verif.Norms.C65_inf_multivector_refuted",
    "Verif.Norms.C65_nan_order"
   ],
   "note": "False for the maximum norm of a multivector that lacks a component: the component becomes the number 0, on which the node maximum fails an assertion (C65_inf_multivector_refuted), while the 2-norm works. Everything else proved. C65_nan_order records that NaN in a vector is noticed or not depending on the order of components."
  },
  {
   "property": "C66",
   "status": "partial",
   "theorems": [
    "Verif.Maxwell.C66_plane_wave_medium_refuted",
    "Verif.Maxwell.C66_cross",
    "Verif.Maxwell.C66_curl",
    "Verif.Maxwell.C66_div",
    "Verif.Maxwell.C66_point_source",
    "Verif.Maxwell.C66_plane_wave_partial",
    "Verif.Maxwell.C66_plane_wave_induction",
    "Verif.Maxwell.C66_pec_current",
    "Verif.Maxwell.C66_pec_current_physical",
    "Verif.Maxwell.C66_pec_charge",
    "Verif.Maxwell.C66_pec_charge_physical",
    "Verif.Maxwell.C66_pec_field"
   ],
   "note": "False for plane waves in media with epsilon or mu other than 1: the second half is B = sqrt(mu*epsilon) n x E and not H, and omega is used as the wave number (C66_plane_wave_medium_refuted); what does hold there is C66_plane_wave_induction. Everything else proved."
  },
  {
   "property": "C67",
   "status": "partial",
   "theorems": [
    "Verif.Maxwell.C67_field",
    "Verif.Maxwell.C67_operator",
    "Verif.Maxwell.C67_solution",
    "Verif.Maxwell.C67_two_domains",
    "Verif.Maxwell.C67_representation_partial",
    "Verif.Maxwell.C67_representation_index",
    "Verif.Maxwell.C67_representation_refuted"
   ],
   "note": "False for representation in media where epsilon, mu and sqrt(epsilon*mu) are not all equal: it weights the single layers with 1j*k*eps and -1j*k*mu where operator uses 1j*omega*mu*eps (C67_representation_refuted). Everything else proved. Solutions represent the negative of the scattered and transmitted fields (visible in C67_solution)."
  },
  {
   "property": "C68",
   "status": "proved",
   "theorems": [
    "Verif.Cost.C68_needs",
    "Verif.Cost.C68_total",
    "Verif.Cost.C68_box",
    "Verif.Cost.C68_stages",
    "Verif.Cost.C68_calibration",
    "Verif.Cost.C68_unit",
    "Verif.Cost.C68_counts",
    "Verif.Cost.C68_models",
    "Verif.Cost.C68_metadata",
    "Verif.Cost.C68_coefficients"
   ],
   "note": ""
  },
  {
   "property": "C69",
   "status": "partial",
   "theorems": [
    "Verif.CostBound.C69_dispatch",
    "Verif.CostBound.C69_context",
    "Verif.CostBound.C69_cost_partial",
    "Verif.CostBound.C69_cost_empty_refuted",
    "Verif.CostBound.C69_estimate",
    "Verif.CostBound.C69_lookup_partial",
    "Verif.CostBound.C69_lookup_refuted",
    "Verif.CostBound.C69_calibration_refuted",
    "Verif.CostBound.C69_cost_errors"
   ],
   "note": "False of the code: cost_per_stage and cost_per_box return empty dictionaries for every expression (C69_cost_empty_refuted), so calibration from them always fails (C69_calibration_refuted), and parameters are stored by source kernels but looked up by target kernels (C69_lookup_refuted). Proved: when the functions succeed, what calibration computes, and when parameters apply."
  },
  {
   "property": "C70",
   "status": "partial",
   "theorems": [
    "Verif.SkelError.C70_bound",
    "Verif.SkelError.C70_skeleton_nodup",
    "Verif.SkelError.C70_cluster_partial",
    "Verif.SkelError.C70_total",
    "Verif.SkelError.C70_decompose",
    "Verif.SkelError.C70_exact",
    "Verif.SkelError.C70_relative",
    "Verif.SkelError.C70_of_skeletonize",
    "Verif.SkelError.C70_order_refuted"
   ],
   "note": "Partial because the order of the result is the reverse of the documented one (C70_order_refuted): target errors come first. Everything else is proved in full."
  },
  {
   "property": "C71",
   "status": "partial",
   "theorems": [
    "Verif.SkelWeights.C71_flags",
    "Verif.SkelWeights.C71_domains",
    "Verif.SkelWeights.C71_make",
    "Verif.SkelWeights.C71_calls",
    "Verif.SkelWeights.C71_calls_succeed",
    "Verif.SkelWeights.C71_mean",
    "Verif.SkelWeights.C71_mean_bounds",
    "Verif.SkelWeights.C71_weighted",
    "Verif.SkelWeights.C71_finite_partial",
    "Verif.SkelWeights.C71_empty_refuted",
    "Verif.SkelWeights.C71_target_proxy",
    "Verif.SkelWeights.C71_blocks",
    "Verif.SkelWeights.C71_geometry_partial",
    "Verif.SkelWeights.C71_geometry_refuted"
   ],
   "note": "False of the code in two places: the weight of a cluster without neighbors is 0/0, so that its proxy interactions become NaN and an assertion fails (C71_empty_refuted); and proxies and neighbors of target clusters are found among the points of the source domain even if the target is another geometry (C71_geometry_refuted). Everything else is proved."
  },
  {
   "property": "C72",
   "status": "partial",
   "theorems": [
    "Verif.PDE.C72_plate_init",
    "Verif.PDE.C72_plate_partial",
    "Verif.PDE.C72_plate_density",
    "Verif.PDE.C72_plate_dofdesc_refuted",
    "Verif.PDE.C72_cahn_hilliard_partial",
    "Verif.PDE.C72_cahn_hilliard_refuted",
    "Verif.PDE.C72_cahn_hilliard_fails"
   ],
   "note": "False of the code in two places: the representation of the clamped plate uses the normal of the default discretization instead of that of the given source (C72_plate_dofdesc_refuted; proved for the default dofdesc); the potentials of Cahn-Hilliard are scaled by 2i/pi but the jump terms are not, so that the operator is the trace on neither side (C72_cahn_hilliard_refuted; the exact discrepancy is proved in C72_cahn_hilliard_partial)."
  },
  {
   "property": "C73",
   "status": "proved",
   "theorems": [
    "Verif.Curvature.C73_available",
    "Verif.Curvature.C73_frenet",
    "Verif.Curvature.C73_reparam_2d",
    "Verif.Curvature.C73_motions_2d",
    "Verif.Curvature.C73_circle",
    "Verif.Curvature.C73_principal",
    "Verif.Curvature.C73_mean_of_normal",
    "Verif.Curvature.C73_reparam_3d",
    "Verif.Curvature.C73_sphere",
    "Verif.Curvature.C73_cylinder",
    "Verif.Curvature.C73_surface",
    "Verif.Curvature.C73_curve",
    "Verif.Curvature.C73_scale_invariant"
   ],
   "note": ""
  },
  {
   "property": "C74",
   "status": "proved",
   "theorems": [
    "Verif.Radii.C74_shapes",
    "Verif.Radii.C74_radii",
    "Verif.Radii.C74_centers",
    "Verif.Radii.C74_mesh_width",
    "Verif.Radii.C74_segment",
    "Verif.Radii.C74_center_descriptor"
   ],
   "note": ""
  },
  {
   "property": "C75",
   "status": "proved",
   "theorems": [
    "Verif.Vdot.C75_vdot",
    "Verif.Vdot.C75_refused",
    "Verif.Vdot.C75_context",
    "Verif.Vdot.C75_shapes",
    "Verif.Vdot.C75_solve",
    "Verif.Vdot.C75_defaults"
   ],
   "note": ""
  },
  {
   "property": "C76",
   "status": "partial",
   "theorems": [
    "Verif.Bind.C76_collapse",
    "Verif.Bind.C76_cyclic",
    "Verif.Bind.C76_exact",
    "Verif.Bind.C76_schedule_any",
    "Verif.Bind.C76_flatten",
    "Verif.Bind.C76_general",
    "Verif.Bind.C76_nested",
    "Verif.Bind.C76_refused",
    "Verif.Bind.C76_all",
    "Verif.Bind.C76_binder",
    "Verif.Bind.C76_bind_partial",
    "Verif.Bind.C76_total_partial",
    "Verif.Bind.C76_schedule",
    "Verif.Bind.C76_limits"
   ],
   "note": "Partial: 'avg' only on QBX sources and not inside potentials of other sources, no limits if the collection has an unregularized source, and no variable named like a compiler temporary (the general claim is refuted in C02 and C12-C15); interpolations whose ends become equal disappear (C76_collapse) or make bind fail (C76_cyclic, C11_exact); all nestings of potentials are covered by C76_general, C76_nested and C76_refused, the flattening at the start of _prepare_expr by C76_flatten and C95, all steps of _prepare_expr by C76_all (DerivativeBinder on expressions without unbound derivatives, where it can only merge products; C76_binder: it does nothing unless an interpolation collapses)."
  },
  {
   "property": "C77",
   "status": "partial",
   "theorems": [
    "Verif.RefineGeom.C77_refined_refuted",
    "Verif.Paths.C77_strengths",
    "Verif.Paths.C77_association",
    "Verif.Paths.C77_association_succeeds",
    "Verif.Paths.C77_fmm_values",
    "Verif.Paths.C77_direct_values",
    "Verif.Paths.C77_direct_refuses",
    "Verif.Paths.C77_paths_agree_partial",
    "Verif.Paths.C77_own_center",
    "Verif.Paths.C77_side_far_refuted",
    "Verif.Paths.C77_tie_refuted",
    "Verif.Paths.C77_self_refuted"
   ],
   "note": "Partial: the two paths agree wherever both return, provided no two centers of one side are equally good (ties are decided by the tree) and, on the source itself, no node lies inside a disk of another center (refinement ensures this with expansion-disturbance tolerance 0 only, C77_refined_refuted); the paths do not refuse the same requests (side +-1 with a target away from the surface: RuntimeError in the direct path, plain quadrature with the FMM). Each restriction has a refutation."
  },
  {
   "property": "C78",
   "status": "partial",
   "theorems": [
    "Verif.LayerOps.C78_arguments",
    "Verif.LayerOps.C78_places",
    "Verif.LayerOps.C78_single",
    "Verif.LayerOps.C78_double_partial",
    "Verif.LayerOps.C78_dsource_partial",
    "Verif.LayerOps.C78_normal_derivative",
    "Verif.LayerOps.C78_second_derivative",
    "Verif.LayerOps.C78_Sp",
    "Verif.LayerOps.C78_Dp_partial",
    "Verif.LayerOps.C78_tangential",
    "Verif.LayerOps.C78_tangential_surface_zero",
    "Verif.LayerOps.C78_vector",
    "Verif.LayerOps.C78_refuted",
    "Verif.PDE.C78_normal_derivatives"
   ],
   "note": "Partial: D, Dp and int_g_dsource of a kernel which already has a direction vector named dsource_vec (or a keyword of this name) overwrite it (refuted). tangential_derivative is a derivative on curves only: on surfaces in space it is identically zero (proved)."
  },
  {
   "property": "C79",
   "status": "partial",
   "theorems": [
    "Verif.QBXSetup.C79_sumpy_partial",
    "Verif.QBXSetup.C79_sumpy_standard",
    "Verif.QBXSetup.C79_invariant_refuted",
    "Verif.QBXSetup.C79_backend",
    "Verif.QBXSetup.C79_one_expansion",
    "Verif.QBXSetup.C79_fmmlib",
    "Verif.QBXSetup.C79_fmmlib_parameters",
    "Verif.QBXSetup.C79_order_query",
    "Verif.QBXSetup.C79_on_surface",
    "Verif.QBXSetup.C79_off_surface",
    "Verif.QBXSetup.C79_batch_partial",
    "Verif.QBXSetup.C79_batch_refuted"
   ],
   "note": "Partial: with the sumpy back end kernels that are not translation invariant fail with UnboundLocalError (refuted); on the source itself the expansion depends on whether some kernel of the batched statement has a target derivative (refuted)."
  },
  {
   "property": "C80",
   "status": "partial",
   "theorems": [
    "Verif.Gmres.C80_stuck",
    "Verif.Gmres.C80_unstuck",
    "Verif.Gmres.C80_exact",
    "Verif.Gmres.C80_minimal",
    "Verif.Gmres.C80_strict",
    "Verif.Gmres.C80_rate",
    "Verif.Gmres.C80_converges",
    "Verif.Gmres.C80_finite_partial",
    "Verif.Gmres.C80_defaults_partial",
    "Verif.Gmres.C80_breakdown",
    "Verif.Gmres.C80_refuted"
   ],
   "note": "Partial: solvability within n iterations is proved for operators whose numerical range does not contain zero; it is false for invertible operators in general (quarter turn of the plane: the iteration breaks down and ends with NaN, C80_refuted). C80_exact says for arbitrary operators exactly when a run succeeds: never if a residual is orthogonal to its image before the test passes (C80_stuck, any restart length), otherwise within n iterations (C80_unstuck)."
  },
  {
   "property": "C81",
   "status": "partial",
   "theorems": [
    "Verif.Ts.C81_single_layer_partial",
    "Verif.Ts.C81_single_layer_error",
    "Verif.Ts.C81_gradient_partial",
    "Verif.Ts.C81_gradient_error",
    "Verif.Ts.C81_double_layer_partial",
    "Verif.Ts.C81_double_layer_error",
    "Verif.Ts.C81_overflow_refuted",
    "Verif.Ts.C81_center_refuted",
    "Verif.Ts.C81_center_gradient_refuted"
   ],
   "note": "Partial because the full claim is false of the code: a target at the centre gives a non-finite value from order 1 on (C81_center_refuted, C81_center_gradient_refuted), and from order 64 on the gradient kernels overrun their stack arrays (C81_overflow_refuted). Exact arithmetic instead of doubles."
  },
  {
   "property": "C82",
   "status": "partial",
   "theorems": [
    "Verif.Ts.C82_gradient_error",
    "Verif.Ts.C82_double_layer_error",
    "Verif.Ts.C82_single_layer",
    "Verif.Ts.C82_gradient",
    "Verif.Ts.C82_double_layer",
    "Verif.Ts.C82_precompute_general",
    "Verif.Ts.C82_precompute_partial",
    "Verif.Ts.C82_single_layer_error",
    "Verif.Ts.C82_abort_refuted",
    "Verif.Ts.C82_order_refuted",
    "Verif.Ts.C82_null_refuted",
    "Verif.Ts.C82_zero_refuted",
    "Verif.Ts.C82_precompute_tiny"
   ],
   "note": "Partial because the full claim is false of the code: |k||t-c| >= 129 makes the precomputation abort the process (C82_abort_refuted), orders from 63 on abort or overrun the scaling array (C82_order_refuted), and |k||s-c| < 1e-15 writes through a null pointer in the potential and gradient kernels and returns 0 in the double layer (C82_null_refuted, C82_zero_refuted). Accuracy of the precomputed values is proved for 0 < |k||t-c| <= 3, complex k (relative 5e-19 from 1e-200 on, absolute |k||t-c| below) and order <= 50; refining with kernel_length_scale=5/|k|, as the tests do, gives radii of at most 2.5/|k|. Above 3 only the characterization as the backward recurrence (C82_precompute_general). Exact arithmetic instead of doubles."
  },
  {
   "property": "C83",
   "status": "partial",
   "theorems": [
    "Verif.Ts.C83_backend_partial",
    "Verif.Ts.C83_laplace_partial",
    "Verif.Ts.C83_helmholtz_partial",
    "Verif.Ts.C83_laplace_error",
    "Verif.Ts.C83_errors",
    "Verif.Ts.C83_abort_refuted"
   ],
   "note": "Partial because the kernels are (C81, C82): targets at their center, orders from 64 (Laplace gradients, dipoles) or above 50 (Helmholtz), |k||t-c| > 3 or sources within 1e-15/|k| of the center. Each target must be listed for one center only (C37 proves it of the geometry data). Exact arithmetic; out-of-range indices are not modelled. A target too far from its center aborts the whole call in every execution (C83_abort_refuted)."
  },
  {
   "property": "C84",
   "status": "proved",
   "theorems": [
    "Verif.Flow.C84_stokeslet",
    "Verif.Flow.C84_stresslet",
    "Verif.Flow.C84_hebeker",
    "Verif.Flow.C84_hsiao_kress"
   ],
   "note": "The formulas of the kernels (Laplace, Stokeslet, Stresslet, with sumpy's signs) are part of the trusted base: sumpy is not in /repo. Constant viscosity; real arithmetic; potentials are finite weighted sums over sources (direct evaluation), not QBX expansions."
  },
  {
   "property": "C85",
   "status": "proved",
   "theorems": [
    "Verif.RefineGeom.C85_nearest",
    "Verif.RefineGeom.C85_centers",
    "Verif.RefineGeom.C85_stage1",
    "Verif.RefineGeom.C85_stage2",
    "Verif.RefineGeom.C85_surface_targets",
    "Verif.RefineGeom.C85_refined"
   ],
   "note": "Real arithmetic, unit normals and positive element sizes assumed (C72, C74); meshmode's refiner and boxtree's tree builder enter with their documented guarantees. Expansion radii and danger zones as in C74."
  },
  {
   "property": "C86",
   "status": "partial",
   "theorems": [
    "Verif.Dispatch.C86_handled_partial",
    "Verif.Dispatch.C86_refuted",
    "Verif.Dispatch.Graph.C86_graph_partial",
    "Verif.Dispatch.Graph.C86_graph_refuted"
   ],
   "note": "Partial: false for IterativeInverse, which no pass handles because its methods are called map_inverse and not map_iterative_inverse (C86_refuted); everything else proved. GraphvizMapper draws exactly the expressions of C86_graph_partial: sums over nodes (map_map_node_sum is misspelled), maxima, elementwise operations, interpolations and layer potentials without a numeric limit fail (C86_graph_refuted). Trusted: pymbolic's naming of mapper methods and its own nodes."
  },
  {
   "property": "C87",
   "status": "partial",
   "theorems": [
    "Verif.Bind.C87_linear_partial",
    "Verif.Bind.C87_repeated_partial",
    "Verif.Bind.C87_solve_partial",
    "Verif.Bind.C87_refuted",
    "Verif.Bind.C87_flat",
    "Verif.Bind.C87_superposition",
    "Verif.Bind.C87_operator",
    "Verif.Bind.C87_history_partial",
    "Verif.Bind.C87_converged_partial"
   ],
   "note": "Partial: the restrictions of C76_general on the expression, and no variables inside CSEs of scope EXPRESSION or DISCRETIZATION (C87_refuted). All nestings of potentials, and no totality: C87_superposition assumes only that the two evaluations succeed, C87_operator, C87_history_partial and C87_converged_partial that evaluation succeeds for all values of the unknown. Values of all kinds are elements of one module. C87_flat: with the flat vectors of MatVecOp."
  },
  {
   "property": "C88",
   "status": "partial",
   "theorems": [
    "Verif.LayerMat.C88_cluster_total",
    "Verif.LayerMat.C88_p2p_cluster_partial",
    "Verif.LayerMat.C88_p2p_cluster_entries",
    "Verif.LayerMat.C88_matrix_partial",
    "Verif.LayerMat.C88_direct_value",
    "Verif.LayerMat.C88_entries",
    "Verif.LayerMat.C88_refuses",
    "Verif.LayerMat.C88_batch",
    "Verif.LayerMat.C88_cluster",
    "Verif.LayerMat.C88_p2p_partial",
    "Verif.LayerMat.C88_other_refuted",
    "Verif.LayerMat.C88_limit_refuted",
    "Verif.LayerMat.C88_p2p_refuted",
    "Verif.LayerMat.C88_total"
   ],
   "note": "Partial: for targets other than the source the matrix builder either raises (no limit: abs(None), C88_limit_refuted) or builds a matrix from expansions about points at twice the expansion radius from the target (limit +-2, C88_other_refuted); point-to-point matrices drop all derivatives of kernels (C88_p2p_refuted); the fragment of C24; statements mixing kernels with and without target derivatives (C79). For visibly linear expressions nothing is assumed to succeed (C88_total, C88_cluster_total). Values of kernels and expansions are parameters."
  },
  {
   "property": "C89",
   "status": "partial",
   "theorems": [
    "Verif.Compiler.Dataflow.C89_statements",
    "Verif.Compiler.Dataflow.C89_forward",
    "Verif.Compiler.Dataflow.C89_ends",
    "Verif.Compiler.Dataflow.C89_result_partial",
    "Verif.Compiler.Dataflow.C89_result_refuted"
   ],
   "note": "Partial: a result that is neither a variable nor an array of variables (for example twice a layer potential) is drawn with a single arrow from 'initial', whatever statements it reads (C89_result_refuted)."
  },
  {
   "property": "C90",
   "status": "proved",
   "theorems": [
    "Verif.BindLayer.C90_potential",
    "Verif.BindLayer.C90_average",
    "Verif.BindLayer.C90_refused",
    "Verif.BindLayer.C90_side",
    "Verif.BindLayer.C90_mean",
    "Verif.BindLayer.C90_elsewhere",
    "Verif.BindLayer.C90_variables",
    "Verif.BindLayer.C90_average_exact",
    "Verif.BindLayer.C90_exact",
    "Verif.BindLayer.C90_expression"
   ],
   "note": "A statement is modelled output by output, which C88 justifies for statements whose target kernels all have or all lack derivatives."
  },
  {
   "property": "C91",
   "status": "partial",
   "theorems": [
    "Verif.BindLayer.C91_matrix_partial",
    "Verif.BindLayer.C91_linear_partial"
   ],
   "note": "Partial: the restrictions of C76 (names, nesting), of C24 (no powers of or quotients by the unknown) and of C88 (targets on the source); coefficients are made of context values, node coordinates, their reference derivatives, elementwise functions and quotients, other nodal functions (weights, sums over nodes) only occur in kernel arguments. For visibly linear expressions nothing is assumed to succeed but the kernel arguments (C91_linear_partial)."
  },
  {
   "property": "C92",
   "status": "proved",
   "theorems": [
    "Verif.Refine.C92_stage1",
    "Verif.Refine.C92_stage2",
    "Verif.Refine.C92_error",
    "Verif.Refine.C92_never_silent",
    "Verif.Refine.C92_spurious"
   ],
   "note": "The exception is also raised when the maxiter-th round happens to satisfy all criteria, which are not checked again (C92_spurious)."
  },
  {
   "property": "C93",
   "status": "partial",
   "theorems": [
    "Verif.Solve.C93_linear",
    "Verif.Solve.C93_dirichlet",
    "Verif.Solve.C93_neumann_partial",
    "Verif.Solve.C93_unweighted_refuted"
   ],
   "note": "Partial for Neumann as in C60. Exact arithmetic with NaN after breakdown."
  },
  {
   "property": "C94",
   "status": "proved",
   "theorems": [
    "Verif.BindLayer.C94_potential",
    "Verif.BindLayer.C94_nearest",
    "Verif.BindLayer.C94_center",
    "Verif.BindLayer.C94_mean",
    "Verif.BindLayer.C94_agree_elsewhere",
    "Verif.BindLayer.C94_agree_source",
    "Verif.BindLayer.C94_mean_refused",
    "Verif.BindLayer.C94_agree_mean",
    "Verif.BindLayer.C94_refused"
   ],
   "note": "Composition of C76, C90, C31, C36, C38, C77, C79. FMM translation operators are exact (the FMM error is not modelled); sumpy back end; statements are executed output by output. Agreement with direct evaluation assumes that the expansion classes the two paths use have the same values."
  },
  {
   "property": "C95",
   "status": "proved",
   "theorems": [
    "Verif.Bind.C95_value",
    "Verif.Bind.C95_zero",
    "Verif.Sym.C95_normal",
    "Verif.Sym.C95_unchanged",
    "Verif.Sym.C95_idempotent"
   ],
   "note": "pymbolic's flattened_sum, flattened_product and FlattenMapper are not in the repository: modelled after their documented behaviour. For rounding arithmetic the hypotheses of C95_value (commutative semiring) hold only up to rounding, since merged sums are added in another order."
  },
  {
   "property": "C96",
   "status": "proved",
   "theorems": [
    "Verif.RefDeriv.C96_accepted",
    "Verif.RefDeriv.C96_refused",
    "Verif.RefDeriv.C96_value",
    "Verif.RefDeriv.C96_power",
    "Verif.RefDeriv.C96_linear",
    "Verif.RefDeriv.C96_distinct",
    "Verif.RefDeriv.C96_componentwise",
    "Verif.RefDeriv.C96_nonpositive"
   ],
   "note": "meshmode's num_reference_derivative is not in the repository: taken to apply the differentiation matrices one after the other. Entries that are not pairs of integers are not modelled."
  },
  {
   "property": "C97",
   "status": "proved",
   "theorems": [
    "Verif.GA.C97_cross_product",
    "Verif.GA.C97_normal",
    "Verif.GA.C97_area_element",
    "Verif.GA.C97_volume",
    "Verif.GA.C97_curve",
    "Verif.GA.C97_agrees",
    "Verif.GA.C97_surface_vector",
    "Verif.GA.C97_inverse",
    "Verif.GA.C97_area_gram",
    "Verif.GA.C97_degenerate"
   ],
   "note": "Real arithmetic, one point. The multivector operations are pymbolic's (not in /repo), modelled in an orthonormal basis. C97_agrees: in two and three dimensions these are the normals of C55."
  },
  {
   "property": "C98",
   "status": "partial",
   "theorems": [
    "Verif.Waveguide.C98_wave_number",
    "Verif.Waveguide.C98_interface_partial",
    "Verif.Waveguide.C98_no_contrast",
    "Verif.Waveguide.C98_duality",
    "Verif.Waveguide.C98_interfaces_refuted",
    "Verif.Waveguide.C98_empty_refuted",
    "Verif.Waveguide.C98_fields_refuted"
   ],
   "note": "Partial: with several interfaces only the equations of the first one are set up, the others are 0 (return inside the loop, C98_interfaces_refuted), and potentials ignore the interface's location; without interfaces None is returned (C98_empty_refuted); representation always raises AttributeError (C98_fields_refuted). Jump relations are hypotheses, shown consistent by an instance."
  },
  {
   "property": "C99",
   "status": "proved",
   "theorems": [
    "Verif.Memo.C99_programs",
    "Verif.Memo.C99_arrays",
    "Verif.Memo.C99_context",
    "Verif.Memo.C99_dimension_needed",
    "Verif.Memo.C99_pairs"
   ],
   "note": "memoize_in is modelled from its documentation (pytools); classes and functions in identifiers are represented by their names. Arrays kept with a collection belong to the array context of an earlier evaluation (C99_context): evaluating one bound expression in array contexts on different devices would mix them. The ambient dimension read by the inner functions is not in the key: C99_dimension_needed shows the constructor's check of the collection (C18) is needed."
  },
  {
   "property": "C100",
   "status": "partial",
   "theorems": [
    "Verif.Printing.C100_descriptor_partial",
    "Verif.Printing.C100_descriptor_refuted",
    "Verif.Printing.C100_line",
    "Verif.Printing.C100_program",
    "Verif.Printing.C100_compiled",
    "Verif.Printing.C100_assign",
    "Verif.Printing.C100_potential",
    "Verif.Printing.C100_nodes"
   ],
   "note": "C100_descriptor_partial: without the restriction on geometry names the claim is false of the code (C100_descriptor_refuted): a place called 's' is printed like the default source, 'a/center' like the centers of 'a', and the places of expressions without names like the defaults. Texts of kernels and of expressions are parameters."
  }
 ]
}