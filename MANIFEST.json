{
 "claims": [
  {
   "property": "C01",
   "status": "proved",
   "theorems": [
    "Theia.C01_views_and_tracks_agree",
    "Theia.C01_no_duplicates_no_dangling"
   ],
   "note": ""
  },
  {
   "property": "C02",
   "status": "proved",
   "theorems": [
    "Theia.C02_names_and_ids_correspond",
    "Theia.C02_addView_fails_iff",
    "Theia.C02_addView_adds_exactly_one",
    "Theia.C02_ids_never_reused"
   ],
   "note": ""
  },
  {
   "property": "C03",
   "status": "proved",
   "theorems": [
    "Theia.C03_groups_partition_views",
    "Theia.C03_same_group_iff_shared_intrinsics"
   ],
   "note": ""
  },
  {
   "property": "C04",
   "status": "proved",
   "theorems": [
    "Theia.C04_remove_unknown",
    "Theia.C04_removeView_exact",
    "Theia.C04_removeTrack_exact"
   ],
   "note": ""
  },
  {
   "property": "C05",
   "status": "proved",
   "theorems": [
    "Theia.C05_addTrack_rejects",
    "Theia.C05_addTrack_aborts",
    "Theia.C05_addTrack_exact",
    "Theia.C05_addObservation_exact"
   ],
   "note": ""
  },
  {
   "property": "C06",
   "status": "proved",
   "theorems": [
    "Theia.C06_subreconstruction_exact",
    "Theia.C06_subreconstruction_consistent"
   ],
   "note": ""
  },
  {
   "property": "C07",
   "status": "partial",
   "theorems": [
    "Theia.C07_reload_queries_partial",
    "Theia.C07_reload_future_partial",
    "Theia.C07_reload_changes_future_counterexample"
   ],
   "note": "All queries agree after reload, and so does every continuation without automatic groups; the full property is false because the group-id counter is not serialised (counterexample proved)."
  },
  {
   "property": "C08",
   "status": "partial",
   "theorems": [
    "Theia.C08_auto_group_is_private_partial",
    "Theia.C08_auto_group_collision_counterexample"
   ],
   "note": "Holds for histories without explicit group ids; false in general because the automatic counter can collide with an explicit id (counterexample proved)."
  },
  {
   "property": "C09",
   "status": "proved",
   "theorems": [
    "Theia.C09_refines_edge_map",
    "Theia.C09_symmetric_irreflexive",
    "Theia.C09_counts",
    "Theia.C09_return_values"
   ],
   "note": ""
  },
  {
   "property": "C10",
   "status": "proved",
   "theorems": [
    "Theia.C10_subgraph_exact",
    "Theia.C10_largest_component",
    "Theia.C10_largest_component_aborts_without_edges"
   ],
   "note": ""
  },
  {
   "property": "C11",
   "status": "proved",
   "theorems": [
    "Theia.C11_keeps_one_largest_component",
    "Theia.C11_no_edges_unchanged"
   ],
   "note": ""
  },
  {
   "property": "C12",
   "status": "proved",
   "theorems": [
    "Theia.C12_components_are_connectivity"
   ],
   "note": ""
  },
  {
   "property": "C13",
   "status": "proved",
   "theorems": [
    "Theia.C13_size_limit_respected",
    "Theia.C13_refused_only_when_too_large",
    "Theia.C13_components_only_grow"
   ],
   "note": ""
  },
  {
   "property": "C14",
   "status": "proved",
   "theorems": [
    "Theia.C14_minimum_spanning_tree",
    "Theia.C14_self_edge_counterexample"
   ],
   "note": "The property as listed (graphs without self edges, plus the failure with self edges) is proved in full."
  },
  {
   "property": "C15",
   "status": "proved",
   "theorems": [
    "Theia.C15_triplets_exact"
   ],
   "note": ""
  },
  {
   "property": "C16",
   "status": "proved",
   "theorems": [
    "Theia.C16_tracks_consistent",
    "Theia.C16_tracks_complete",
    "Theia.C16_same_view_aborts",
    "Theia.C16_track_shorter_than_minimum_counterexample",
    "Theia.C16_minimum_one_aborts_counterexample"
   ],
   "note": "The listed property, including the two stated exceptions, is proved in full."
  },
  {
   "property": "C17",
   "status": "proved",
   "theorems": [
    "Theia.C17_cache_refines_history",
    "Theia.C17_fetches_transparent"
   ],
   "note": ""
  },
  {
   "property": "C18",
   "status": "proved",
   "theorems": [
    "Theia.C18_fifo_at_most_once",
    "Theia.C18_destructor_waits",
    "Theia.C18_no_deadlock",
    "Theia.C18_destructor_returns",
    "Theia.C18_abort_only_add_after_stop",
    "Theia.C18_needs_a_thread"
   ],
   "note": ""
  },
  {
   "property": "C19",
   "status": "proved",
   "theorems": [
    "Theia.C19_chunks_cover",
    "Theia.C19_schedule_independent",
    "Theia.C19_all_tracks_requested",
    "Theia.C19_bad_step_counterexample"
   ],
   "note": "Proved in full for positive step sizes, as listed; the counterexample documents the excluded step sizes."
  },
  {
   "property": "C20",
   "status": "proved",
   "theorems": [
    "Theia.C20_best_model"
   ],
   "note": ""
  },
  {
   "property": "C21",
   "status": "partial",
   "theorems": [
    "Theia.C21_in_range",
    "Theia.C21_antitone",
    "Theia.C21_failure_probability_partial",
    "Theia.C21_truncation_counterexample"
   ],
   "note": "Range and monotonicity proved; the confidence claim is false as coded (truncation), and the one-more-iteration version is proved."
  },
  {
   "property": "C22",
   "status": "proved",
   "theorems": [
    "Theia.C22_random_minimal",
    "Theia.C22_random_uniform",
    "Theia.C22_exhaustive_cycles",
    "Theia.C22_exhaustive_reuse_counterexample",
    "Theia.C22_prosac_minimal",
    "Theia.C22_prosac_returns",
    "Theia.C22_prosac_counterexample"
   ],
   "note": "Proved in full as listed; the counterexamples establish the stated out-of-range cases."
  },
  {
   "property": "C23",
   "status": "proved",
   "theorems": [
    "Theia.C23_inlier_support",
    "Theia.C23_mle",
    "Theia.C23_lmed_cost",
    "Theia.C23_lmed_inliers",
    "Theia.C23_lmed_odd_counterexample",
    "Theia.C23_lmed_single_counterexample"
   ],
   "note": "Proved in full as listed; the counterexamples document the odd-count median and the single-residual read before the vector."
  },
  {
   "property": "C24",
   "status": "proved",
   "theorems": [
    "Theia.C24_every_outcome",
    "Theia.C24_uniform",
    "Theia.C24_only_positions"
   ],
   "note": ""
  },
  {
   "property": "C25",
   "status": "proved",
   "theorems": [
    "Theia.C25_no_value_lost",
    "Theia.C25_printed",
    "Theia.C25_integer_counterexample"
   ],
   "note": "Proved for sorted boundaries and floating point types, as listed; the counterexample is the stated integer case."
  },
  {
   "property": "C26",
   "status": "proved",
   "theorems": [
    "Theia.C26_score",
    "Theia.C26_order_independent",
    "Theia.C26_add_point"
   ],
   "note": ""
  },
  {
   "property": "C27",
   "status": "proved",
   "theorems": [
    "Theia.C27_any_views",
    "Theia.C27_selection",
    "Theia.C27_all_views",
    "Theia.C27_shortest_track_counterexample",
    "Theia.C27_ranked_by_id_counterexample"
   ],
   "note": "The stated property is proved for every reachable reconstruction, error function, grid, view order and requested number. The counterexamples concern the header's preference for long tracks, which the code does not implement: min_element takes the shortest track of a cell and partial_sort ranks by track id."
  },
  {
   "property": "C28",
   "status": "partial",
   "theorems": [
    "Theia.C28_constrained_partial",
    "Theia.C28_fixpoint",
    "Theia.C28_keeps_core",
    "Theia.C28_queue_partial",
    "Theia.C28_views_counterexample",
    "Theia.C28_requeue_counterexample",
    "Theia.C28_initialized_counterexample"
   ],
   "note": "False of the code for views, for the queue, and for reconstructions that are passed in with estimated views (three counterexamples). Proved for every reachable reconstruction: the loop ends, only lowers flags, every estimated track keeps two estimated views, a reconstruction it leaves unchanged is well constrained, mutually constrained parts survive, and the containers stay consistent if every view of the view graph is in one of them."
  },
  {
   "property": "C29",
   "status": "proved",
   "theorems": [
    "Theia.C29_problem",
    "Theia.C29_full",
    "Theia.C29_track",
    "Theia.C29_view",
    "Theia.C29_unseen_track_counterexample",
    "Theia.C29_empty_view_counterexample",
    "Theia.C29_order_counterexample"
   ],
   "note": "Proved for every reachable reconstruction whose chosen estimated views and tracks have an observation; the counterexamples show what happens without that (the process aborts) and when tracks are added before views (duplicate residuals, against the documented order)."
  },
  {
   "property": "C30",
   "status": "proved",
   "theorems": [
    "Theia.C30_all_pairs",
    "Theia.C30_chunks",
    "Theia.C30_match_images",
    "Theia.C30_single_image_counterexample",
    "Theia.C30_twice_counterexample",
    "Theia.C30_intersect",
    "Theia.C30_brute_force",
    "Theia.C30_symmetric",
    "Theia.C30_few_descriptors_counterexample"
   ],
   "note": "Proved as stated, for at least two images and at least two descriptors per image; the counterexamples show what the code does below that (the process aborts, or the partial sort is out of range) and for an image added twice."
  },
  {
   "property": "C31",
   "status": "partial",
   "theorems": [
    "Theia.C31_mem_features",
    "Theia.C31_mem_priors",
    "Theia.C31_mem_matches",
    "Theia.C31_mem_names",
    "Theia.C31_mem_file",
    "Theia.C31_mem_file_counterexample",
    "Theia.C31_rocks_features",
    "Theia.C31_rocks_matches_partial",
    "Theia.C31_rocks_counterexample"
   ],
   "note": "Proved in full for the in-memory database and, for the on-disk one, for features and priors; for on-disk matches it is proved when no first image name of a pair contains the key separator and refuted otherwise, as the property says. A file round trip of the in-memory database is proved for matches stored under the names they carry."
  },
  {
   "property": "C32",
   "status": "proved",
   "theorems": [
    "Theia.C32_hashed",
    "Theia.C32_match_images",
    "Theia.C32_match_pair",
    "Theia.C32_two_candidates_counterexample"
   ],
   "note": "Proved for all projections (as arbitrary sign patterns), descriptors, distances and ratios. The counterexample shows that the skip test is not the one its comment claims."
  },
  {
   "property": "C33",
   "status": "proved",
   "theorems": [
    "Theia.C33_round_trip",
    "Theia.C33_order",
    "Theia.C33_out_of_range_counterexample",
    "Theia.C33_endpoints",
    "Theia.C33_corner_counterexample",
    "Theia.C33_groups"
   ],
   "note": "Proved in full as stated; the counterexamples are the exceptions named in the statement."
  },
  {
   "property": "C34",
   "status": "proved",
   "theorems": [
    "Theia.C34_pairs",
    "Theia.C34_nearest",
    "Theia.C34_order_counterexample",
    "Theia.C34_negative_counterexample"
   ],
   "note": "Proved in full as stated; the counterexamples are the exceptions named in the statement."
  },
  {
   "property": "C35",
   "status": "proved",
   "theorems": [
    "Theia.C35_verified",
    "Theia.C35_plain",
    "Theia.C35_minimum_counterexample",
    "Theia.C35_negative_counterexample"
   ],
   "note": "Proved in full as stated; the counterexamples are the exceptions named in the statement."
  },
  {
   "property": "C36",
   "status": "proved",
   "theorems": [
    "Theia.C36_eval",
    "Theia.C36_remove_leading_zeros",
    "Theia.C36_differentiate",
    "Theia.C36_multiply",
    "Theia.C36_add",
    "Theia.C36_divide",
    "Theia.C36_constant_divisor_counterexample",
    "Theia.C36_leading_zeros_counterexample"
   ],
   "note": "Proved in full as stated; the counterexamples are the exceptions named in the statement."
  },
  {
   "property": "C37",
   "status": "partial",
   "theorems": [
    "Theia.C37_quadratic",
    "Theia.C37_linear",
    "Theia.C37_double_zero_counterexample",
    "Theia.C37_find_quadratic",
    "Theia.C37_reals",
    "Theia.C37_find_linear",
    "Theia.C37_reals_counterexample",
    "Theia.C37_cubic_partial",
    "Theia.C37_cubic_counterexample",
    "Theia.C37_cubic_single",
    "Theia.C37_quartic",
    "Theia.C37_quartic_counterexample"
   ],
   "note": "Quadratic, linear and quartic proved; the cubic claim is false in general and is proved for 3ac < b^2 (with the branch choices made by signed zero), with a proof that for 3ac > b^2 no returned value is a root. Missing: a repaired cubic, which the code does not have."
  },
  {
   "property": "C38",
   "status": "proved",
   "theorems": [
    "Theia.C38_solutions",
    "Theia.C38_identity",
    "Theia.C38_solve",
    "Theia.C38_aborts",
    "Theia.C38_pivot_counterexample",
    "Theia.C38_threshold_counterexample"
   ],
   "note": "Proved in full as stated; the counterexamples are the exceptions named in the statement."
  },
  {
   "property": "C39",
   "status": "proved",
   "theorems": [
    "Theia.C39_transform",
    "Theia.C39_reprojection",
    "Theia.C39_inverse"
   ],
   "note": "Any faithful representation of rotations (assumption on the Ceres conversions); points at infinity are the undefined behaviour named in the statement."
  },
  {
   "property": "C40",
   "status": "proved",
   "theorems": [
    "Theia.C40_swap",
    "Theia.C40_geometry",
    "Theia.C40_involution",
    "Theia.C40_involution_small",
    "Theia.C40_relative",
    "Theia.C40_relative_normalized",
    "Theia.C40_swap_relative",
    "Theia.C40_stored_edge"
   ],
   "note": "Exact real arithmetic; the small-angle branch of ceres::AngleAxisRotatePoint is modelled."
  },
  {
   "property": "C41",
   "status": "proved",
   "theorems": [
    "Theia.C41_tree",
    "Theia.C41_consistent",
    "Theia.C41_no_edges_aborts",
    "Theia.C41_stale_counterexample"
   ],
   "note": "For any heap behaviour and set iteration order; the output map must not hold orientations for the views beforehand (the counterexample shows this is needed)."
  },
  {
   "property": "C42",
   "status": "proved",
   "theorems": [
    "Theia.C42_cycles"
   ],
   "note": "Angles through any exact logarithm of rotation matrices (ceres::RotationMatrixToAngleAxis); real arithmetic."
  },
  {
   "property": "C43",
   "status": "proved",
   "theorems": [
    "Theia.C43_orientations",
    "Theia.C43_idempotent"
   ],
   "note": "Angles through any exact logarithm of rotation matrices (ceres::RotationMatrixToAngleAxis); real arithmetic."
  },
  {
   "property": "C44",
   "status": "proved",
   "theorems": [
    "Theia.C44_total_order",
    "Theia.C44_filter",
    "Theia.C44_consistent",
    "Theia.C44_missing_orientation"
   ],
   "note": "Exact reals; the random axes, map orders and interleavings are arbitrary. A random generator shared by the threads (options.rng) is used without a lock in the code; that data race is outside the model."
  },
  {
   "property": "C45",
   "status": "partial",
   "theorems": [
    "Theia.C45_nvm",
    "Theia.C45_nvm_round_trip_partial",
    "Theia.C45_colmap",
    "Theia.C45_colmap_refuses",
    "Theia.C45_ply",
    "Theia.C45_nvm_estimated_counterexample",
    "Theia.C45_nvm_distortion_counterexample",
    "Theia.C45_nvm_import_aborts_counterexample",
    "Theia.C45_nvm_other_model_counterexample",
    "Theia.C45_colmap_distortion_counterexample",
    "Theia.C45_colmap_mixed_group_counterexample"
   ],
   "note": "Numbers are written and read without loss in the model; the conversion to a quaternion (Eigen) is a parameter that satisfies QuatOf, and Export.exists_quat shows that there is one. What the NVM import changes is part of IsNvmCopy and shown by the counterexamples."
  },
  {
   "property": "C46",
   "status": "partial",
   "theorems": [
    "Theia.C46_pinhole",
    "Theia.C46_pinhole_undistort_distort",
    "Theia.C46_pinhole_distort_undistort",
    "Theia.C46_pinhole_radial",
    "Theia.C46_pinhole_strong_counterexample",
    "Theia.C46_rt_distortion",
    "Theia.C46_rt",
    "Theia.C46_division_pixel",
    "Theia.C46_division_point",
    "Theia.C46_division_counterexample",
    "Theia.C46_fov_partial",
    "Theia.C46_fov_counterexample",
    "Theia.C46_fisheye_partial",
    "Theia.C46_fisheye_counterexample",
    "Theia.C46_camera_ray",
    "Theia.C46_camera_point",
    "Theia.C46_projection_matrix"
   ],
   "note": "Over the reals. Exact for pinhole and radial-tangential without distortion and for the division model; within stated tolerances (the fixed-point iteration is proved to converge in its 100 steps) for moderate distortion; pose level for every model and orientation above the Ceres threshold. Missing: the Taylor branches of the field-of-view model (counterexample for small or negative omega) and convergence of the fisheye iteration (counterexample near the optical axis); strong distortion (counterexamples)."
  },
  {
   "property": "C47",
   "status": "proved",
   "theorems": [
    "Theia.C47_names",
    "Theia.C47_apply",
    "Theia.C47_model_roundtrip",
    "Theia.C47_camera_roundtrip",
    "Theia.C47_copy",
    "Theia.C47_archive",
    "Theia.C47_old_archives"
   ],
   "note": "Exact field arithmetic; an archive is a list of typed values."
  },
  {
   "property": "C48",
   "status": "proved",
   "theorems": [
    "Theia.C48_queries",
    "Theia.C48_effects",
    "Theia.C48_duplicate_insert_counterexample"
   ],
   "note": "Proved for any lawful heap algorithm with distinct keys, as listed; the counterexample documents inserting a key twice."
  },
  {
   "property": "C49",
   "status": "partial",
   "theorems": [
    "Theia.C49_midpoint",
    "Theia.C49_midpoint_exact",
    "Theia.C49_midpoint_parallel",
    "Theia.C49_midpoint_abort",
    "Theia.C49_cheirality",
    "Theia.C49_cheirality_exact",
    "Theia.C49_cheirality_parallel",
    "Theia.C49_sufficient_angle",
    "Theia.C49_epipolar",
    "Theia.C49_triangulate_exact",
    "Theia.C49_correction_counterexample",
    "Theia.C49_estimator",
    "Theia.C49_estimator_sign_counterexample",
    "Theia.C49_nview",
    "Theia.C49_nview_svd_partial",
    "Theia.C49_nview_svd_counterexample"
   ],
   "note": "Eigen decompositions are parameters with their mathematical specification (SmallestVector, Cholesky; an instance of each is shown to exist). TriangulateNViewSVD is right only if its uninitialised memory is zero (C49_nview_svd_partial, counterexample proved); the image point correction and the estimator sign are proved counterexamples; the rest is proved in full."
  },
  {
   "property": "C50",
   "status": "partial",
   "theorems": [
    "Theia.C50_known_exact",
    "Theia.C50_known_partial",
    "Theia.C50_localize",
    "Theia.C50_frame",
    "Theia.C50_known_counterexample",
    "Theia.C50_failure_changes_camera",
    "Theia.C50_failed_adjustment_stays_estimated",
    "Theia.C50_no_fallback_counterexample"
   ],
   "note": "The pose solvers, the bundle adjustment of the view and the intrinsics functions are parameters. The documented shared-intrinsics rule is false of the code (C50_known_counterexample) and proved where it holds (C50_known_partial); the rest of the statement is proved in full."
  },
  {
   "property": "C51",
   "status": "proved",
   "theorems": [
    "Theia.C51_added",
    "Theia.C51_two_draws",
    "Theia.C51_all_matched_counterexample",
    "Theia.C51_reuse_counterexample"
   ],
   "note": "Proved as stated, for runs in which every group has two candidates; C51_two_draws shows that two different random draws suffice. The counterexamples are the exceptions named in the statement."
  },
  {
   "property": "C52",
   "status": "proved",
   "theorems": [
    "Theia.C52_minimize"
   ],
   "note": "Proved with the numerical root finder as a parameter assumed to return all real roots of the derivative."
  },
  {
   "property": "C53",
   "status": "proved",
   "theorems": [
    "Theia.C53_reprojection",
    "Theia.C53_medians",
    "Theia.C53_origin_counterexample",
    "Theia.C53_degenerate_counterexample"
   ],
   "note": "The counterexamples are the exceptions named in the statement."
  },
  {
   "property": "C54",
   "status": "proved",
   "theorems": [
    "Theia.C54_constant_parameters"
   ],
   "note": "The bit mask is a natural number; the subset is compared with the kinds of the stored parameters."
  },
  {
   "property": "C55",
   "status": "proved",
   "theorems": [
    "Theia.C55_group_intrinsics",
    "Theia.C55_returns"
   ],
   "note": "Intrinsics objects live on a heap of addresses, so sharing is modelled; the reconstruction is any reachable one."
  },
  {
   "property": "C56",
   "status": "proved",
   "theorems": [
    "Theia.C56_rotations",
    "Theia.C56_decompose",
    "Theia.C56_same_essential",
    "Theia.C56_best_count",
    "Theia.C56_recovers"
   ],
   "note": "The singular value decomposition is a parameter with its mathematical specification (IsSvd); an instance is shown. Over the reals."
  },
  {
   "property": "C57",
   "status": "proved",
   "theorems": [
    "Theia.C57_from_projections",
    "Theia.C57_to_projections",
    "Theia.C57_projections_round_trip",
    "Theia.C57_compose",
    "Theia.C57_compose_round_trip",
    "Theia.C57_focal_lengths",
    "Theia.C57_focal_lengths_valid",
    "Theia.C57_focal_vertical_counterexample",
    "Theia.C57_focal_sideways_counterexample"
   ],
   "note": "The last singular vector is any unit null vector. The counterexamples record configurations the function refuses or divides by zero on; the statement as given (general position) is proved in full. SharedFocalLengthsFromFundamentalMatrix is not modelled."
  },
  {
   "property": "C58",
   "status": "proved",
   "theorems": [
    "Theia.ProjectionMatrix.C58_rq",
    "Theia.ProjectionMatrix.C58_decompose",
    "Theia.ProjectionMatrix.C58_unique",
    "Theia.ProjectionMatrix.C58_compose",
    "Theia.ProjectionMatrix.C58_round_trip",
    "Theia.ProjectionMatrix.C58_intrinsics",
    "Theia.ProjectionMatrix.C58_calibration",
    "Theia.ProjectionMatrix.C58_initialize",
    "Theia.ProjectionMatrix.C58_initialize_singular_counterexample"
   ],
   "note": "The QR and singular value decompositions and the conversion to angle-axis are parameters with their mathematical specification; functions meeting it are shown to exist. The counterexample records the undefined behaviour for singular matrices; the statement as given is proved in full."
  },
  {
   "property": "C59",
   "status": "partial",
   "theorems": [
    "Theia.PoseUtil.C59_project_rotation",
    "Theia.PoseUtil.C59_project_fixed",
    "Theia.PoseUtil.C59_project_nearest_partial",
    "Theia.PoseUtil.C59_project_negative_counterexample",
    "Theia.PoseUtil.C59_sampson_minimal",
    "Theia.PoseUtil.C59_sampson_zero",
    "Theia.PoseUtil.C59_sampson_defined",
    "Theia.PoseUtil.C59_sampson_symmetric",
    "Theia.PoseUtil.C59_normalize_defined",
    "Theia.PoseUtil.C59_normalize",
    "Theia.PoseUtil.C59_normalize_average",
    "Theia.PoseUtil.C59_normalize_average_counterexample"
   ],
   "note": "The nearest rotation is proved for positive determinants (C59_project_nearest_partial) and refuted for negative ones; for singular matrices it depends on the decomposition. The rest is proved in full."
  },
  {
   "property": "C60",
   "status": "proved",
   "theorems": [
    "Theia.C60_estimated_part",
    "Theia.C60_estimated_lists"
   ],
   "note": ""
  },
  {
   "property": "C61",
   "status": "partial",
   "theorems": [
    "Theia.C61_load",
    "Theia.C61_round_trip_partial",
    "Theia.C61_same_projection",
    "Theia.C61_features_truncated_counterexample",
    "Theia.C61_origin_lost_counterexample",
    "Theia.C61_same_base_name_counterexample",
    "Theia.C61_no_points_counterexample",
    "Theia.C61_reused_reconstruction_counterexample"
   ],
   "note": "Numbers are written and read without loss in the model. What does not survive is part of the specification of the copy (IsBundlerCopy) and shown by the counterexamples."
  },
  {
   "property": "C62",
   "status": "proved",
   "theorems": [
    "Theia.C62_least_squares",
    "Theia.C62_consistent",
    "Theia.C62_history",
    "Theia.C62_initial_guess_counterexample",
    "Theia.C62_second_call_counterexample"
   ],
   "note": "The eigensolver and the SVD are parameters that return what they promise (Eigensolver, IsSvd); exists_eigensolver and Svd.exists_svd_function show that there are such functions. The two exceptions are in the statement and proved as counterexamples."
  },
  {
   "property": "C63",
   "status": "proved",
   "theorems": [
    "Theia.C63_defined",
    "Theia.C63_least_squares",
    "Theia.C63_least_squares_unweighted",
    "Theia.C63_recovered",
    "Theia.C63_reconstructions",
    "Theia.C63_unestimated_view_counterexample"
   ],
   "note": "The SVD is a parameter that satisfies IsFullSvd (exists_fullSvd). Optimality is among nonnegative scales. The exception for unestimated views is in the statement and proved as a counterexample."
  },
  {
   "property": "C64",
   "status": "proved",
   "theorems": [
    "Theia.C64_baselines",
    "Theia.C64_median",
    "Theia.C64_sizes",
    "Theia.C64_common_tracks",
    "Theia.C64_common_tracks_fatal",
    "Theia.C64_least_squares",
    "Theia.C64_recovered",
    "Theia.C64_no_triangle",
    "Theia.C64_coplanar_counterexample",
    "Theia.C64_identity_counterexample",
    "Theia.C64_unseen_counterexample",
    "Theia.C64_reuse_counterexample"
   ],
   "note": "The Cholesky solver, the rotation between two vectors and the eigensolver are parameters that return what they promise (Cholesky, TurnsOneToOther, EigensolverOne); exists_cholesky, exists_turns and exists_eigensolver show that there are such functions. Image points are the normalized ones. The exceptions are in the statement and proved as counterexamples."
  },
  {
   "property": "C65",
   "status": "proved",
   "theorems": [
    "Theia.C65_roots",
    "Theia.C65_constant",
    "Theia.C65_square_counterexample",
    "Theia.C65_frexp_counterexample",
    "Theia.C65_minimize"
   ],
   "note": "The eigensolver is a parameter that returns the roots of the characteristic polynomial or fails (exists_eigenvalueSolver). The exceptions are in the statement and proved as counterexamples."
  },
  {
   "property": "C66",
   "status": "proved",
   "theorems": [
    "Theia.C66_construct",
    "Theia.C66_exact",
    "Theia.C66_converges",
    "Theia.C66_stops",
    "Theia.C66_no_iterations"
   ],
   "note": "The sparse Cholesky factorisation is exact: it succeeds exactly for positive definite matrices. Convergence is that of relaxed Douglas-Rachford iterations; existence of the fixed point comes from a Farkas lemma."
  },
  {
   "property": "C67",
   "status": "proved",
   "theorems": [
    "Theia.C67_construct",
    "Theia.C67_converges",
    "Theia.C67_stops",
    "Theia.C67_violation_counterexample"
   ],
   "note": "As C66. The exception is in the statement and proved as a counterexample."
  },
  {
   "property": "C68",
   "status": "proved",
   "theorems": [
    "Theia.C68_construct",
    "Theia.C68_bounds",
    "Theia.C68_converges",
    "Theia.C68_stops",
    "Theia.C68_violation_counterexample",
    "Theia.C68_nonconvex_counterexample",
    "Theia.C68_asymmetric_counterexample"
   ],
   "note": "As C66. The exceptions are in the statement and proved as counterexamples."
  },
  {
   "property": "C69",
   "status": "proved",
   "theorems": [
    "Theia.C69_total",
    "Theia.C69_none",
    "Theia.C69_missing",
    "Theia.C69_gauge",
    "Theia.C69_consistent",
    "Theia.C69_irls",
    "Theia.C69_history",
    "Theia.C69_reuse_counterexample"
   ],
   "note": "The logarithm of rotation matrices is a parameter (IsLog, exists_isLog); the inner solvers are those of C66. What the first phase does to inconsistent orientations is not stated beyond the view it keeps. The exception is in the statement and proved as a counterexample."
  },
  {
   "property": "C70",
   "status": "proved",
   "theorems": [
    "Theia.C70_total",
    "Theia.C70_repeat",
    "Theia.C70_converges",
    "Theia.C70_consistent",
    "Theia.C70_new",
    "Theia.C70_none",
    "Theia.C70_reuse",
    "Theia.C70_options_counterexample",
    "Theia.C70_unoriented_counterexample"
   ],
   "note": "The inner solver is that of C67, with its options as a parameter; the code uses the default options, whose limit on the iterations need not suffice. The exceptions are in the statement and proved."
  },
  {
   "property": "C71",
   "status": "proved",
   "theorems": [
    "Theia.C71_outliers",
    "Theia.C71_all_outliers",
    "Theia.C71_outliers_missing",
    "Theia.C71_keep",
    "Theia.C71_counts",
    "Theia.C71_poses",
    "Theia.C71_poses_estimated",
    "Theia.C71_refine",
    "Theia.C71_threshold"
   ],
   "note": "The projections, directions and the optimiser are parameters of the model; doubles are rationals."
  },
  {
   "property": "C72",
   "status": "partial",
   "theorems": [
    "Theia.C72_estimate",
    "Theia.C72_exhaustive_partial",
    "Theia.C72_failure",
    "Theia.C72_seed",
    "Theia.C72_best_view",
    "Theia.C72_growth",
    "Theia.C72_fuel",
    "Theia.C72_ends_partial",
    "Theia.IncrementalRuns.C72_livelock_counterexample",
    "Theia.IncrementalRuns.C72_failed_view_counterexample",
    "Theia.IncrementalRuns.C72_pose_counterexample",
    "Theia.IncrementalRuns.C72_initialized_counterexample"
   ],
   "note": "The last sentence is false: C72_livelock_counterexample, C72_failed_view_counterexample, C72_pose_counterexample, C72_initialized_counterexample. What holds of it is C72_ends_partial. C72_exhaustive_partial leaves out views the clean-up drops without queueing them (C28_requeue_counterexample). Numerical parts, iteration orders and schedules are quantified parameters."
  },
  {
   "property": "C73",
   "status": "partial",
   "theorems": [
    "Theia.C73_estimate_partial",
    "Theia.C73_initial_filter",
    "Theia.C73_rotation_filter",
    "Theia.C73_negative_tolerance",
    "Theia.C73_poses",
    "Theia.C73_round",
    "Theia.C73_positions_only",
    "Theia.C73_positions_once",
    "Theia.GlobalRuns.C73_empty_success_counterexample",
    "Theia.GlobalRuns.C73_no_pairs_counterexample"
   ],
   "note": "The last sentence is false: C73_empty_success_counterexample, C73_no_pairs_counterexample. Estimation of rotations and positions, the rigid component and the pairs that contradict translations are quantified parameters, constrained by GlobalWellBehaved."
  },
  {
   "property": "C74",
   "status": "partial",
   "theorems": [
    "Theia.C74_matches",
    "Theia.C74_prepare",
    "Theia.C74_prepare_given",
    "Theia.C74_build",
    "Theia.C74_build_after_prepare",
    "Theia.C74_few_views",
    "Theia.C74_returns",
    "Theia.C74_intrinsics_partial",
    "Theia.C74_estimators",
    "Theia.C74_global_largest_only",
    "Theia.BuilderRuns.C74_global_components_counterexample",
    "Theia.BuilderRuns.C74_livelock_counterexample",
    "Theia.BuilderRuns.C74_uncalibrated_counterexample",
    "Theia.BuilderRuns.C74_given_counterexample",
    "Theia.BuilderRuns.C74_second_constructor_counterexample",
    "Theia.BuilderRuns.C74_intrinsics_counterexample",
    "Theia.BuilderRuns.C74_extract_counterexample",
    "Theia.BuilderRuns.C74_twice_counterexample"
   ],
   "note": "The last sentence is false in each of its parts: C74_intrinsics_counterexample, C74_livelock_counterexample, C74_uncalibrated_counterexample, C74_given_counterexample, C74_global_components_counterexample (with C74_global_largest_only for all runs), C74_extract_counterexample, C74_second_constructor_counterexample, C74_twice_counterexample. The database and the feature extractor are parameters; the hybrid estimator is not modelled."
  },
  {
   "property": "C75",
   "status": "partial",
   "theorems": [
    "Theia.C75_at_most_two",
    "Theia.C75_complete",
    "Theia.C75_sound_partial",
    "Theia.C75_real_camera",
    "Theia.C75_no_pose_counterexample",
    "Theia.C75_orthogonal_counterexample",
    "Theia.C75_parallel_counterexample"
   ],
   "note": "The last sentence is false in each of its parts: C75_no_pose_counterexample (real parts of complex roots are used), C75_orthogonal_counterexample, C75_parallel_counterexample (division by zero). Exact arithmetic over the reals."
  },
  {
   "property": "C76",
   "status": "partial",
   "theorems": [
    "Theia.C76_complete",
    "Theia.C76_first_two",
    "Theia.C76_third_partial",
    "Theia.C76_collinear",
    "Theia.C76_small_triangle_counterexample",
    "Theia.C76_right_angle",
    "Theia.C76_right_angle_counterexample",
    "Theia.C76_mirror_counterexample",
    "Theia.C76_coplanar_counterexample"
   ],
   "note": "The last sentence is false in each of its parts: C76_mirror_counterexample, C76_small_triangle_counterexample, C76_right_angle_counterexample (division by zero), C76_coplanar_counterexample; C76_third_partial needs a root finder that returns only real roots. Exact arithmetic over the reals."
  },
  {
   "property": "C77",
   "status": "partial",
   "theorems": [
    "Theia.C77_pencil",
    "Theia.C77_undefined",
    "Theia.C77_fits",
    "Theia.C77_reversed_partial",
    "Theia.C77_not_singular_counterexample",
    "Theia.C77_count"
   ],
   "note": "The last sentence is false: C77_not_singular_counterexample (the coefficients of the cubic are given to the root finder in the wrong order); C77_reversed_partial shows that it holds with the order reversed. Exact arithmetic over the reals."
  },
  {
   "property": "C78",
   "status": "proved",
   "theorems": [
    "Theia.C78_eight_point",
    "Theia.C78_eight_point_exact",
    "Theia.C78_undefined"
   ],
   "note": "Exact arithmetic over the reals; the decompositions are parameters with their specifications."
  },
  {
   "property": "C79",
   "status": "proved",
   "theorems": [
    "Theia.C79_least",
    "Theia.C79_undefined",
    "Theia.C79_exact",
    "Theia.C79_degenerate_counterexample"
   ],
   "note": "The false promise is C79_degenerate_counterexample. Exact arithmetic over the reals; the decomposition is a parameter with its specification."
  },
  {
   "property": "C80",
   "status": "partial",
   "theorems": [
    "Theia.C80_two_rays_none",
    "Theia.C80_two_rays_least",
    "Theia.C80_two_rays_exact",
    "Theia.C80_relative_position",
    "Theia.C80_relative_direction_partial",
    "Theia.C80_direction_counterexample"
   ],
   "note": "The last sentence is false: C80_direction_counterexample; C80_relative_direction_partial gives the direction up to sign. Exact arithmetic over the reals."
  },
  {
   "property": "C81",
   "status": "partial",
   "theorems": [
    "Theia.C81_estimate",
    "Theia.C81_orientations",
    "Theia.C81_exhaustive_partial",
    "Theia.C81_failure",
    "Theia.C81_seed",
    "Theia.C81_cameras",
    "Theia.C81_fuel",
    "Theia.C81_ends_partial",
    "Theia.HybridRuns.C81_no_common_track_counterexample",
    "Theia.HybridRuns.C81_position_counterexample",
    "Theia.HybridRuns.C81_initialized_counterexample",
    "Theia.HybridRuns.C81_known_orientation_counterexample"
   ],
   "note": "The last sentence is false: C81_no_common_track_counterexample, C81_position_counterexample, C81_initialized_counterexample, C81_known_orientation_counterexample. What holds of the end of a run is C81_ends_partial. C81_exhaustive_partial leaves out views the clean-up drops without queueing them (C28_requeue_counterexample). Numerical parts, rotation averaging, iteration orders and schedules are quantified parameters."
  },
  {
   "property": "C82",
   "status": "partial",
   "theorems": [
    "Theia.C82_written",
    "Theia.C82_round_trip_partial",
    "Theia.C82_accuracy",
    "Theia.C82_read",
    "Theia.C82_name_counterexample",
    "Theia.C82_precision_counterexample",
    "Theia.C82_malformed_counterexample",
    "Theia.C82_type_counterexample",
    "Theia.C82_short_counterexample"
   ],
   "note": "The last sentence is false: C82_name_counterexample, C82_precision_counterexample, C82_malformed_counterexample, C82_type_counterexample, C82_short_counterexample. The rest is proved through a model of the JSON reader. How a stream prints a double is a parameter that has to be a JSON number of six digits; scientific notation is shown to be an instance."
  },
  {
   "property": "C83",
   "status": "partial",
   "theorems": [
    "Theia.C83_positions",
    "Theia.C83_cameras",
    "Theia.C83_points",
    "Theia.C83_longest",
    "Theia.C83_succeeds",
    "Theia.C83_rays_partial",
    "Theia.C83_unconstrained_counterexample",
    "Theia.C83_isolated_counterexample",
    "Theia.C83_no_points_counterexample",
    "Theia.NonlinearPositionRuns.C83_ray_counterexample"
   ],
   "note": "The last sentence is false: C83_ray_counterexample (the rays use the orientations stored in the reconstruction, which global reconstruction sets only later), C83_unconstrained_counterexample, C83_isolated_counterexample, C83_no_points_counterexample. C83_rays_partial needs the stored orientations to be the given ones. The solver, the random draws and iteration orders are quantified parameters; that the solver refuses an ordering with parameters it does not know is part of the solver."
  },
  {
   "property": "C84",
   "status": "partial",
   "theorems": [
    "Theia.C84_rotation",
    "Theia.C84_translation",
    "Theia.C84_scale",
    "Theia.C84_rotations",
    "Theia.C84_rotation_cost",
    "Theia.C84_exact_partial",
    "Theia.C84_failure_counterexample"
   ],
   "note": "The last sentence is false: C84_failure_counterexample. The rest is proved over the reals; conversion between angle-axis vectors and matrices is exact, and the solver is a parameter."
  },
  {
   "property": "C85",
   "status": "partial",
   "theorems": [
    "Theia.C85_portable",
    "Theia.C85_truncated",
    "Theia.C85_sift_partial",
    "Theia.C85_sift_stable",
    "Theia.C85_sift_byte_order",
    "Theia.C85_sift_sizes",
    "Theia.C85_sift_length_counterexample",
    "Theia.C85_sift_truncated_counterexample",
    "Theia.C85_sift_range_counterexample"
   ],
   "note": "The last sentence is false: C85_sift_length_counterexample, C85_sift_range_counterexample, C85_sift_truncated_counterexample. The rest is proved; doubles and floats are bit patterns, the rounding of descriptors is that of floats."
  },
  {
   "property": "C86",
   "status": "partial",
   "theorems": [
    "Theia.C86_colors",
    "Theia.C86_exact_partial",
    "Theia.C86_frame",
    "Theia.C86_grayscale_counterexample",
    "Theia.C86_empty_track_counterexample",
    "Theia.C86_slash_counterexample",
    "Theia.C86_schedule_counterexample"
   ],
   "note": "The last sentence is false: C86_grayscale_counterexample, C86_empty_track_counterexample, C86_schedule_counterexample, C86_slash_counterexample. The rest is proved; single precision is rounding of rationals to 24 bits without overflow or underflow."
  },
  {
   "property": "C87",
   "status": "proved",
   "theorems": [
    "Theia.C87_test",
    "Theia.C87_good_models",
    "Theia.C87_monotone",
    "Theia.C87_threshold",
    "Theia.C87_empty_counterexample"
   ],
   "note": "Proved over the reals. Without residuals the ratio is zero over zero: C87_empty_counterexample."
  },
  {
   "property": "C88",
   "status": "partial",
   "theorems": [
    "Theia.C88_definition",
    "Theia.C88_unique",
    "Theia.C88_longitude",
    "Theia.C88_rotation",
    "Theia.C88_mirror",
    "Theia.C88_equator_partial",
    "Theia.C88_poles_partial",
    "Theia.C88_centre_counterexample"
   ],
   "note": "Not proved: the precision of latitude and altitude away from equator and poles. False: every point has coordinates (C88_centre_counterexample). The rest is proved over the reals with the constants of the source."
  },
  {
   "property": "C89",
   "status": "partial",
   "theorems": [
    "Theia.C89_calibrated_partial",
    "Theia.C89_uncalibrated",
    "Theia.C89_cost_counts",
    "Theia.C89_units",
    "Theia.C89_features",
    "Theia.C89_distortion_counterexample",
    "Theia.C89_visibility_counterexample",
    "Theia.C89_no_model_counterexample",
    "Theia.C89_abort_counterexample"
   ],
   "note": "The last sentence is false: C89_visibility_counterexample, C89_no_model_counterexample, C89_abort_counterexample, C89_distortion_counterexample, and C89_uncalibrated shows that use_mle is ignored. The rest is proved over the reals; the five-point and eight-point solvers, the focal lengths from a fundamental matrix and the singular value decomposition are parameters, and LMED is not covered."
  },
  {
   "property": "C90",
   "status": "partial",
   "theorems": [
    "Theia.C90_all_inliers",
    "Theia.C90_plane",
    "Theia.C90_plane_exact",
    "Theia.C90_plane_small_counterexample",
    "Theia.C90_homography",
    "Theia.C90_fundamental",
    "Theia.C90_essential",
    "Theia.C90_position_partial",
    "Theia.C90_direction_counterexample"
   ],
   "note": "Proved for planes, homographies, fundamental and essential matrices (the five point solver is a parameter, the others are those of C78 and C79). Partial for relative positions: the sign of the direction is not determined, and a counterexample returns the opposite one. Counterexample for planes: the tolerance for points on a line is absolute, so for a small scene success is reported with an uninitialised plane."
  },
  {
   "property": "C91",
   "status": "partial",
   "theorems": [
    "Theia.C91_known_orientation_partial",
    "Theia.C91_known_orientation_exact",
    "Theia.C91_known_behind_counterexample",
    "Theia.C91_horizon_counterexample",
    "Theia.C91_known_units_counterexample",
    "Theia.C91_calibrated_partial",
    "Theia.C91_calibrated_behind_counterexample",
    "Theia.C91_uncalibrated",
    "Theia.C91_uncalibrated_uninitialised_counterexample"
   ],
   "note": "Partial: points behind the camera are inliers (counterexamples for a known orientation and for calibrated cameras). With a known orientation the threshold is applied in a plane of the world, not in the image, so its meaning depends on the orientation, and a camera that looks horizontally has no inliers at all (counterexamples). For uncalibrated cameras the four point solver is a parameter; if it finds nothing, success is reported with uninitialised values (counterexample)."
  },
  {
   "property": "C92",
   "status": "partial",
   "theorems": [
    "Theia.C92_too_few",
    "Theia.C92_best_pair",
    "Theia.C92_sampled_pairs",
    "Theia.C92_exact_partial",
    "Theia.C92_sign_counterexample"
   ],
   "note": "Partial: the point of a pair is taken only if the singular value decomposition happens to return the vector with the right sign, so exact observations may not be triangulated at all, and then success is reported with the point as it was before the call (counterexample). Proved: optimality over all pairs, exact inliers, all inliers for exact features if the sign is right for one pair."
  },
  {
   "property": "C93",
   "status": "partial",
   "theorems": [
    "Theia.C93_size",
    "Theia.C93_focal",
    "Theia.C93_focal_square",
    "Theia.C93_database",
    "Theia.C93_gps_partial",
    "Theia.C93_south_counterexample",
    "Theia.C93_altitude_counterexample",
    "Theia.C93_gps_without_focal_counterexample",
    "Theia.C93_model_with_make_counterexample",
    "Theia.C93_unreadable_counterexample"
   ],
   "note": "Partial: latitudes in the south come out positive (the sign of the longitude is changed instead), altitudes below the sea level too, GPS data is not read when no focal length is found, models that contain the maker are not found in the database, and a file that cannot be opened is not reported (a counterexample each). Proved: size, principal point, exact characterization of the focal length, its physical meaning for square pixels, the database lookup, and GPS where the counterexamples do not apply."
  },
  {
   "property": "C94",
   "status": "partial",
   "theorems": [
    "Theia.RelativePosition.C94_unit",
    "Theia.RelativePosition.C94_exact_partial",
    "Theia.RelativePosition.C94_far_points_counterexample"
   ],
   "note": "Partial: the direction is recovered only if more than half of the matches are of finite points (C94_far_points_counterexample shows the sign is wrong otherwise); nothing is proved about the minimisation for inexact matches. Doubles are reals; the left singular vectors are a parameter assumed to belong to a singular value decomposition."
  },
  {
   "property": "C95",
   "status": "partial",
   "theorems": [
    "Theia.Undistort.C95_camera_partial",
    "Theia.Undistort.C95_size",
    "Theia.Undistort.C95_image",
    "Theia.Undistort.C95_input_changed_counterexample",
    "Theia.Undistort.C95_crop_counterexample",
    "Theia.Undistort.C95_fisheye_counterexample",
    "Theia.Undistort.C95_reconstruction_partial",
    "Theia.Undistort.C95_shared_intrinsics_counterexample"
   ],
   "note": "Proved: for the four models other than fisheye the new camera is a perspective camera with the same pose, focal length, aspect ratio and skew, its size is given exactly and is at most the old one; UndistortImage is right for two cameras with separate intrinsics; UndistortReconstruction removes exactly the observations outside the new image and keeps views and tracks in agreement. False of the code: copying a camera shares the intrinsics, so the constant input camera loses its distortion, the image is only cropped and features are not moved; views with shared intrinsics have their principal point scaled repeatedly; the fisheye model with zero coefficients is not perspective. Real arithmetic."
  },
  {
   "property": "C96",
   "status": "partial",
   "theorems": [
    "Theia.FivePoint.C96_result",
    "Theia.FivePoint.C96_epipolar",
    "Theia.FivePoint.C96_complete_partial",
    "Theia.FivePoint.C96_motion_partial"
   ],
   "note": "Proved: when it aborts, the bound of ten, the epipolar constraint for five points, and that every essential matrix that fits all points is found up to scale, provided the matrices that fit form a space of dimension four, the ten cubic equations can be solved for ten of their monomials and the eigenvalue has only one eigenvector. Missing: that nothing but essential matrices is found. The output is not cleared, so the call also returns true when matrices were in it before. The Gaussian elimination, the singular value decomposition, the solution of the linear system and the eigenvalues are parameters with their specification. Real arithmetic."
  },
  {
   "property": "C97",
   "status": "partial",
   "theorems": [
    "Theia.AlignRotations.C97_result",
    "Theia.AlignRotations.C97_relative",
    "Theia.AlignRotations.C97_no_worse",
    "Theia.AlignRotations.C97_best",
    "Theia.AlignRotations.C97_recovers_partial",
    "Theia.AlignRotations.C97_turned_away_counterexample"
   ],
   "note": "Proved: when it aborts, one common rotation for all orientations whatever the solver does, relative rotations kept, no worse than before if the solver does not increase the cost, best and exact if it reaches the minimum. False of the code: the difference of angle-axis vectors is minimised, so a given orientation written with an angle above pi turns orientations away that are aligned already. Ceres is a parameter. Real arithmetic."
  },
  {
   "property": "C98",
   "status": "partial",
   "theorems": [
    "Theia.TwoViewAdjustment.C98_two_views",
    "Theia.TwoViewAdjustment.C98_reaches",
    "Theia.TwoViewAdjustment.C98_angular",
    "Theia.TwoViewAdjustment.C98_angular_error_partial",
    "Theia.TwoViewAdjustment.C98_true_motion_partial",
    "Theia.TwoViewAdjustment.C98_quarter_turn_counterexample",
    "Theia.TwoViewAdjustment.C98_noise_counterexample"
   ],
   "note": "Proved: what is constant and what is free (both directions), when the calls abort and fail, that costs do not grow, that the position keeps length one unless a step leads to the origin, and that the angular error is the least squared distance of the two rays from a plane through the baseline if the rotation is its own inverse. False of the code: one of the two factors uses the rotation in place of its inverse, so for a quarter turn about the axis and any scene of near points the true motion has a larger error than no turn at all, and the least noise makes the evaluation and with it the call fail. The solver is its trust region loop with arbitrary steps; reprojection errors are a parameter. Real arithmetic."
  },
  {
   "property": "C99",
   "status": "partial",
   "theorems": [
    "Theia.PartialRotation.C99_abort",
    "Theia.PartialRotation.C99_about_axis",
    "Theia.PartialRotation.C99_three_finds",
    "Theia.PartialRotation.C99_three_no_rotation",
    "Theia.PartialRotation.C99_three_sound_partial",
    "Theia.PartialRotation.C99_four_finds",
    "Theia.PartialRotation.C99_four_no_rotation",
    "Theia.PartialRotation.C99_four_sound_partial",
    "Theia.PartialRotation.C99_sim_finds",
    "Theia.PartialRotation.C99_sim_no_rotation",
    "Theia.PartialRotation.C99_sim_scales",
    "Theia.PartialRotation.C99_sim_sound_partial",
    "Theia.PartialRotation.C99_three_loses_rotation_counterexample",
    "Theia.PartialRotation.C99_three_complex_counterexample",
    "Theia.PartialRotation.C99_sim_negative_scale_counterexample",
    "Theia.PartialRotation.C99_sim_old_scales_counterexample"
   ],
   "note": "Proved: the abort condition, that rotations are about the axis, that the true pose is found with and without rotation when the translation is determined and the matrix of the problem without rotation is above its threshold, that three point translations have the length of the sine of half the angle (the header says one), and that the results explain the rays if the eigenvalues are real. False of the code: three points uses eigenvalues that are not real as if they were, a scene where the matrix is singular for every turn loses the rotation although the comment says this happens only without rotation, the similarity gives negative scales without rotation, and it appends scales to those of an earlier call. Real arithmetic; eigenvalues, singular vectors and null spaces are parameters with their defining properties; FullPivLU decides by the determinant."
  },
  {
   "property": "C100",
   "status": "partial",
   "theorems": [
    "Theia.C100_residual",
    "Theia.C100_project_point",
    "Theia.C100_scale_partial",
    "Theia.C100_motion",
    "Theia.C100_loss",
    "Theia.C100_cost",
    "Theia.C100_failure",
    "Theia.C100_fisheye_scale_counterexample",
    "Theia.C100_near_scale_counterexample",
    "Theia.C100_behind_counterexample",
    "Theia.C100_width_counterexample"
   ],
   "note": "Proved: the residual of the five models against their textbook equations, agreement with ProjectPoint, independence of the coordinate system and, for all models but the fisheye, of the homogeneous scale, robustness of the six losses for positive widths, the cost of a whole reconstruction, and that one point near the centre of a camera makes the whole evaluation fail. False of the code: the fisheye model and the threshold at the centre use homogeneous coordinates that are not normalised, so both depend on their scale; points behind the camera can have residual zero; the Huber loss of width zero is zero everywhere. Real arithmetic; derivatives, the search and the regimes of series in the field of view model, of points near the axis in the fisheye model and of tiny distortion in the division model are outside the equations (see C46). Ceres' losses and its treatment of failed evaluations are modelled from Ceres 1.14."
  },
  {
   "property": "C101",
   "status": "partial",
   "theorems": [
    "Theia.C101_partition",
    "Theia.C101_cost",
    "Theia.C101_eigenvector",
    "Theia.C101_total_partial",
    "Theia.C101_small_counterexample",
    "Theia.C101_fallback_counterexample",
    "Theia.C101_reuse_counterexample",
    "Theia.C101_outputs_counterexample"
   ],
   "note": "Proved: the subgraphs divide the nodes, the cost is the normalized cut and the best of the ten tested ones, the matrices represent the graph, the eigenvalue is a lower bound of all cuts, and the only failures are fewer than ten nodes and the eigensolver. False of the code: graphs with fewer than ten nodes make Spectra throw; when three quarters of the eigenvector equal its largest entry no threshold gives a cut and 10^12 is reported with success; an object keeps the nodes of earlier calls; the output sets are not emptied. Options::num_cuts_to_test is never read. Exact arithmetic; the eigensolver is a parameter."
  },
  {
   "property": "C102",
   "status": "partial",
   "theorems": [
    "Theia.C102_predictor",
    "Theia.C102_predictor_scale",
    "Theia.C102_predictor_useless",
    "Theia.C102_ecdf",
    "Theia.C102_ratio",
    "Theia.C102_weights",
    "Theia.C102_sample",
    "Theia.C102_ends_partial",
    "Theia.C102_never_ends",
    "Theia.C102_hang_counterexample",
    "Theia.C102_size_counterexample",
    "Theia.C102_columns_counterexample",
    "Theia.C102_sign_counterexample",
    "Theia.C102_posterior_counterexample",
    "Theia.C102_cdf_counterexample"
   ],
   "note": "Proved: the predictor in closed form and its independence of the unit, the empirical distribution of the library, the least squares property of the inlier ratio, ranges of probabilities and weights, what samples consist of and exactly when sampling ends. A threshold up to 1/e makes the predictor accept everything. False of the code: the density of the negated distances is evaluated at the distances, so with a fit bounded by zero all probabilities are one; the library's extreme value distribution function is 0 beyond the end of a distribution with negative shape; sampling never ends with too few correspondences of positive weight; the number of data points is ignored; a matrix with one column is read out of bounds. Real arithmetic; the fits, the incomplete gamma function and the solver of the quadratic program are parameters."
  },
  {
   "property": "C103",
   "status": "partial",
   "theorems": [
    "Theia.C103_results",
    "Theia.C103_line",
    "Theia.C103_depth",
    "Theia.C103_consistent",
    "Theia.C103_complete_partial",
    "Theia.C103_centred_counterexample",
    "Theia.C103_error_partial",
    "Theia.C103_none_counterexample",
    "Theia.C103_axis_counterexample",
    "Theia.C103_far_counterexample",
    "Theia.C103_estimator",
    "Theia.C103_estimator_error_partial",
    "Theia.C103_range_counterexample"
   ],
   "note": "Proved: what is appended, exactness of the first two rows, optimality of the last, completeness for pairs that determine the answer, and when the error is zero for lens parameters that are not positive. False of the code: with a zero in the corner of the first row, as for the identity, the call divides by zero; it returns true when all solutions are out of range; the height of a left point on the vertical axis has no influence; the error of a right pair is not zero far from the centre with a positive parameter; ranges of all correspondences but the first are ignored. A discriminant rounded to zero is excluded by hypothesis. Real arithmetic; the decompositions are parameters."
  },
  {
   "property": "C104",
   "status": "partial",
   "theorems": [
    "Theia.C104_views",
    "Theia.C104_calibration",
    "Theia.C104_tracks",
    "Theia.C104_pairs",
    "Theia.C104_succeeds_partial",
    "Theia.C104_false",
    "Theia.C104_outside",
    "Theia.C104_stale",
    "Theia.C104_reversed",
    "Theia.C104_same_name",
    "Theia.C104_second_dataset"
   ],
   "note": "Partial because the code falsifies parts of the claim: a record naming an image outside the component is a null dereference (C104_outside), a final newline in EGs.txt or cc.txt is read as one more record made of unassigned variables, which may replace the last pair (C104_stale), records naming the larger id first are stored unswapped (C104_reversed), two kept images with the same file name in different directories end the program (C104_same_name), and a reconstruction that has handed out ids before shifts all positions (C104_second_dataset). How characters become numbers is not modelled."
  },
  {
   "property": "C105",
   "status": "partial",
   "theorems": [
    "Theia.C105_memory",
    "Theia.C105_schedule",
    "Theia.C105_limit",
    "Theia.C105_disk",
    "Theia.C105_disk_each_partial",
    "Theia.C105_completes",
    "Theia.C105_images",
    "Theia.C105_missing_counterexample",
    "Theia.C105_reused_counterexample",
    "Theia.C105_after_disk_counterexample",
    "Theia.C105_same_name_counterexample"
   ],
   "note": "Partial because the code falsifies parts of the claim: the call returns true although an image does not exist and leaves what was in its vectors (C105_missing_counterexample); vectors that are used again keep the features of the earlier call when the detector only appends, as the one for SIFT does (C105_reused_counterexample); after ExtractToDisk the same object writes to disk and returns empty vectors from Extract (C105_after_disk_counterexample); two images with the same name in different directories overwrite each other's file, in the order of the threads (C105_same_name_counterexample). Decoding images and detecting features are parameters; writing a file is one step."
  },
  {
   "property": "C106",
   "status": "partial",
   "theorems": [
    "Theia.C106_strecha",
    "Theia.C106_name_partial",
    "Theia.C106_cameras_partial",
    "Theia.C106_last",
    "Theia.C106_reads",
    "Theia.C106_sizes",
    "Theia.C106_centre_partial",
    "Theia.C106_missing",
    "Theia.C106_populates",
    "Theia.C106_calibration_counterexample",
    "Theia.C106_name_counterexample",
    "Theia.C106_shared_counterexample"
   ],
   "note": "Partial because the code falsifies parts of the claim: all cameras share the calibration of the last file (C106_calibration_counterexample; C106_cameras_partial is for datasets whose calibration matrices are multiples of each other), names are cut at the first .camera (C106_name_counterexample), and views that share intrinsics share one principal point, so that with images of different sizes one of them is not centred (C106_shared_counterexample; C106_centre_partial is for equal sizes). How characters become numbers and decoding images are not modelled; cameras are pinhole cameras, as new views have them."
  },
  {
   "property": "C107",
   "status": "partial",
   "theorems": [
    "Theia.C107_detect",
    "Theia.C107_reuse_partial",
    "Theia.C107_reuse_counterexample",
    "Theia.C107_pairs",
    "Theia.C107_compute_partial",
    "Theia.C107_compute_abort",
    "Theia.C107_compute_stale",
    "Theia.C107_thresholds_counterexample",
    "Theia.C107_given_partial",
    "Theia.C107_given_abort",
    "Theia.C107_base",
    "Theia.C107_akaze",
    "Theia.C107_octave",
    "Theia.C107_create",
    "Theia.C107_density_partial",
    "Theia.C107_density_counterexample"
   ],
   "note": "Partial because the code falsifies parts of the claim. The gradient that VLFeat keeps per octave survives the start of the next image: C107_reuse_counterexample, and C107_compute_stale for every two images of one size (C107_reuse_partial has the condition under which reuse is right; C107_detect is for a new extractor). Describing a given keypoint first leaves VLFeat's own thresholds in the filter (C107_thresholds_counterexample). Keypoints that cannot be described are kept with uninitialised numbers (C107_compute_partial, C107_given_partial). The general ComputeDescriptors never advances and does not return (C107_base). The edge threshold is below one and works the other way round (C107_density_counterexample). Pixels, gradients and histograms are parameters; the library's own extractors are used once per image by FeatureExtractor."
  },
  {
   "property": "C108",
   "status": "partial",
   "theorems": [
    "Theia.C108_wrap",
    "Theia.C108_read",
    "Theia.C108_counts",
    "Theia.C108_cut_partial",
    "Theia.C108_cut_counterexample",
    "Theia.C108_lines_counterexample",
    "Theia.C108_abort"
   ],
   "note": "Partial because the code falsifies parts of the claim. A last line with too few numbers is accepted and the rest of the descriptor is uninitialised memory (C108_cut_counterexample; C108_cut_partial is for cuts after whole lines). The 128 numbers must be split into lines of twenty, which the documented format does not say (C108_lines_counterexample). A null keypoint vector ends the program although the header allows it (C108_abort). Numbers above 255 are taken modulo 256 (C108_wrap)."
  },
  {
   "property": "C109",
   "status": "partial",
   "theorems": [
    "Theia.C109_similarity",
    "Theia.C109_rigid",
    "Theia.C109_similarity_exact",
    "Theia.C109_negative_scale",
    "Theia.C109_rigid_exact",
    "Theia.C109_carry_back",
    "Theia.C109_rigid_similarity",
    "Theia.C109_single",
    "Theia.C109_models",
    "Theia.C109_exhaustive"
   ],
   "note": "Partial because the code falsifies parts of the claim: a negative scale is accepted and gives the error zero for points behind the cameras (C109_negative_scale), and the exhaustive variant always ends the program (C109_exhaustive). C109_similarity, C109_rigid and C109_single are the results for RANSAC and PROSAC, C109_similarity_exact and C109_rigid_exact the exact cases, C109_carry_back and C109_rigid_similarity relate the two forms. gDLS and UPnP are parameters: nothing is claimed about which solutions they find."
  },
  {
   "property": "C110",
   "status": "partial",
   "theorems": [
    "Theia.C110_history_partial",
    "Theia.C110_returns",
    "Theia.C110_abort",
    "Theia.C110_untrained",
    "Theia.C110_dimension"
   ],
   "note": "Partial because the code falsifies parts of the claim: an image before the first training is read through a null pointer (C110_untrained), and the dimension is not compared with that of the training, so that more dimensions read past the means and fewer give a vector of another size (C110_dimension). C110_history_partial is the result for all histories, C110_returns says when calls return, C110_abort when they end the program. VLFeat's fitting and encoding are parameters."
  },
  {
   "property": "C111",
   "status": "proved",
   "theorems": [
    "Theia.C111_report",
    "Theia.C111_order",
    "Theia.C111_median_unique",
    "Theia.C111_median_even",
    "Theia.C111_radians"
   ],
   "note": "C111_report and C111_order are the claim, C111_median_unique shows that the median is determined. Two findings: for two different errors the larger is shown as the median (C111_median_even), and the program that compares reconstructions adds angles in radians to a histogram with boundaries in degrees, so that no rotation error is ever counted at five or more (C111_radians). Rational arithmetic; the text of the message is not modelled."
  },
  {
   "property": "C112",
   "status": "partial",
   "theorems": [
    "Theia.C112_served_partial",
    "Theia.C112_fixed",
    "Theia.C112_once",
    "Theia.C112_missing",
    "Theia.C112_stale"
   ],
   "note": "Partial because the code falsifies part of the claim: a missing file ends the program instead of giving the documented null pointer (C112_missing). C112_served_partial is the result for all histories, C112_fixed for files that do not change, C112_once says that no file is read twice, C112_stale that changed files are not noticed while their names are in the cache. Reading an existing file gives an arbitrary value (an empty image if it is not an image). Calls are steps because of the mutex of the cache."
  },
  {
   "property": "C113",
   "status": "proved",
   "theorems": [
    "Theia.C113_abort",
    "Theia.C113_normal",
    "Theia.C113_normal_shape",
    "Theia.C113_uniform"
   ],
   "note": "Over the reals. C113_normal (integral, mean, variance), C113_normal_shape (symmetry and monotonicity in one equivalence), C113_uniform, C113_abort."
  },
  {
   "property": "C114",
   "status": "partial",
   "theorems": [
    "Theia.C114_whole_partial",
    "Theia.C114_error",
    "Theia.C114_huge"
   ],
   "note": "Partial because the code falsifies part of the claim: a text with as many characters as the largest int overflows (undefined behaviour), of longer ones nothing is returned (C114_huge). C114_whole_partial is the result for all other lengths, C114_error for encoding errors. What the format makes is a parameter; vsnprintf is modelled by the C standard. The comparison with the size of the buffer is unsigned, so that the branch for errors is never taken; this is modelled and makes no difference."
  },
  {
   "property": "C115",
   "status": "partial",
   "theorems": [
    "Theia.C115_pair_contract",
    "Theia.C115_matrix_contract",
    "Theia.C115_first_shared_partial",
    "Theia.C115_matrix_last_partial",
    "Theia.C115_second_shared"
   ],
   "note": "Partial because the code falsifies part of the claim: pairs of ids that share the second id can collide (C115_second_shared, with ids below 3000). The first half is proved in full (C115_pair_contract, C115_matrix_contract); the second half for the last component (C115_first_shared_partial, C115_matrix_last_partial). size_t has 64 bits; the hash functions of the components are parameters."
  }
 ]
}