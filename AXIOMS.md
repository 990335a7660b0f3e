# Axioms of the property theorems

Generated by `tools/axioms.py` from `#print axioms`.

## Classical.choice, Quot.sound, propext

* `Theia.C01_views_and_tracks_agree`
* `Theia.C01_no_duplicates_no_dangling`
* `Theia.C02_names_and_ids_correspond`
* `Theia.C02_addView_fails_iff`
* `Theia.C02_addView_adds_exactly_one`
* `Theia.C02_ids_never_reused`
* `Theia.C03_groups_partition_views`
* `Theia.C03_same_group_iff_shared_intrinsics`
* `Theia.C04_removeView_exact`
* `Theia.C04_removeTrack_exact`
* `Theia.C05_addTrack_aborts`
* `Theia.C05_addTrack_exact`
* `Theia.C05_addObservation_exact`
* `Theia.C06_subreconstruction_exact`
* `Theia.C06_subreconstruction_consistent`
* `Theia.C08_auto_group_is_private_partial`
* `Theia.C09_refines_edge_map`
* `Theia.C09_symmetric_irreflexive`
* `Theia.C09_counts`
* `Theia.C09_return_values`
* `Theia.C10_subgraph_exact`
* `Theia.C10_largest_component`
* `Theia.C11_keeps_one_largest_component`
* `Theia.C12_components_are_connectivity`
* `Theia.C13_size_limit_respected`
* `Theia.C13_refused_only_when_too_large`
* `Theia.C13_components_only_grow`
* `Theia.C14_minimum_spanning_tree`
* `Theia.C15_triplets_exact`
* `Theia.C16_tracks_consistent`
* `Theia.C16_tracks_complete`
* `Theia.C17_cache_refines_history`
* `Theia.C17_fetches_transparent`
* `Theia.C18_fifo_at_most_once`
* `Theia.C18_destructor_waits`
* `Theia.C18_no_deadlock`
* `Theia.C18_destructor_returns`
* `Theia.C18_abort_only_add_after_stop`
* `Theia.C19_schedule_independent`
* `Theia.C19_all_tracks_requested`
* `Theia.C20_best_model`
* `Theia.C21_in_range`
* `Theia.C21_antitone`
* `Theia.C21_failure_probability_partial`
* `Theia.C21_truncation_counterexample`
* `Theia.C22_random_minimal`
* `Theia.C22_random_uniform`
* `Theia.C22_exhaustive_cycles`
* `Theia.C22_prosac_minimal`
* `Theia.C22_prosac_returns`
* `Theia.C22_prosac_counterexample`
* `Theia.C23_inlier_support`
* `Theia.C23_mle`
* `Theia.C23_lmed_cost`
* `Theia.C23_lmed_inliers`
* `Theia.C23_lmed_odd_counterexample`
* `Theia.C23_lmed_single_counterexample`
* `Theia.C24_every_outcome`
* `Theia.C24_uniform`
* `Theia.C25_no_value_lost`
* `Theia.C25_printed`
* `Theia.C26_score`
* `Theia.C26_order_independent`
* `Theia.C26_add_point`
* `Theia.C27_any_views`
* `Theia.C27_selection`
* `Theia.C27_all_views`
* `Theia.C27_shortest_track_counterexample`
* `Theia.C27_ranked_by_id_counterexample`
* `Theia.C28_constrained_partial`
* `Theia.C28_fixpoint`
* `Theia.C28_keeps_core`
* `Theia.C28_queue_partial`
* `Theia.C29_problem`
* `Theia.C29_full`
* `Theia.C29_track`
* `Theia.C29_view`
* `Theia.C30_all_pairs`
* `Theia.C30_match_images`
* `Theia.C30_intersect`
* `Theia.C30_brute_force`
* `Theia.C30_symmetric`
* `Theia.C30_few_descriptors_counterexample`
* `Theia.C31_mem_features`
* `Theia.C31_mem_priors`
* `Theia.C31_mem_matches`
* `Theia.C31_mem_names`
* `Theia.C31_mem_file`
* `Theia.C31_rocks_matches_partial`
* `Theia.C32_match_images`
* `Theia.C32_match_pair`
* `Theia.C32_two_candidates_counterexample`
* `Theia.C33_round_trip`
* `Theia.C33_order`
* `Theia.C33_endpoints`
* `Theia.C33_corner_counterexample`
* `Theia.C33_groups`
* `Theia.C34_pairs`
* `Theia.C34_nearest`
* `Theia.C35_verified`
* `Theia.C36_eval`
* `Theia.C36_remove_leading_zeros`
* `Theia.C36_differentiate`
* `Theia.C36_multiply`
* `Theia.C36_add`
* `Theia.C36_divide`
* `Theia.C36_constant_divisor_counterexample`
* `Theia.C36_leading_zeros_counterexample`
* `Theia.C37_quadratic`
* `Theia.C37_linear`
* `Theia.C37_double_zero_counterexample`
* `Theia.C37_find_quadratic`
* `Theia.C37_reals`
* `Theia.C37_find_linear`
* `Theia.C37_reals_counterexample`
* `Theia.C37_cubic_partial`
* `Theia.C37_cubic_counterexample`
* `Theia.C37_cubic_single`
* `Theia.C37_quartic`
* `Theia.C37_quartic_counterexample`
* `Theia.C38_solutions`
* `Theia.C38_identity`
* `Theia.C38_solve`
* `Theia.C38_pivot_counterexample`
* `Theia.C38_threshold_counterexample`
* `Theia.C39_transform`
* `Theia.C39_reprojection`
* `Theia.C39_inverse`
* `Theia.C40_swap`
* `Theia.C40_geometry`
* `Theia.C40_involution`
* `Theia.C40_involution_small`
* `Theia.C40_relative`
* `Theia.C40_relative_normalized`
* `Theia.C40_swap_relative`
* `Theia.C40_stored_edge`
* `Theia.C41_tree`
* `Theia.C41_consistent`
* `Theia.C41_no_edges_aborts`
* `Theia.C41_stale_counterexample`
* `Theia.C42_cycles`
* `Theia.C43_orientations`
* `Theia.C43_idempotent`
* `Theia.C44_total_order`
* `Theia.C44_filter`
* `Theia.C44_consistent`
* `Theia.C44_missing_orientation`
* `Theia.C45_nvm`
* `Theia.C45_nvm_round_trip_partial`
* `Theia.C45_colmap`
* `Theia.C45_colmap_refuses`
* `Theia.C45_ply`
* `Theia.C45_nvm_estimated_counterexample`
* `Theia.C45_nvm_distortion_counterexample`
* `Theia.C45_nvm_import_aborts_counterexample`
* `Theia.C45_nvm_other_model_counterexample`
* `Theia.C45_colmap_distortion_counterexample`
* `Theia.C45_colmap_mixed_group_counterexample`
* `Theia.C46_pinhole`
* `Theia.C46_pinhole_undistort_distort`
* `Theia.C46_pinhole_distort_undistort`
* `Theia.C46_pinhole_radial`
* `Theia.C46_pinhole_strong_counterexample`
* `Theia.C46_rt_distortion`
* `Theia.C46_rt`
* `Theia.C46_division_pixel`
* `Theia.C46_division_point`
* `Theia.C46_division_counterexample`
* `Theia.C46_fov_partial`
* `Theia.C46_fov_counterexample`
* `Theia.C46_fisheye_partial`
* `Theia.C46_fisheye_counterexample`
* `Theia.C46_camera_ray`
* `Theia.C46_camera_point`
* `Theia.C46_projection_matrix`
* `Theia.C48_queries`
* `Theia.C48_effects`
* `Theia.C49_midpoint`
* `Theia.C49_midpoint_exact`
* `Theia.C49_midpoint_parallel`
* `Theia.C49_midpoint_abort`
* `Theia.C49_cheirality`
* `Theia.C49_cheirality_exact`
* `Theia.C49_cheirality_parallel`
* `Theia.C49_sufficient_angle`
* `Theia.C49_epipolar`
* `Theia.C49_triangulate_exact`
* `Theia.C49_correction_counterexample`
* `Theia.C49_estimator`
* `Theia.C49_estimator_sign_counterexample`
* `Theia.C49_nview`
* `Theia.C49_nview_svd_partial`
* `Theia.C49_nview_svd_counterexample`
* `Theia.C50_known_exact`
* `Theia.C50_known_partial`
* `Theia.C50_localize`
* `Theia.C50_frame`
* `Theia.C51_added`
* `Theia.C51_two_draws`
* `Theia.C51_all_matched_counterexample`
* `Theia.C51_reuse_counterexample`
* `Theia.C52_minimize`
* `Theia.C53_reprojection`
* `Theia.C53_medians`
* `Theia.C53_origin_counterexample`
* `Theia.C53_degenerate_counterexample`
* `Theia.C55_group_intrinsics`
* `Theia.C55_returns`
* `Theia.C56_rotations`
* `Theia.C56_decompose`
* `Theia.C56_same_essential`
* `Theia.C56_best_count`
* `Theia.C56_recovers`
* `Theia.C57_from_projections`
* `Theia.C57_to_projections`
* `Theia.C57_projections_round_trip`
* `Theia.C57_compose`
* `Theia.C57_compose_round_trip`
* `Theia.C57_focal_lengths`
* `Theia.C57_focal_lengths_valid`
* `Theia.C57_focal_vertical_counterexample`
* `Theia.C57_focal_sideways_counterexample`
* `Theia.ProjectionMatrix.C58_rq`
* `Theia.ProjectionMatrix.C58_decompose`
* `Theia.ProjectionMatrix.C58_unique`
* `Theia.ProjectionMatrix.C58_compose`
* `Theia.ProjectionMatrix.C58_round_trip`
* `Theia.ProjectionMatrix.C58_intrinsics`
* `Theia.ProjectionMatrix.C58_calibration`
* `Theia.ProjectionMatrix.C58_initialize`
* `Theia.ProjectionMatrix.C58_initialize_singular_counterexample`
* `Theia.PoseUtil.C59_project_rotation`
* `Theia.PoseUtil.C59_project_fixed`
* `Theia.PoseUtil.C59_project_nearest_partial`
* `Theia.PoseUtil.C59_project_negative_counterexample`
* `Theia.PoseUtil.C59_sampson_minimal`
* `Theia.PoseUtil.C59_sampson_zero`
* `Theia.PoseUtil.C59_sampson_defined`
* `Theia.PoseUtil.C59_sampson_symmetric`
* `Theia.PoseUtil.C59_normalize_defined`
* `Theia.PoseUtil.C59_normalize`
* `Theia.PoseUtil.C59_normalize_average`
* `Theia.PoseUtil.C59_normalize_average_counterexample`
* `Theia.C60_estimated_part`
* `Theia.C60_estimated_lists`
* `Theia.C61_load`
* `Theia.C61_round_trip_partial`
* `Theia.C61_same_projection`
* `Theia.C61_features_truncated_counterexample`
* `Theia.C61_origin_lost_counterexample`
* `Theia.C61_same_base_name_counterexample`
* `Theia.C61_no_points_counterexample`
* `Theia.C61_reused_reconstruction_counterexample`
* `Theia.C62_least_squares`
* `Theia.C62_consistent`
* `Theia.C62_history`
* `Theia.C62_initial_guess_counterexample`
* `Theia.C62_second_call_counterexample`
* `Theia.C63_defined`
* `Theia.C63_least_squares`
* `Theia.C63_least_squares_unweighted`
* `Theia.C63_recovered`
* `Theia.C63_reconstructions`
* `Theia.C63_unestimated_view_counterexample`
* `Theia.C64_baselines`
* `Theia.C64_median`
* `Theia.C64_sizes`
* `Theia.C64_common_tracks`
* `Theia.C64_common_tracks_fatal`
* `Theia.C64_least_squares`
* `Theia.C64_recovered`
* `Theia.C64_no_triangle`
* `Theia.C64_coplanar_counterexample`
* `Theia.C64_identity_counterexample`
* `Theia.C64_unseen_counterexample`
* `Theia.C64_reuse_counterexample`
* `Theia.C65_roots`
* `Theia.C65_constant`
* `Theia.C65_square_counterexample`
* `Theia.C65_frexp_counterexample`
* `Theia.C65_minimize`
* `Theia.C66_construct`
* `Theia.C66_exact`
* `Theia.C66_converges`
* `Theia.C66_stops`
* `Theia.C66_no_iterations`
* `Theia.C67_construct`
* `Theia.C67_converges`
* `Theia.C67_stops`
* `Theia.C67_violation_counterexample`
* `Theia.C68_construct`
* `Theia.C68_bounds`
* `Theia.C68_converges`
* `Theia.C68_stops`
* `Theia.C68_violation_counterexample`
* `Theia.C68_nonconvex_counterexample`
* `Theia.C68_asymmetric_counterexample`
* `Theia.C69_total`
* `Theia.C69_none`
* `Theia.C69_missing`
* `Theia.C69_gauge`
* `Theia.C69_consistent`
* `Theia.C69_irls`
* `Theia.C69_history`
* `Theia.C69_reuse_counterexample`
* `Theia.C70_total`
* `Theia.C70_repeat`
* `Theia.C70_converges`
* `Theia.C70_consistent`
* `Theia.C70_new`
* `Theia.C70_none`
* `Theia.C70_reuse`
* `Theia.C70_options_counterexample`
* `Theia.C70_unoriented_counterexample`
* `Theia.C71_outliers`
* `Theia.C71_all_outliers`
* `Theia.C71_outliers_missing`
* `Theia.C71_keep`
* `Theia.C71_counts`
* `Theia.C71_poses`
* `Theia.C71_refine`
* `Theia.C71_threshold`
* `Theia.C72_estimate`
* `Theia.C72_exhaustive_partial`
* `Theia.C72_failure`
* `Theia.C72_seed`
* `Theia.C72_best_view`
* `Theia.C72_growth`
* `Theia.C72_fuel`
* `Theia.C72_ends_partial`
* `Theia.IncrementalRuns.C72_livelock_counterexample`
* `Theia.IncrementalRuns.C72_failed_view_counterexample`
* `Theia.IncrementalRuns.C72_pose_counterexample`
* `Theia.IncrementalRuns.C72_initialized_counterexample`
* `Theia.C73_estimate_partial`
* `Theia.C73_initial_filter`
* `Theia.C73_rotation_filter`
* `Theia.C73_poses`
* `Theia.C73_round`
* `Theia.C73_positions_only`
* `Theia.C73_positions_once`
* `Theia.GlobalRuns.C73_empty_success_counterexample`
* `Theia.GlobalRuns.C73_no_pairs_counterexample`
* `Theia.C74_matches`
* `Theia.C74_prepare`
* `Theia.C74_prepare_given`
* `Theia.C74_build`
* `Theia.C74_returns`
* `Theia.C74_intrinsics_partial`
* `Theia.C74_estimators`
* `Theia.C74_global_largest_only`
* `Theia.BuilderRuns.C74_global_components_counterexample`
* `Theia.BuilderRuns.C74_livelock_counterexample`
* `Theia.BuilderRuns.C74_uncalibrated_counterexample`
* `Theia.BuilderRuns.C74_second_constructor_counterexample`
* `Theia.BuilderRuns.C74_intrinsics_counterexample`
* `Theia.C75_at_most_two`
* `Theia.C75_complete`
* `Theia.C75_sound_partial`
* `Theia.C75_real_camera`
* `Theia.C75_no_pose_counterexample`
* `Theia.C75_orthogonal_counterexample`
* `Theia.C75_parallel_counterexample`
* `Theia.C76_complete`
* `Theia.C76_first_two`
* `Theia.C76_third_partial`
* `Theia.C76_collinear`
* `Theia.C76_small_triangle_counterexample`
* `Theia.C76_right_angle`
* `Theia.C76_right_angle_counterexample`
* `Theia.C76_mirror_counterexample`
* `Theia.C76_coplanar_counterexample`
* `Theia.C77_pencil`
* `Theia.C77_undefined`
* `Theia.C77_fits`
* `Theia.C77_reversed_partial`
* `Theia.C77_not_singular_counterexample`
* `Theia.C77_count`
* `Theia.C78_eight_point`
* `Theia.C78_eight_point_exact`
* `Theia.C78_undefined`
* `Theia.C79_least`
* `Theia.C79_undefined`
* `Theia.C79_exact`
* `Theia.C79_degenerate_counterexample`
* `Theia.C80_two_rays_none`
* `Theia.C80_two_rays_least`
* `Theia.C80_two_rays_exact`
* `Theia.C80_relative_position`
* `Theia.C80_relative_direction_partial`
* `Theia.C80_direction_counterexample`
* `Theia.C81_estimate`
* `Theia.C81_orientations`
* `Theia.C81_exhaustive_partial`
* `Theia.C81_failure`
* `Theia.C81_seed`
* `Theia.C81_cameras`
* `Theia.C81_fuel`
* `Theia.C81_ends_partial`
* `Theia.HybridRuns.C81_no_common_track_counterexample`
* `Theia.HybridRuns.C81_position_counterexample`
* `Theia.HybridRuns.C81_initialized_counterexample`
* `Theia.HybridRuns.C81_known_orientation_counterexample`
* `Theia.C82_written`
* `Theia.C82_round_trip_partial`
* `Theia.C82_accuracy`
* `Theia.C82_read`
* `Theia.C82_name_counterexample`
* `Theia.C82_precision_counterexample`
* `Theia.C82_malformed_counterexample`
* `Theia.C82_type_counterexample`
* `Theia.C82_short_counterexample`
* `Theia.C83_positions`
* `Theia.C83_cameras`
* `Theia.C83_points`
* `Theia.C83_longest`
* `Theia.C83_succeeds`
* `Theia.C83_rays_partial`
* `Theia.C83_unconstrained_counterexample`
* `Theia.C83_isolated_counterexample`
* `Theia.C83_no_points_counterexample`
* `Theia.NonlinearPositionRuns.C83_ray_counterexample`
* `Theia.C84_rotation`
* `Theia.C84_translation`
* `Theia.C84_scale`
* `Theia.C84_rotations`
* `Theia.C84_rotation_cost`
* `Theia.C84_exact_partial`
* `Theia.C84_failure_counterexample`
* `Theia.C85_portable`
* `Theia.C85_truncated`
* `Theia.C85_sift_partial`
* `Theia.C85_sift_stable`
* `Theia.C85_sift_byte_order`
* `Theia.C85_sift_sizes`
* `Theia.C85_sift_length_counterexample`
* `Theia.C85_sift_truncated_counterexample`
* `Theia.C85_sift_range_counterexample`
* `Theia.C86_colors`
* `Theia.C86_exact_partial`
* `Theia.C86_frame`
* `Theia.C86_grayscale_counterexample`
* `Theia.C86_empty_track_counterexample`
* `Theia.C86_slash_counterexample`
* `Theia.C86_schedule_counterexample`
* `Theia.C87_test`
* `Theia.C87_good_models`
* `Theia.C87_monotone`
* `Theia.C87_threshold`
* `Theia.C87_empty_counterexample`
* `Theia.C88_definition`
* `Theia.C88_unique`
* `Theia.C88_longitude`
* `Theia.C88_rotation`
* `Theia.C88_mirror`
* `Theia.C88_equator_partial`
* `Theia.C88_poles_partial`
* `Theia.C88_centre_counterexample`
* `Theia.C89_calibrated_partial`
* `Theia.C89_uncalibrated`
* `Theia.C89_cost_counts`
* `Theia.C89_units`
* `Theia.C89_features`
* `Theia.C89_distortion_counterexample`
* `Theia.C89_visibility_counterexample`
* `Theia.C89_no_model_counterexample`
* `Theia.C89_abort_counterexample`
* `Theia.C90_all_inliers`
* `Theia.C90_plane`
* `Theia.C90_plane_exact`
* `Theia.C90_plane_small_counterexample`
* `Theia.C90_homography`
* `Theia.C90_fundamental`
* `Theia.C90_essential`
* `Theia.C90_position_partial`
* `Theia.C90_direction_counterexample`
* `Theia.C91_known_orientation_partial`
* `Theia.C91_known_orientation_exact`
* `Theia.C91_known_behind_counterexample`
* `Theia.C91_horizon_counterexample`
* `Theia.C91_known_units_counterexample`
* `Theia.C91_calibrated_partial`
* `Theia.C91_calibrated_behind_counterexample`
* `Theia.C91_uncalibrated`
* `Theia.C91_uncalibrated_uninitialised_counterexample`
* `Theia.C92_too_few`
* `Theia.C92_best_pair`
* `Theia.C92_sampled_pairs`
* `Theia.C92_exact_partial`
* `Theia.C92_sign_counterexample`
* `Theia.C93_size`
* `Theia.C93_focal`
* `Theia.C93_focal_square`
* `Theia.C93_database`
* `Theia.C93_gps_partial`
* `Theia.C93_south_counterexample`
* `Theia.C93_altitude_counterexample`
* `Theia.C93_gps_without_focal_counterexample`
* `Theia.C93_model_with_make_counterexample`
* `Theia.C93_unreadable_counterexample`
* `Theia.RelativePosition.C94_unit`
* `Theia.RelativePosition.C94_exact_partial`
* `Theia.RelativePosition.C94_far_points_counterexample`
* `Theia.Undistort.C95_camera_partial`
* `Theia.Undistort.C95_size`
* `Theia.Undistort.C95_image`
* `Theia.Undistort.C95_input_changed_counterexample`
* `Theia.Undistort.C95_crop_counterexample`
* `Theia.Undistort.C95_fisheye_counterexample`
* `Theia.Undistort.C95_reconstruction_partial`
* `Theia.Undistort.C95_shared_intrinsics_counterexample`
* `Theia.FivePoint.C96_result`
* `Theia.FivePoint.C96_epipolar`
* `Theia.FivePoint.C96_complete_partial`
* `Theia.FivePoint.C96_motion_partial`
* `Theia.AlignRotations.C97_result`
* `Theia.AlignRotations.C97_relative`
* `Theia.AlignRotations.C97_no_worse`
* `Theia.AlignRotations.C97_best`
* `Theia.AlignRotations.C97_recovers_partial`
* `Theia.AlignRotations.C97_turned_away_counterexample`
* `Theia.TwoViewAdjustment.C98_two_views`
* `Theia.TwoViewAdjustment.C98_reaches`
* `Theia.TwoViewAdjustment.C98_angular`
* `Theia.TwoViewAdjustment.C98_angular_error_partial`
* `Theia.TwoViewAdjustment.C98_true_motion_partial`
* `Theia.TwoViewAdjustment.C98_quarter_turn_counterexample`
* `Theia.TwoViewAdjustment.C98_noise_counterexample`
* `Theia.PartialRotation.C99_abort`
* `Theia.PartialRotation.C99_about_axis`
* `Theia.PartialRotation.C99_three_finds`
* `Theia.PartialRotation.C99_three_no_rotation`
* `Theia.PartialRotation.C99_three_sound_partial`
* `Theia.PartialRotation.C99_four_finds`
* `Theia.PartialRotation.C99_four_no_rotation`
* `Theia.PartialRotation.C99_four_sound_partial`
* `Theia.PartialRotation.C99_sim_finds`
* `Theia.PartialRotation.C99_sim_no_rotation`
* `Theia.PartialRotation.C99_sim_scales`
* `Theia.PartialRotation.C99_sim_sound_partial`
* `Theia.PartialRotation.C99_three_loses_rotation_counterexample`
* `Theia.PartialRotation.C99_three_complex_counterexample`
* `Theia.PartialRotation.C99_sim_negative_scale_counterexample`
* `Theia.PartialRotation.C99_sim_old_scales_counterexample`
* `Theia.C100_residual`
* `Theia.C100_project_point`
* `Theia.C100_scale_partial`
* `Theia.C100_motion`
* `Theia.C100_loss`
* `Theia.C100_cost`
* `Theia.C100_failure`
* `Theia.C100_fisheye_scale_counterexample`
* `Theia.C100_near_scale_counterexample`
* `Theia.C100_behind_counterexample`
* `Theia.C100_width_counterexample`
* `Theia.C101_partition`
* `Theia.C101_cost`
* `Theia.C101_eigenvector`
* `Theia.C101_total_partial`
* `Theia.C101_small_counterexample`
* `Theia.C101_fallback_counterexample`
* `Theia.C101_reuse_counterexample`
* `Theia.C101_outputs_counterexample`
* `Theia.C102_predictor`
* `Theia.C102_predictor_scale`
* `Theia.C102_predictor_useless`
* `Theia.C102_ecdf`
* `Theia.C102_ratio`
* `Theia.C102_weights`
* `Theia.C102_sample`
* `Theia.C102_ends_partial`
* `Theia.C102_never_ends`
* `Theia.C102_hang_counterexample`
* `Theia.C102_size_counterexample`
* `Theia.C102_columns_counterexample`
* `Theia.C102_sign_counterexample`
* `Theia.C102_posterior_counterexample`
* `Theia.C102_cdf_counterexample`
* `Theia.C103_results`
* `Theia.C103_line`
* `Theia.C103_depth`
* `Theia.C103_consistent`
* `Theia.C103_complete_partial`
* `Theia.C103_centred_counterexample`
* `Theia.C103_error_partial`
* `Theia.C103_none_counterexample`
* `Theia.C103_axis_counterexample`
* `Theia.C103_far_counterexample`
* `Theia.C103_estimator`
* `Theia.C103_estimator_error_partial`
* `Theia.C103_range_counterexample`
* `Theia.C104_views`
* `Theia.C104_calibration`
* `Theia.C104_tracks`
* `Theia.C104_pairs`
* `Theia.C104_succeeds_partial`
* `Theia.C104_false`
* `Theia.C104_outside`
* `Theia.C104_stale`
* `Theia.C104_reversed`
* `Theia.C104_same_name`
* `Theia.C104_second_dataset`
* `Theia.C105_memory`
* `Theia.C105_schedule`
* `Theia.C105_limit`
* `Theia.C105_disk`
* `Theia.C105_disk_each_partial`
* `Theia.C105_completes`
* `Theia.C105_images`
* `Theia.C105_missing_counterexample`
* `Theia.C105_reused_counterexample`
* `Theia.C105_after_disk_counterexample`
* `Theia.C105_same_name_counterexample`
* `Theia.C106_strecha`
* `Theia.C106_name_partial`
* `Theia.C106_cameras_partial`
* `Theia.C106_last`
* `Theia.C106_reads`
* `Theia.C106_sizes`
* `Theia.C106_centre_partial`
* `Theia.C106_missing`
* `Theia.C106_populates`
* `Theia.C106_calibration_counterexample`
* `Theia.C106_name_counterexample`
* `Theia.C106_shared_counterexample`
* `Theia.C107_detect`
* `Theia.C107_reuse_partial`
* `Theia.C107_reuse_counterexample`
* `Theia.C107_pairs`
* `Theia.C107_compute_partial`
* `Theia.C107_compute_abort`
* `Theia.C107_compute_stale`
* `Theia.C107_thresholds_counterexample`
* `Theia.C107_given_partial`
* `Theia.C107_given_abort`
* `Theia.C107_octave`
* `Theia.C107_create`
* `Theia.C107_density_partial`
* `Theia.C107_density_counterexample`
* `Theia.C108_wrap`
* `Theia.C108_read`
* `Theia.C108_counts`
* `Theia.C108_cut_partial`
* `Theia.C108_cut_counterexample`
* `Theia.C108_lines_counterexample`
* `Theia.C108_abort`
* `Theia.C109_similarity`
* `Theia.C109_rigid`
* `Theia.C109_similarity_exact`
* `Theia.C109_negative_scale`
* `Theia.C109_rigid_exact`
* `Theia.C109_carry_back`
* `Theia.C109_rigid_similarity`
* `Theia.C109_single`
* `Theia.C109_models`
* `Theia.C109_exhaustive`
* `Theia.C110_history_partial`
* `Theia.C110_returns`
* `Theia.C110_abort`
* `Theia.C110_untrained`
* `Theia.C110_dimension`
* `Theia.C111_report`
* `Theia.C111_order`
* `Theia.C111_median_unique`
* `Theia.C111_median_even`
* `Theia.C111_radians`
* `Theia.C112_served_partial`
* `Theia.C112_fixed`
* `Theia.C112_once`
* `Theia.C112_missing`
* `Theia.C112_stale`
* `Theia.C113_abort`
* `Theia.C113_normal`
* `Theia.C113_normal_shape`
* `Theia.C113_uniform`
* `Theia.C114_whole_partial`

## Quot.sound, propext

* `Theia.C04_remove_unknown`
* `Theia.C05_addTrack_rejects`
* `Theia.C07_reload_future_partial`
* `Theia.C07_reload_changes_future_counterexample`
* `Theia.C08_auto_group_collision_counterexample`
* `Theia.C10_largest_component_aborts_without_edges`
* `Theia.C11_no_edges_unchanged`
* `Theia.C14_self_edge_counterexample`
* `Theia.C16_track_shorter_than_minimum_counterexample`
* `Theia.C16_minimum_one_aborts_counterexample`
* `Theia.C18_needs_a_thread`
* `Theia.C19_chunks_cover`
* `Theia.C19_bad_step_counterexample`
* `Theia.C25_integer_counterexample`
* `Theia.C28_views_counterexample`
* `Theia.C28_requeue_counterexample`
* `Theia.C28_initialized_counterexample`
* `Theia.C29_unseen_track_counterexample`
* `Theia.C29_empty_view_counterexample`
* `Theia.C29_order_counterexample`
* `Theia.C30_chunks`
* `Theia.C30_single_image_counterexample`
* `Theia.C31_rocks_features`
* `Theia.C31_rocks_counterexample`
* `Theia.C32_hashed`
* `Theia.C33_out_of_range_counterexample`
* `Theia.C34_order_counterexample`
* `Theia.C34_negative_counterexample`
* `Theia.C35_plain`
* `Theia.C35_minimum_counterexample`
* `Theia.C35_negative_counterexample`
* `Theia.C38_aborts`
* `Theia.C47_apply`
* `Theia.C47_model_roundtrip`
* `Theia.C47_camera_roundtrip`
* `Theia.C47_copy`
* `Theia.C50_known_counterexample`
* `Theia.C54_constant_parameters`
* `Theia.C71_poses_estimated`
* `Theia.C73_negative_tolerance`
* `Theia.C74_build_after_prepare`
* `Theia.C74_few_views`
* `Theia.BuilderRuns.C74_given_counterexample`
* `Theia.BuilderRuns.C74_extract_counterexample`
* `Theia.BuilderRuns.C74_twice_counterexample`
* `Theia.C107_base`
* `Theia.C114_huge`
* `Theia.C115_pair_contract`
* `Theia.C115_matrix_contract`
* `Theia.C115_first_shared_partial`
* `Theia.C115_matrix_last_partial`
* `Theia.C115_second_shared`

## none

* `Theia.C07_reload_queries_partial`
* `Theia.C22_exhaustive_reuse_counterexample`
* `Theia.C30_twice_counterexample`
* `Theia.C47_names`
* `Theia.C50_failure_changes_camera`
* `Theia.C50_failed_adjustment_stays_estimated`
* `Theia.C50_no_fallback_counterexample`
* `Theia.C114_error`

## propext

* `Theia.C16_same_view_aborts`
* `Theia.C24_only_positions`
* `Theia.C31_mem_file_counterexample`
* `Theia.C47_archive`
* `Theia.C47_old_archives`
* `Theia.C48_duplicate_insert_counterexample`
* `Theia.C107_akaze`
