# Proved counterexamples and other findings

Generated by `tools/findings.py` from the doc comments in `Verif/Props`.

* **C07** `C07_reload_changes_future_counterexample` (Reconstruction.lean): **C07 is false of the code.** A view added to a fresh reconstruction, save, load, add a second view: on the original object the views have separate intrinsics, on the reloaded one they share one intrinsics object.
* **C08** `C08_auto_group_collision_counterexample` (Reconstruction.lean): **C08 is false of the code.** If the caller has put a view in group 0 by hand, the first `AddView(name)` joins that group and shares its intrinsics.
* **C14** `C14_self_edge_counterexample` (MinimumSpanningTree.lean): C14, self edges: the call claims success (returns true) on the disconnected graph with the self edge (0,0) and the edge (1,2), and the edges it returns do not connect nodes 0 and 1.
* **C16** `C16_minimum_one_aborts_counterexample` (TrackBuilder.lean): C16: with `min_track_length = 1` and `max_track_length = 1`, `BuildTracks` aborts on a single correspondence.
* **C16** `C16_track_shorter_than_minimum_counterexample` (TrackBuilder.lean): C16: a built track can be shorter than `min_track_length`, because features of a view that is already in the track are dropped after the length test.
* **C19** `C19_bad_step_counterexample` (EstimateTrack.lean): C19 needs a positive step size: with a negative one the call returns without attempting any track, and with zero it does not return.
* **C21** `C21_truncation_counterexample` (Ransac.lean): C21 is false as coded: with an inlier ratio of one half, samples of one datum and a failure probability of 0.1, three iterations are asked for, which miss with probability 0.125.
* **C22** `C22_exhaustive_reuse_counterexample` (Samplers.lean): C22 fails for an exhaustive sampler used for a second, smaller data set: `Initialize` does not reset the counters, so it returns indices outside the data.
* **C22** `C22_prosac_counterexample` (Samplers.lean): C22 is false for PROSAC: with exactly as many data as the sample needs, the first sample always contains an index outside the data.
* **C23** `C23_lmed_odd_counterexample` (Quality.lean): The cost for an odd number of residuals is not the median (here 4) but halfway to the next lower value, because the parity test is the wrong way round.
* **C23** `C23_lmed_single_counterexample` (Quality.lean): A single residual makes the least median read before the start of the vector.
* **C25** `C25_integer_counterexample` (Reservoir.lean): C25 fails for integer histograms, as used by the applications: the first boundary is zero, so a negative value is counted before the start of the vector.
* **C27** `C27_ranked_by_id_counterexample` (SelectTracks.lean): C27: the tracks added to reach the requested number are taken by increasing track id, not by length or error: of tracks 0 and 2, track 0 is taken although its error is larger.
* **C27** `C27_shortest_track_counterexample` (SelectTracks.lean): C27: the header says "Long tracks are preferred", but within a cell the code takes the shortest one: track 1 (two views) is selected in the first view instead of track 0 (three views) with the same error.
* **C28** `C28_initialized_counterexample` (Cleanup.lean): C28: if the reconstruction passed in already has estimated views, these are in neither container, and the clean-up erases the end iterator when one of them is underconstrained.
* **C28** `C28_requeue_counterexample` (Cleanup.lean): C28 is false for the queue: views 2 and 3 lose their estimate and are not queued again, because only the count of the last round is looked at.
* **C28** `C28_views_counterexample` (Cleanup.lean): C28 is false for views: the loop stops after a round that set no view to unestimated even if its second half set tracks to unestimated. View 2 ends up estimated with one estimated track.
* **C29** `C29_empty_view_counterexample` (BundleAdjuster.lean): The hypothesis on views is needed: adjusting an estimated view that observes no estimated track aborts the process when the options fix some of its intrinsics.
* **C29** `C29_order_counterexample` (BundleAdjuster.lean): The order of the calls matters: if a track is added before the views that observe it, the problem has residuals twice. The header asks callers to add all views first (bundle_adjuster.h:58-59).
* **C29** `C29_unseen_track_counterexample` (BundleAdjuster.lean): The hypothesis on tracks is needed: adjusting an estimated track that no estimated view observes aborts the process, because its point is set variable without being in the problem.
* **C30** `C30_few_descriptors_counterexample` (FeatureMatcher.lean): With fewer than two descriptors in the other image the sort is out of range.
* **C30** `C30_single_image_counterexample` (FeatureMatcher.lean): Matching fewer than two images without an explicit pair list aborts the process: the thread pool is created with no threads.
* **C30** `C30_twice_counterexample` (FeatureMatcher.lean): An image that was added twice is matched with itself.
* **C31** `C31_mem_file_counterexample` (MatchDB.lean): The hypothesis is needed: a match put under the names in the other order comes back under the names that it carries.
* **C31** `C31_rocks_counterexample` (MatchDB.lean): C31 is false of the on-disk database for names with `/`: the pairs `(a/b, c)` and `(a, b/c)` have the same key. The second put overwrites the first, and the list of pairs names only one of them.
* **C32** `C32_two_candidates_counterexample` (CascadeHasher.lean): The source says that a descriptor is skipped unless there are at least two candidates, but the test counts a candidate once for each bucket shared and asks for more than ten. So a descriptor with at least two distinct candidates may be skipped: two candidates that each share five buckets are too few.
* **C33** `C33_corner_counterexample` (GuidedMatcher.lean): The diagonal of a box meets it in its two corners, but each corner is found twice: there are four intersections and not two, so that the feature is skipped.
* **C33** `C33_out_of_range_counterexample` (GuidedMatcher.lean): Coordinates that do not fit, such as a keypoint at 65536 pixels or more or left of the image, are converted with undefined behaviour.
* **C34** `C34_negative_counterexample` (ImagePairs.lean): A negative number of neighbours is undefined behaviour as soon as there is an image.
* **C34** `C34_order_counterexample` (ImagePairs.lean): Query expansion depends on the order of the images: images at 0, 10, 21 and 33 give the pair 10 and 33 (by 21, which is nearest to 33 and has 10 nearest to it), but not if they are listed in the opposite order.
* **C35** `C35_minimum_counterexample` (GeometricVerification.lean): The minimum itself is not enough: with exactly as many inliers as the option asks for, and nothing else to check, verification fails, although the option is documented as the number of inlier matches needed to succeed.
* **C35** `C35_negative_counterexample` (GeometricVerification.lean): A negative minimum is compared as a huge unsigned number, so verification never succeeds.
* **C36** `C36_constant_divisor_counterexample` (Polynomial.lean): Division by a constant does not end, for any nonempty polynomial.
* **C36** `C36_leading_zeros_counterexample` (Polynomial.lean): A polynomial with leading zeros can make the division undefined: `0x² + 0x + 1` divided by `x²` asks for a quotient of size -1.
* **C37** `C37_cubic_counterexample` (RootSolvers.lean): With `3 a c > b²` (and `-b/(3a)` not a root), none of the three numbers returned is a root of the cubic.
* **C37** `C37_double_zero_counterexample` (RootSolvers.lean): `a x² = 0` gives 0/0: not a number for one of the roots.
* **C37** `C37_quartic_counterexample` (RootSolvers.lean): Small coefficients break it: `x⁴ = 1e-16`, whose real roots are ±1e-4, gives a division by zero, for any choice of complex square and cube roots.
* **C37** `C37_reals_counterexample` (RootSolvers.lean): Without a tolerance every root is kept, so `x² + 1` gets two real roots.
* **C38** `C38_pivot_counterexample` (GaussJordan.lean): C38 does not hold for every invertible matrix: the search for the pivot never looks at the last row, so a column whose only nonzero entry is there divides by zero.
* **C38** `C38_threshold_counterexample` (GaussJordan.lean): C38 does not hold without the condition on the coefficients below the threshold either: the block of the result need not be near the identity, because the row keeping the small coefficient may still be divided by a smaller number.
* **C41** `C41_stale_counterexample` (TreeOrientations.lean): C41. An orientation present beforehand is kept, and then the tree edge to that view is in general not satisfied: the map is not cleared.
* **C45** `C45_colmap_distortion_counterexample` (Export.lean): C45. The COLMAP cameras have the first coefficient of the distortion in place of the second.
* **C45** `C45_colmap_mixed_group_counterexample` (Export.lean): C45. If only one camera of a group is a pinhole camera, the result depends on the order of the group.
* **C45** `C45_nvm_distortion_counterexample` (Export.lean): C45. The radial distortion is written to the NVM file, and lost when it is imported.
* **C45** `C45_nvm_estimated_counterexample` (Export.lean): C45. A view and a track that are not estimated are estimated after writing and importing an NVM file.
* **C45** `C45_nvm_import_aborts_counterexample` (Export.lean): C45. A reconstruction without tracks, or with a single view, or with a track of one view, is written as an NVM file that cannot be imported.
* **C45** `C45_nvm_other_model_counterexample` (Export.lean): C45. A camera of another model aborts the program, instead of being refused.
* **C46** `C46_division_counterexample` (CameraModels.lean): Outside that range the model is not invertible: a point whose ray passes far from it.
* **C46** `C46_fisheye_counterexample` (CameraModels.lean): Near the optical axis the pixel depends on the depth: two points of one ray with different pixels.
* **C46** `C46_fov_counterexample` (CameraModels.lean): For small and for negative `omega` both directions use the same expansion, so distorting does not undo undistorting: the pixel at distance 1 comes back at distance 115/64.
* **C46** `C46_pinhole_strong_counterexample` (CameraModels.lean): With strong distortion the iteration need not end at a solution: it may not even stay finite.
* **C48** `C48_duplicate_insert_counterexample` (PriorityQueue.lean): C48 needs new keys: inserting a contained key leaves the old entry on the heap, so that after one `pop` the queue shows an entry for a key it says it does not contain.
* **C49** `C49_correction_counterexample` (Triangulation.lean): The correction of the image points is wrong: each epipolar line is updated with itself instead of the other one, and the corrected points need not satisfy the epipolar constraint, contrary to the comments (triangulation.cc:62-65, 121).
* **C49** `C49_estimator_sign_counterexample` (Triangulation.lean): The model estimator of `EstimateTriangulation` depends on the sign the singular value decomposition happens to give its vectors: for the same exact observations of a point in front of both cameras, one valid sign makes it return the point, the other makes it return nothing.
* **C49** `C49_nview_svd_counterexample` (Triangulation.lean): The design matrix is not set to zero where the views do not write. With other contents the result can be a point that the first view does not see at its image point, although both views see one point exactly.
* **C50** `C50_known_counterexample` (Localize.lean): The documented rule is false of the code: view 0 is estimated and shares its intrinsics with view 1, yet localising view 1 takes the intrinsics as unknown. The shared focal length, 800, is overwritten with the new estimate, 100, in the camera of view 0 also.
* **C50** `C50_no_fallback_counterexample` (Localize.lean): With a known orientation there is no second attempt with the full pose solver, though the header promises it: with one inlier, the minimum, the position solver is rejected and the call fails, while the pose solver would succeed.
* **C51** `C51_all_matched_counterexample` (GuidedMatcher.lean): If all keypoints of the second image have matches, or there are none, the bounding box is read from iterators past the end.
* **C51** `C51_reuse_counterexample` (GuidedMatcher.lean): The header says that only features without a match are used, but the features drawn at random may have one: here feature 1 of the second image gets a second match.
* **C53** `C53_degenerate_counterexample` (Transform.lean): C39, C53 need finite points and something to take the median of: an estimated point with last coordinate zero, a reconstruction without estimated views, and points of which more than half coincide with their median, are divisions by zero or reads past the end.
* **C53** `C53_origin_counterexample` (Transform.lean): C53 is not what the header promises: after normalising, the median distance of the points from the origin need not be 100. Here it is 1100, in the sum of coordinates and in the Euclidean distance.
* **C57** `C57_focal_sideways_counterexample` (FundamentalMatrix.lean): If the second camera moves sideways only, the function divides by zero instead of returning false.
* **C57** `C57_focal_vertical_counterexample` (FundamentalMatrix.lean): The check for degenerate epipoles is made before they are rotated, so two cameras one of which is straight above the other in depth, although otherwise in general position, are refused.
* **C58** `C58_initialize_singular_counterexample` (ProjectionMatrix.lean): One would rely on the initialisation to report a matrix that cannot be decomposed. It does not: the camera is then made from memory that was never written.
* **C59** `C59_normalize_average_counterexample` (PoseUtil.lean): The header promises an average distance of √2 from the origin; it can be less.
* **C59** `C59_project_negative_counterexample` (PoseUtil.lean): For a matrix with a negative determinant it is the farthest of all, and never the nearest, contrary to the header.
* **C61** `C61_features_truncated_counterexample` (Bundler.lean): C61. The pixels are not restored: a feature 2.5 pixels right of the principal point comes back 2 pixels right of it.
* **C61** `C61_no_points_counterexample` (Bundler.lean): C61. A scene without estimated points is written, and reading the files fails.
* **C61** `C61_origin_lost_counterexample` (Bundler.lean): C61. Points at the origin are lost although they are estimated and seen by two cameras.
* **C61** `C61_reused_reconstruction_counterexample` (Bundler.lean): C61. A reconstruction is refused unless it is empty, but being empty is not enough: reading into one whose views were removed uses a null pointer.
* **C61** `C61_same_base_name_counterexample` (Bundler.lean): C61. Images of the same name in different directories make reading what was written abort.
* **C62** `C62_initial_guess_counterexample` (LinearRotation.lean): A value passed in for a view is not replaced by the estimate ("initial guess" in the header): for constraints that say that both views have the same rotation, and an initial orientation `w` for one of them, the result keeps `w`, and the two orientations disagree with the constraint whenever `w` is not the rotation that the other view gets.
* **C62** `C62_second_call_counterexample` (LinearRotation.lean): An estimator used for a second set of view pairs still has the first one: views of the first set get an orientation too.
* **C63** `C63_unestimated_view_counterexample` (AlignPoints.lean): The camera position of a view that was never estimated is used like any other. Two reconstructions whose commonly estimated views have the same positions are moved apart by `AlignReconstructions` because a fourth view is estimated in the second one only: not all the commonly estimated views have equal positions afterwards.
* **C64** `C64_coplanar_counterexample` (LinearPosition.lean): **C64, counterexample.** If all cameras are in one plane (three cameras always are), the positions need not be recovered, even from exact input: turning all cameras about the normal of the plane satisfies the constraints as well as scaling them does, so the smallest eigenvalue is not simple and a correct eigensolver may return positions of a wrong shape.
* **C64** `C64_identity_counterexample` (LinearPosition.lean): **C64, counterexample.** A camera with the identity orientation, such as the first camera of the rotation estimators, makes the estimation divide by zero: if it is the first or second camera of a triplet of the largest component there is no result, whatever the measurements and the sub-procedures.
* **C64** `C64_reuse_counterexample` (LinearPosition.lean): **C64, counterexample.** An estimator does not forget: a second call, for other pairs, also returns positions for every camera of the first call, whether or not it is in the graph of the second.
* **C64** `C64_unseen_counterexample` (LinearPosition.lean): **C64, counterexample.** A triplet of the largest component without a common track makes the estimation divide by zero, although the other triplets would do: there is no result.
* **C65** `C65_frexp_counterexample` (CompanionRoots.lean): **C65, counterexample.** The exponent that `frexp` stores for infinity is unspecified in C. If it were two or more (it is zero in glibc), the balancing of the companion matrix of `x³` would never end.
* **C65** `C65_square_counterexample` (CompanionRoots.lean): **C65, counterexample.** For `a x²` one of the two roots is zero divided by zero, whatever the eigensolver.
* **C67** `C67_violation_counterexample` (ConstrainedL1Solver.lean): **The answer may violate the constraints.** The vector returned is the one of the least squares step, not its projection to the constraints, so it meets them only up to the tolerances. Here `|x|` is to be minimised under `x ≥ 1` with absolute tolerance 1: the solver accepts its first iterate and returns `1/2`.
* **C68** `C68_asymmetric_counterexample` (QpSolver.lean): **A matrix that is not symmetric is accepted, and read only above the diagonal.** The check "P must be a symmetric matrix" compares the numbers of rows and columns. For `x² + x y + y² - 2 x`, given as `P = [[2, 0], [2, 2]]`, the answers converge to `(1, 0)`, which is not the minimiser.
* **C68** `C68_nonconvex_counterexample` (QpSolver.lean): **A maximum may be returned as the solution.** The constructor accepts every matrix with `P + rho I` positive definite, so also programs that are not convex. For `-x²/4` between `-1` and `2` it succeeds, and `Solve` answers true with `x = 0`, where the objective is largest; the minimum is at `x = 2`.
* **C68** `C68_violation_counterexample` (QpSolver.lean): **The answer may lie outside the bounds.** The vector returned is the one of the quadratic step, not its projection to the bounds. For `½ x² + x` under `x ≥ 0` every answer, whatever the tolerances and the limit (of at least one iteration), is negative.
* **C69** `C69_reuse_counterexample` (RobustRotation.lean): An estimator that has been used cannot be used for other views: the call with the new pairs does not return, although it succeeds with a new estimator.
* **C70** `C70_options_counterexample` (LeastDeviations.lean): The options have no effect: all that the constructor accepts give the same result.
* **C70** `C70_unoriented_counterexample` (LeastDeviations.lean): A pair with a view that has no orientation ends the program, although the other pairs alone are accepted.
* **C72** `C72_failed_view_counterexample` (IncrementalRuns.lean): C72: a view whose localization failed can be listed as estimated. Here the pose of view 2 is found, but the bundle adjustment of the view fails: the view stays in the queue of views that are not localized, and in the summary.
* **C72** `C72_initialized_counterexample` (IncrementalRuns.lean): C72: a reconstruction that is already initialized, as the documentation allows, can crash the program: its estimated views are in neither container, and the clean-up after the first added view erases the end of the list.
* **C72** `C72_livelock_counterexample` (IncrementalLivelock.lean): C72: incremental reconstruction can go on forever. Views 2 and 3 can be localized, but the points they see do not project well into them. So their tracks are removed when the view is added, the view has no tracks any more and is queued again, and its tracks are triangulated again from the other views when the next view is added. The passes add views 2 and 3 in turn.
* **C72** `C72_pose_counterexample` (IncrementalRuns.lean): C72: the pose of the first camera is not reset when a pair of views is rejected. Here the pair (0, 1) with relative orientation 5 is tried first and rejected. Then the pair (1, 2) with relative orientation 6 is accepted, where view 1 keeps the orientation 5 of the rejected pair and view 2 gets the orientation 6: the relative orientation is 1 rather than 6.
* **C73** `C73_empty_success_counterexample` (GlobalRuns.lean): C73: success does not mean that anything is reconstructed. Here no track can be triangulated, so all views are set to unestimated again, and success is reported with no view and no track.
* **C73** `C73_no_pairs_counterexample` (GlobalRuns.lean): C73: after the filter by rotations it is not checked that pairs of views are left. Here the only pair disagrees with the orientations; the estimation of positions is called without any pair, which is out of bounds for the estimator by least unsquared deviations.
* **C74** `C74_extract_counterexample` (BuilderRuns.lean): C74: a prior in the database for an image that was not added crashes the program, and so does an image that is added after features were extracted.
* **C74** `C74_given_counterexample` (BuilderRuns.lean): C74: if the estimation fails, true is returned if the vector was not empty before.
* **C74** `C74_global_components_counterexample` (BuilderRuns.lean): The hypotheses of `C74_global_largest_only` hold for these views: the first three are reconstructed, and not the other three, although they are connected in the same way.
* **C74** `C74_intrinsics_counterexample` (BuilderRuns.lean): C74: the intrinsics of a reconstruction in the result can be overwritten by the estimation of the next one, if views of both share intrinsics. Here the intrinsics of the first reconstruction are 1 when it is estimated, and 2 at the end.
* **C74** `C74_livelock_counterexample` (BuilderRuns.lean): C74: `BuildReconstruction` may not end. Here global reconstruction succeeds without estimating anything, as in `C73_empty_success_counterexample`; nothing is removed, and it is called again with the same views, forever, while empty reconstructions are added to the vector.
* **C74** `C74_second_constructor_counterexample` (BuilderRuns.lean): C74: a reconstruction without tracks crashes the program, as the second constructor makes no track builder. So does adding an image or a match with features.
* **C74** `C74_twice_counterexample` (BuilderRuns.lean): C74: a second call of `BuildReconstruction` can end the program: the tracks are built again, with views that were removed. Here the views 3 and 4 are left with no tracks.
* **C74** `C74_uncalibrated_counterexample` (BuilderRuns.lean): C74: with a reconstruction that has no calibrated views and `only_calibrated_views`, all views are removed and true is returned, with no reconstruction.
* **C75** `C75_no_pose_counterexample` (TwoPointPose.lean): C75: poses are returned although there is none: the real parts of the complex roots of the quadratic equation are used. Here the points are (0, 3, 0) and the origin, and no points on the rays are as far from each other.
* **C75** `C75_orthogonal_counterexample` (TwoPointPose.lean): C75: a pose is not found if both rays are orthogonal to the axis.
* **C75** `C75_parallel_counterexample` (TwoPointPose.lean): C75: with twice the same ray there is a division by zero.
* **C76** `C76_coplanar_counterexample` (ThreePointPose.lean): C76: three rays in a plane, for example equal features, lead to a division by zero, whatever the points (unless they are nearly on a line).
* **C76** `C76_mirror_counterexample` (ThreePointPose.lean): C76: a wrong pose is written: three features and points, not in a special position, for which one of the poses takes the third point off the line of its ray.
* **C76** `C76_right_angle_counterexample` (ThreePointPose.lean): C76: with features at the principal point, to the right of it and below it, nothing but `NaN`s is written.
* **C76** `C76_small_triangle_counterexample` (ThreePointPose.lean): C76: a small triangle is taken for three points on a line: the poses of a camera that sees it are not found.
* **C77** `C77_not_singular_counterexample` (SevenPoint.lean): C77: none of the matrices written need be singular, although three singular ones satisfy the constraints: the coefficients of the polynomial are passed in the wrong order. The points are normalised already, and the basis of the null space is the one that elimination with full pivoting finds.
* **C79** `C79_degenerate_counterexample` (Homography.lean): C79: success is reported also for a singular matrix that sends every given point to the zero vector, which is not a point. This can happen if the points are on a line.
* **C80** `C80_direction_counterexample` (KnownRotation.lean): C80: the direction returned can be opposite to the promised one. The sign is that of the vector of the null space, and the points are not used to choose it. Here the second camera is at (-2, 0, 0), and the null space is given by (1, 0, 0), the vector that the decomposition used finds, with a one in the column without a pivot.
* **C81** `C81_initialized_counterexample` (HybridRuns.lean): C81: a view that is estimated in the input is lost. It is set to unestimated when the initial pair is chosen, but was not queued: it is in neither container at the end, and not estimated, although it sees all tracks and can be localized.
* **C81** `C81_known_orientation_counterexample` (HybridRuns.lean): C81: a failed localization overwrites the orientation of the view, and the next attempt takes the wrong one as known. Here no position is found for view 2 with its known orientation 22, and a pose without known orientation has no inliers. In the next pass its orientation is 99, that of this pose, and it is localized with this orientation as the known one.
* **C81** `C81_no_common_track_counterexample` (HybridRuns.lean): C81: two views with many matches and no common track end the program. Tracks that are too long, or of which two features are in one image, are dropped when tracks are built, so matches need not be left.
* **C81** `C81_position_counterexample` (HybridRuns.lean): C81: the position of the first camera is not reset when a pair of views is rejected. Here the pair (0, 1) is tried first, which puts view 1 at 5, and rejected. Then the pair (1, 2) with relative position 6 is accepted: view 1 stays at 5, and view 2 is put at 6, so that the relative position is 1 rather than 6.
* **C82** `C82_malformed_counterexample` (Calibration.lean): A file that is not JSON, or not a JSON object, is not reported: reading it is not defined. A focal length that is not a number is not defined either.
* **C82** `C82_name_counterexample` (Calibration.lean): The name of an image is written without escapes: the file for an image `a\n` is read as one for an image with a line break in its name, and the file for an image with a quote in its name is not a JSON file, on which reading is not defined.
* **C82** `C82_precision_counterexample` (Calibration.lean): With the precision of an output stream, six significant digits, a latitude with seven decimals is not read back: the error is several metres on the ground.
* **C82** `C82_short_counterexample` (Calibration.lean): A principal point with one coordinate is taken as set, and the image gets a height of zero.
* **C82** `C82_type_counterexample` (Calibration.lean): A type of camera that is not known ends the program, although other bad entries are skipped.
* **C83** `C83_isolated_counterexample` (NonlinearPosition.lean): C83: a view with an orientation that is only paired with views without orientations gets a position but no constraint. If it comes first and no points are used, the solver is asked to keep a position it does not know, which ends the program.
* **C83** `C83_no_points_counterexample` (NonlinearPosition.lean): C83: if points are to be used but no view with a position has enough features, the program ends instead of estimating the positions without points.
* **C83** `C83_ray_counterexample` (NonlinearPosition.lean): C83: the given orientations have no effect on the constraints on points, which use the orientations stored in the reconstruction. Here these are all 0, as they are before a global reconstruction sets them (it estimates positions first), the given ones are 4, 5 and 6, and so the rays are 3, 4 and 5 instead of 403, 504 and 605.
* **C83** `C83_unconstrained_counterexample` (NonlinearPosition.lean): C83: if no view with an orientation is in a pair, the first position of an empty map is set to zero, and the program goes wrong instead of returning false.
* **C84** `C84_failure_counterexample` (PairwiseErrors.lean): C84: the result of the solver is ignored. Whenever there are pairs and orientations, success is reported, even if the solver fails and even if no pair has two orientations.
* **C85** `C85_sift_length_counterexample` (FeatureFiles.lean): The entries of a descriptor are not checked to be 128: here the first descriptor has one too many and the second one too few, so that the file has the right length and is read without complaint, with a second keypoint that is not the one written.
* **C85** `C85_sift_range_counterexample` (FeatureFiles.lean): Entries of a descriptor outside of zero to one, such as the negative ones of other kinds of features, are converted to bytes without a check, which is undefined.
* **C85** `C85_sift_truncated_counterexample` (FeatureFiles.lean): A file cut short is not noticed either: reading goes on with variables that were never set. (The portable file throws.)
* **C86** `C86_empty_track_counterexample` (Colorize.lean): A track without views, which can be added and which is left behind when views are removed, has no mean: zero over zero is turned into a byte.
* **C86** `C86_grayscale_counterexample` (Colorize.lean): An image with one channel: only one of the three colours of a pixel is set, and the others are used uninitialised. The code means to take the one channel for all three.
* **C86** `C86_schedule_counterexample` (Colorize.lean): For images of more than 8 bits the colour depends on the schedule of the threads.
* **C86** `C86_slash_counterexample` (Colorize.lean): A directory given without a slash at its end: the images are there, and colouring ends the program because it looks for other names.
* **C87** `C87_empty_counterexample` (Sprt.lean): Without points the ratio of inliers is zero over zero.
* **C88** `C88_centre_counterexample` (Gps.lean): Deep in the earth the first latitude has a sine above one, and the result is not a number.
* **C89** `C89_abort_counterexample` (TwoViewEstimation.lean): With fewer correspondences than a sample needs the function does not return false: it ends the program. So it does, for any number of correspondences, if exhaustive sampling is asked for.
* **C89** `C89_distortion_counterexample` (TwoViewEstimation.lean): For a camera of the field-of-view model without a focal length, the distortion, which belongs to features normalised by the focal length, is applied to pixels: a feature four pixels to the right of the principal point ends up to its left.
* **C89** `C89_no_model_counterexample` (TwoViewEstimation.lean): The function reports success even if no sample gave a pose: what is returned is whatever the uninitialised variable holds.
* **C89** `C89_visibility_counterexample` (TwoViewEstimation.lean): The visibility score is computed from the inlier list before the inliers are put into it: whatever is estimated, the score is zero. The score of the inliers is positive as soon as there is one.
* **C90** `C90_direction_counterexample` (RobustEstimators.lean): C90: the direction returned can be opposite to that of the second camera, whatever is drawn. The second camera is at (-2, 0, 0), and every point is in front of both cameras, but (1, 0, 0) is returned: for each sample it is the vector of the null space that the decomposition finds, and nothing checks on which side the points are.
* **C90** `C90_plane_small_counterexample` (RobustEstimators.lean): C90: the tolerance for points on a line is absolute. If the points are within 1/100 of the first, say in metres, no plane is found, success is reported, and the plane returned is what was in the variable before.
* **C91** `C91_calibrated_behind_counterexample` (AbsolutePoseEstimators.lean): C91: points behind the camera are inliers. The first three points are in front of a camera at the origin with the axes of the world, at their features; the fourth is behind it, where its line of sight meets the feature. All four are inliers.
* **C91** `C91_horizon_counterexample` (AbsolutePoseEstimators.lean): C91: a camera that looks along a horizontal axis loses the features on the horizon. Here it is at the origin and sees three points in front of it, exactly at the features, but whatever is drawn there are no inliers: the rays are divided by their third coordinate in the world.
* **C91** `C91_known_behind_counterexample` (AbsolutePoseEstimators.lean): C91: points behind the camera are inliers. Here the camera is at the origin, with the axes of the world. The third point is behind it, where its line of sight meets the feature. The position of the camera is found, and the point is an inlier.
* **C91** `C91_known_units_counterexample` (AbsolutePoseEstimators.lean): C91: the threshold is not one for the image. The same camera; the position is found, the third feature is within a thousandth of the image of its point, but it is an inlier only if the threshold is above 250000.
* **C91** `C91_uncalibrated_uninitialised_counterexample` (AbsolutePoseEstimators.lean): C91: if no sample has a projection matrix, success is reported with whatever was in the variables: the projection matrix that was never written is decomposed, and if it is singular nothing else is written either.
* **C92** `C92_sign_counterexample` (TriangulationEstimator.lean): C92: whether two exact observations of a point in front of both cameras are triangulated depends on the sign the singular value decomposition happens to give its vectors: with one of the two valid signs nothing is triangulated, but success is reported, with the point as it was before the call.
* **C93** `C93_altitude_counterexample` (Exif.lean): C93: an image taken below the sea level gets a positive altitude; the reference is not read.
* **C93** `C93_gps_without_focal_counterexample` (Exif.lean): C93: without a focal length the GPS position is not read although the image has one.
* **C93** `C93_model_with_make_counterexample` (Exif.lean): C93: a camera whose model in the image contains the maker, as in the database, is not found there: the model alone is compared without changing it to small letters, and the maker is put in front of it a second time.
* **C93** `C93_south_counterexample` (Exif.lean): C93: an image taken south of the equator gets a positive latitude. The code changes the sign of the longitude instead, and a longitude that was read is then overwritten.
* **C93** `C93_unreadable_counterexample` (Exif.lean): C93: the documentation promises `false` for a file that cannot be opened, but the result is `true`, with an image of no pixels and a principal point that counts as known.
* **C94** `C94_far_points_counterexample` (RelativePosition.lean): If at most half of the exact matches are of points at a finite distance, the sign is the opposite of the one the decomposition happens to return: for every position of the cameras there is a correct decomposition for which the result is the exact opposite of the true direction, although the true direction puts every finite point in front of the cameras and the result none.
* **C95** `C95_crop_counterexample` (Undistort.lean): The undistorted image is the upper left part of the distorted image: no distortion is removed, however large it is.
* **C95** `C95_fisheye_counterexample` (Undistort.lean): The fisheye camera without distortion parameters is not a perspective camera: it sees a point at 45 degrees at `π / 4` focal lengths from the principal point, not at one. So the undistorted camera of a fisheye camera still distorts.
* **C95** `C95_input_changed_counterexample` (Undistort.lean): The camera passed to `UndistortCamera` as a constant loses its distortion and has its principal point moved: copying a camera does not copy its intrinsics. The size of the new image is therefore the same whatever the distortion.
* **C95** `C95_shared_intrinsics_counterexample` (Undistort.lean): The first view is cut to 999 by 999 pixels. The shared principal point is then scaled a second time for the second view, which is cut to 998 by 998: the principal point is right for neither image (it would be 499.5).
* **C97** `C97_turned_away_counterexample` (AlignRotations.lean): C97: two orientations that are aligned already are turned apart, if the given one is written with an angle above π. The solver minimises the difference of the vectors, and any step that makes it smaller leads away from the right rotation.
* **C98** `C98_noise_counterexample` (TwoViewAdjustment.lean): C98: the least noise can make the adjustment fail. A camera has moved ahead and made a quarter turn about its axis, and a point far away is seen with an error `ε` in the first image. The true pose is given, and the call fails.
* **C98** `C98_quarter_turn_counterexample` (TwoViewAdjustment.lean): C98: the true motion is not the best. A camera has moved ahead by one and made a quarter turn about its axis, and sees any points at all that are at most three units from the first camera and not straight ahead. All correspondences are exact, yet the error of the true motion is larger than that without the turn, so that adjusting the latter never leads to the true motion.
* **C99** `C99_sim_negative_scale_counterexample` (PartialRotation.lean): A negative scale is never given for an eigenvalue (`C99_sim_scales`), but it is given when there is no rotation: the result is a reflection through a point.
* **C99** `C99_sim_old_scales_counterexample` (PartialRotation.lean): The scales of an earlier call stay, so that scales and rotations no longer belong together.
* **C99** `C99_three_complex_counterexample` (PartialRotation.lean): Three points: eigenvalues that are not real are used as if they were, with their real part. Whatever the eigenvectors, the solver gives a solution that has no translation or does not explain the rays.
* **C99** `C99_three_loses_rotation_counterexample` (PartialRotation.lean): The code says that the matrix is singular only when there is no rotation. With one ray along the axis, and a motion along the axis, it is always singular: whatever the turn, the solver gives no rotation, and the true turn is lost.
* **C100** `C100_behind_counterexample` (ReprojectionError.lean): The error does not see on which side of the camera a point lies: a point behind the camera can have residual zero.
* **C100** `C100_fisheye_scale_counterexample` (ReprojectionError.lean): The fisheye model is an exception to C100_scale_partial: the same point, with larger homogeneous coordinates, is seen at another pixel, because the test for small radii is made on coordinates that are not normalised (fisheye_camera_model.h:243).
* **C100** `C100_near_scale_counterexample` (ReprojectionError.lean): The threshold on the distance to the centre is on homogeneous coordinates as well: a point at distance one has a residual, and none if its coordinates are scaled to be small.
* **C100** `C100_width_counterexample` (ReprojectionError.lean): The hypothesis of C100_loss is needed: with width zero the Huber loss is zero everywhere, so that nothing is minimised.
* **C101** `C101_fallback_counterexample` (GraphCut.lean): False of the code: the best cut can be missed although the eigenvector shows it. For a ring of nine nodes apart from a triangle the values 1 on the ring and -3 on the triangle solve the eigenvalue problem with eigenvalue 0, and the cut between the parts costs 0. Three quarters of the values are equal to the largest one, so nothing is above any tested threshold; the call returns true with the cost `10 ^ 12`. With the negated eigenvector the cost is 0.
* **C101** `C101_outputs_counterexample` (GraphCut.lean): False of the code: the sets are not emptied. What they held stays, so a node can be in both.
* **C101** `C101_reuse_counterexample` (GraphCut.lean): False of the code: an object cannot be used twice. It keeps the nodes of the first graph, so the subgraphs of the second graph contain nodes that are not in it.
* **C101** `C101_small_counterexample` (GraphCut.lean): False of the code: a graph with fewer than ten nodes cannot be cut. Two triangles joined by an edge, which fall apart in an obvious way, make the call throw, whatever the solver would have found (the unit test uses a graph of six nodes).
* **C102** `C102_cdf_counterexample` (Evsac.lean): False of the library: beyond the end of a distribution with negative shape the distribution function is 0 where it should be 1. In the fit, distances below all outliers count as if all outliers were below them.
* **C102** `C102_columns_counterexample` (Evsac.lean): False of the code: the checks let matrices with one column pass, whose second column is then read.
* **C102** `C102_hang_counterexample` (Evsac.lean): False of the code: a sample may never come. Three correspondences and samples of three are accepted, but if the predictor rejects one of the three, sampling goes on for ever.
* **C102** `C102_posterior_counterexample` (Evsac.lean): The parameters of the counterexample with numbers: outliers have distances above 1 with density `exp (1 - x)`, inliers all distances with density `exp (-x)`. From half of either, a distance above 1 is an inlier with a probability below one half; the code says one.
* **C102** `C102_sign_counterexample` (Evsac.lean): False of the code: the probabilities are not the posteriors of the mixture. The extreme value distribution is fitted to negated distances, but its density is evaluated at the distance itself. Whenever the fitted distribution is bounded by zero, as that of negated distances should be, every probability is one.
* **C102** `C102_size_counterexample` (Evsac.lean): False of the code: the number of data points is ignored. With more rows of distances than data, samples contain indices past the end of the data, which the estimator reads.
* **C103** `C103_axis_counterexample` (RadialHomography.lean): C103, counterexample. The claim that the results explain all six pairs if five of them are exact is false of a left point on the vertical axis: its height has no influence at all, and the result does not map the right point to it.
* **C103** `C103_centred_counterexample` (RadialHomography.lean): C103, counterexample. The claim that a homography is found if the pairs determine it is false: with a zero in the corner of its first row, as for the identity, the call never ends without a division by zero.
* **C103** `C103_far_counterexample` (RadialHomography.lean): C103, counterexample. The claim that corresponding pairs have error zero is false of positive lens parameters: a point far from the centre is taken back to another one.
* **C103** `C103_none_counterexample` (RadialHomography.lean): C103, counterexample. The claim that the call returns `true` only if it found a solution is false: both solutions can be outside the range, and are dropped.
* **C103** `C103_range_counterexample` (RadialHomography.lean): C103, counterexample. The claim that results respect the ranges of all correspondences is false: only that of the first counts.
* **C105** `C105_after_disk_counterexample` (Extraction.lean): **C105 fails in general.** After features have been extracted to disk once, extracting to memory with the same object writes to disk as well and leaves nothing in memory.
* **C105** `C105_missing_counterexample` (Extraction.lean): **C105 fails in general.** The call says that it succeeded, but the vectors of a file that does not exist hold what they held before.
* **C105** `C105_reused_counterexample` (Extraction.lean): **C105 fails in general.** If the vectors of an earlier call are used again, its features are still in front of the new ones.
* **C105** `C105_same_name_counterexample` (Extraction.lean): **C105 fails in general.** Two images with the same name in two directories have the same features file: what it holds in the end depends on the threads.
* **C106** `C106_calibration_counterexample` (ImageSizes.lean): **C106 fails in general.** All cameras get the calibration of the last file: if the files differ, the other cameras do not see points where the cameras of their files do.
* **C106** `C106_name_counterexample` (ImageSizes.lean): **C106 fails in general.** The names of images are cut at the first `.camera`: a dataset with the images `a.camera1.png` and `a.camera2.png` cannot be read.
* **C106** `C106_shared_counterexample` (ImageSizes.lean): **C106 fails in general.** Two views that share their intrinsics and have images of different sizes: in whatever order the views are visited, the principal point of one of them is not the centre of its image.
* **C107** `C107_density_counterexample` (Descriptors.lean): Asking for denser SIFT features excludes some: below one, the edge threshold works the other way round, and doubling it makes the test on edges stricter. An extremum of score 20 is accepted for normal features and not for dense ones, one of score 40 for sparse ones and not for normal ones.
* **C107** `C107_reuse_counterexample` (Descriptors.lean): The condition is needed. VLFeat keeps the gradient of the octave in which it was last computed and does not forget it when an image is started; so the second of two images of the same size, with keypoints in the same octave, gets the descriptor of the first: 7 instead of 8.
* **C107** `C107_thresholds_counterexample` (Descriptors.lean): C107 is false after a descriptor at a given keypoint: the new filter then has VLFeat's thresholds, and extracting the features of the same image finds a keypoint that the parameters of the extractor exclude.
* **C108** `C108_abort` (SiftText.lean): **C108, finding.** The header says the pointer to the keypoints may be null; the call then always terminates the program. So do a dimension other than 128 and a negative number of features.
* **C108** `C108_cut_counterexample` (SiftText.lean): **C108, finding.** When the last line of a file lacks numbers the call still returns true, and the missing entries of the descriptor are what was in memory: here the file ends in the middle of the last line and two runs differ.
* **C108** `C108_lines_counterexample` (SiftText.lean): **C108, finding.** The documented format does not say how the 128 numbers are split into lines. With all of them on one line, a file with one feature terminates the program, whatever the feature.
* **C108** `C108_wrap` (SiftText.lean): **C108, finding.** Numbers above 255 are not refused: a file with any numbers is read, with the answer true, as the one whose numbers are reduced modulo 256.
* **C109** `C109_exhaustive` (AlignCameras.lean): **C109, finding.** Asking for the exhaustive variant of the consensus, one of those offered, always ends the program.
* **C109** `C109_negative_scale` (AlignCameras.lean): **C109, finding.** Nothing asks for a positive scale. A similarity with a negative scale that carries points *behind* the cameras, on the rays of the observations extended backwards, to the given points has the error zero for all of them: it is taken for a perfect alignment.
* **C110** `C110_dimension` (Fisher.lean): **C110, finding.** The dimension is not compared with that of the training. With more dimensions the means are read past their end; with fewer the call returns a vector of another size.
* **C110** `C110_untrained` (Fisher.lean): **C110, finding.** Describing an image before the first training reads through a null pointer, for every image with features of one dimension and after any calls.
* **C111** `C111_median_even` (PoseError.lean): **C111, finding.** For two different errors the median shown is the larger one, not their mean.
* **C111** `C111_radians` (PoseError.lean): **C111, finding.** The program that compares reconstructions adds angles in radians to a histogram with boundaries in degrees (applications/compare_reconstructions.cc:81-90, 116-121, 141-143, 156-163): however wrong the rotations are, no error is ever counted at five or more.
* **C112** `C112_missing` (ImageCache.lean): **C112, finding.** The header says that a missing image gives a null pointer. After any calls, asking for a name that was not asked for before and has no file ends the program.
* **C112** `C112_stale` (ImageCache.lean): **C112, finding.** A file that was changed or deleted is not noticed: asked for the same name again, whatever the disk is then, the cache returns the image it read the first time.
* **C114** `C114_huge` (StringPrintf.lean): **C114, finding.** A text with as many characters as the largest `int` overflows the computation of the size of the buffer; of a longer one nothing is returned, without an error.
* **C115** `C115_second_shared` (Hash.lean): **C115, finding.** Pairs of ids with the same second id do collide, also for ids of ordinary size: the pairs (1391, 1) and (2137, 1) have the same hash.
