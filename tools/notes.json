{
 "C07": {
  "note": "All queries agree after reload, and so does every continuation without automatic groups; the full property is false because the group-id counter is not serialised (counterexample proved)."
 },
 "C08": {
  "note": "Holds for histories without explicit group ids; false in general because the automatic counter can collide with an explicit id (counterexample proved)."
 },
 "C14": {
  "status": "proved",
  "note": "The property as listed (graphs without self edges, plus the failure with self edges) is proved in full."
 },
 "C16": {
  "status": "proved",
  "note": "The listed property, including the two stated exceptions, is proved in full."
 },
 "C19": {
  "status": "proved",
  "note": "Proved in full for positive step sizes, as listed; the counterexample documents the excluded step sizes."
 },
 "C48": {
  "status": "proved",
  "note": "Proved for any lawful heap algorithm with distinct keys, as listed; the counterexample documents inserting a key twice."
 },
 "C21": {
  "note": "Range and monotonicity proved; the confidence claim is false as coded (truncation), and the one-more-iteration version is proved."
 },
 "C22": {
  "status": "proved",
  "note": "Proved in full as listed; the counterexamples establish the stated out-of-range cases."
 },
 "C23": {
  "status": "proved",
  "note": "Proved in full as listed; the counterexamples document the odd-count median and the single-residual read before the vector."
 },
 "C25": {
  "status": "proved",
  "note": "Proved for sorted boundaries and floating point types, as listed; the counterexample is the stated integer case."
 },
 "C27": {
  "status": "proved",
  "note": "The stated property is proved for every reachable reconstruction, error function, grid, view order and requested number. The counterexamples concern the header's preference for long tracks, which the code does not implement: min_element takes the shortest track of a cell and partial_sort ranks by track id."
 },
 "C28": {
  "note": "False of the code for views, for the queue, and for reconstructions that are passed in with estimated views (three counterexamples). Proved for every reachable reconstruction: the loop ends, only lowers flags, every estimated track keeps two estimated views, a reconstruction it leaves unchanged is well constrained, mutually constrained parts survive, and the containers stay consistent if every view of the view graph is in one of them."
 },
 "C29": {
  "status": "proved",
  "note": "Proved for every reachable reconstruction whose chosen estimated views and tracks have an observation; the counterexamples show what happens without that (the process aborts) and when tracks are added before views (duplicate residuals, against the documented order)."
 },
 "C30": {
  "status": "proved",
  "note": "Proved as stated, for at least two images and at least two descriptors per image; the counterexamples show what the code does below that (the process aborts, or the partial sort is out of range) and for an image added twice."
 },
 "C31": {
  "note": "Proved in full for the in-memory database and, for the on-disk one, for features and priors; for on-disk matches it is proved when no first image name of a pair contains the key separator and refuted otherwise, as the property says. A file round trip of the in-memory database is proved for matches stored under the names they carry."
 },
 "C32": {
  "status": "proved",
  "note": "Proved for all projections (as arbitrary sign patterns), descriptors, distances and ratios. The counterexample shows that the skip test is not the one its comment claims."
 },
 "C33": {
  "status": "proved",
  "note": "Proved in full as stated; the counterexamples are the exceptions named in the statement."
 },
 "C51": {
  "status": "proved",
  "note": "Proved as stated, for runs in which every group has two candidates; C51_two_draws shows that two different random draws suffice. The counterexamples are the exceptions named in the statement."
 },
 "C34": {
  "status": "proved",
  "note": "Proved in full as stated; the counterexamples are the exceptions named in the statement."
 },
 "C35": {
  "status": "proved",
  "note": "Proved in full as stated; the counterexamples are the exceptions named in the statement."
 },
 "C36": {
  "status": "proved",
  "note": "Proved in full as stated; the counterexamples are the exceptions named in the statement."
 },
 "C37": {
  "status": "partial",
  "note": "Quadratic, linear and quartic proved; the cubic claim is false in general and is proved for 3ac < b^2 (with the branch choices made by signed zero), with a proof that for 3ac > b^2 no returned value is a root. Missing: a repaired cubic, which the code does not have."
 },
 "C38": {
  "status": "proved",
  "note": "Proved in full as stated; the counterexamples are the exceptions named in the statement."
 },
 "C52": {
  "status": "proved",
  "note": "Proved with the numerical root finder as a parameter assumed to return all real roots of the derivative."
 },
 "C39": {
  "status": "proved",
  "note": "Any faithful representation of rotations (assumption on the Ceres conversions); points at infinity are the undefined behaviour named in the statement."
 },
 "C40": {
  "status": "proved",
  "note": "Exact real arithmetic; the small-angle branch of ceres::AngleAxisRotatePoint is modelled."
 },
 "C53": {
  "status": "proved",
  "note": "The counterexamples are the exceptions named in the statement."
 },
 "C42": {
  "status": "proved",
  "note": "Angles through any exact logarithm of rotation matrices (ceres::RotationMatrixToAngleAxis); real arithmetic."
 },
 "C43": {
  "status": "proved",
  "note": "Angles through any exact logarithm of rotation matrices (ceres::RotationMatrixToAngleAxis); real arithmetic."
 },
 "C41": {
  "status": "proved",
  "note": "For any heap behaviour and set iteration order; the output map must not hold orientations for the views beforehand (the counterexample shows this is needed)."
 },
 "C44": {
  "note": "Exact reals; the random axes, map orders and interleavings are arbitrary. A random generator shared by the threads (options.rng) is used without a lock in the code; that data race is outside the model."
 },
 "C47": {
  "note": "Exact field arithmetic; an archive is a list of typed values."
 },
 "C54": {
  "note": "The bit mask is a natural number; the subset is compared with the kinds of the stored parameters."
 },
 "C55": {
  "note": "Intrinsics objects live on a heap of addresses, so sharing is modelled; the reconstruction is any reachable one."
 },
 "C46": {
  "note": "Over the reals. Exact for pinhole and radial-tangential without distortion and for the division model; within stated tolerances (the fixed-point iteration is proved to converge in its 100 steps) for moderate distortion; pose level for every model and orientation above the Ceres threshold. Missing: the Taylor branches of the field-of-view model (counterexample for small or negative omega) and convergence of the fisheye iteration (counterexample near the optical axis); strong distortion (counterexamples)."
 },
 "C50": {
  "note": "The pose solvers, the bundle adjustment of the view and the intrinsics functions are parameters. The documented shared-intrinsics rule is false of the code (C50_known_counterexample) and proved where it holds (C50_known_partial); the rest of the statement is proved in full."
 },
 "C49": {
  "note": "Eigen decompositions are parameters with their mathematical specification (SmallestVector, Cholesky; an instance of each is shown to exist). TriangulateNViewSVD is right only if its uninitialised memory is zero (C49_nview_svd_partial, counterexample proved); the image point correction and the estimator sign are proved counterexamples; the rest is proved in full."
 },
 "C56": {
  "note": "The singular value decomposition is a parameter with its mathematical specification (IsSvd); an instance is shown. Over the reals."
 },
 "C57": {
  "note": "The last singular vector is any unit null vector. The counterexamples record configurations the function refuses or divides by zero on; the statement as given (general position) is proved in full. SharedFocalLengthsFromFundamentalMatrix is not modelled.",
  "status": "proved"
 },
 "C58": {
  "note": "The QR and singular value decompositions and the conversion to angle-axis are parameters with their mathematical specification; functions meeting it are shown to exist. The counterexample records the undefined behaviour for singular matrices; the statement as given is proved in full.",
  "status": "proved"
 },
 "C59": {
  "note": "The nearest rotation is proved for positive determinants (C59_project_nearest_partial) and refuted for negative ones; for singular matrices it depends on the decomposition. The rest is proved in full."
 },
 "C61": {
  "note": "Numbers are written and read without loss in the model. What does not survive is part of the specification of the copy (IsBundlerCopy) and shown by the counterexamples.",
  "status": "partial"
 },
 "C45": {
  "note": "Numbers are written and read without loss in the model; the conversion to a quaternion (Eigen) is a parameter that satisfies QuatOf, and Export.exists_quat shows that there is one. What the NVM import changes is part of IsNvmCopy and shown by the counterexamples.",
  "status": "partial"
 },
 "C62": {
  "note": "The eigensolver and the SVD are parameters that return what they promise (Eigensolver, IsSvd); exists_eigensolver and Svd.exists_svd_function show that there are such functions. The two exceptions are in the statement and proved as counterexamples.",
  "status": "proved"
 },
 "C63": {
  "note": "The SVD is a parameter that satisfies IsFullSvd (exists_fullSvd). Optimality is among nonnegative scales. The exception for unestimated views is in the statement and proved as a counterexample.",
  "status": "proved"
 },
 "C64": {
  "note": "The Cholesky solver, the rotation between two vectors and the eigensolver are parameters that return what they promise (Cholesky, TurnsOneToOther, EigensolverOne); exists_cholesky, exists_turns and exists_eigensolver show that there are such functions. Image points are the normalized ones. The exceptions are in the statement and proved as counterexamples.",
  "status": "proved"
 },
 "C65": {
  "note": "The eigensolver is a parameter that returns the roots of the characteristic polynomial or fails (exists_eigenvalueSolver). The exceptions are in the statement and proved as counterexamples.",
  "status": "proved"
 },
 "C66": {
  "note": "The sparse Cholesky factorisation is exact: it succeeds exactly for positive definite matrices. Convergence is that of relaxed Douglas-Rachford iterations; existence of the fixed point comes from a Farkas lemma.",
  "status": "proved"
 },
 "C67": {
  "note": "As C66. The exception is in the statement and proved as a counterexample.",
  "status": "proved"
 },
 "C68": {
  "note": "As C66. The exceptions are in the statement and proved as counterexamples.",
  "status": "proved"
 },
 "C69": {
  "note": "The logarithm of rotation matrices is a parameter (IsLog, exists_isLog); the inner solvers are those of C66. What the first phase does to inconsistent orientations is not stated beyond the view it keeps. The exception is in the statement and proved as a counterexample.",
  "status": "proved"
 },
 "C70": {
  "note": "The inner solver is that of C67, with its options as a parameter; the code uses the default options, whose limit on the iterations need not suffice. The exceptions are in the statement and proved.",
  "status": "proved"
 },
 "C71": {
  "note": "The projections, directions and the optimiser are parameters of the model; doubles are rationals.",
  "status": "proved"
 },
 "C72": {
  "note": "The last sentence is false: C72_livelock_counterexample, C72_failed_view_counterexample, C72_pose_counterexample, C72_initialized_counterexample. What holds of it is C72_ends_partial. C72_exhaustive_partial leaves out views the clean-up drops without queueing them (C28_requeue_counterexample). Numerical parts, iteration orders and schedules are quantified parameters.",
  "status": "partial"
 },
 "C73": {
  "note": "The last sentence is false: C73_empty_success_counterexample, C73_no_pairs_counterexample. Estimation of rotations and positions, the rigid component and the pairs that contradict translations are quantified parameters, constrained by GlobalWellBehaved.",
  "status": "partial"
 },
 "C74": {
  "note": "The last sentence is false in each of its parts: C74_intrinsics_counterexample, C74_livelock_counterexample, C74_uncalibrated_counterexample, C74_given_counterexample, C74_global_components_counterexample (with C74_global_largest_only for all runs), C74_extract_counterexample, C74_second_constructor_counterexample, C74_twice_counterexample. The database and the feature extractor are parameters; the hybrid estimator is not modelled.",
  "status": "partial"
 },
 "C75": {
  "note": "The last sentence is false in each of its parts: C75_no_pose_counterexample (real parts of complex roots are used), C75_orthogonal_counterexample, C75_parallel_counterexample (division by zero). Exact arithmetic over the reals.",
  "status": "partial"
 },
 "C76": {
  "note": "The last sentence is false in each of its parts: C76_mirror_counterexample, C76_small_triangle_counterexample, C76_right_angle_counterexample (division by zero), C76_coplanar_counterexample; C76_third_partial needs a root finder that returns only real roots. Exact arithmetic over the reals.",
  "status": "partial"
 },
 "C77": {
  "note": "The last sentence is false: C77_not_singular_counterexample (the coefficients of the cubic are given to the root finder in the wrong order); C77_reversed_partial shows that it holds with the order reversed. Exact arithmetic over the reals.",
  "status": "partial"
 },
 "C78": {
  "note": "Exact arithmetic over the reals; the decompositions are parameters with their specifications.",
  "status": "proved"
 },
 "C79": {
  "note": "The false promise is C79_degenerate_counterexample. Exact arithmetic over the reals; the decomposition is a parameter with its specification.",
  "status": "proved"
 },
 "C80": {
  "note": "The last sentence is false: C80_direction_counterexample; C80_relative_direction_partial gives the direction up to sign. Exact arithmetic over the reals.",
  "status": "partial"
 },
 "C81": {
  "note": "The last sentence is false: C81_no_common_track_counterexample, C81_position_counterexample, C81_initialized_counterexample, C81_known_orientation_counterexample. What holds of the end of a run is C81_ends_partial. C81_exhaustive_partial leaves out views the clean-up drops without queueing them (C28_requeue_counterexample). Numerical parts, rotation averaging, iteration orders and schedules are quantified parameters.",
  "status": "partial"
 },
 "C82": {
  "note": "The last sentence is false: C82_name_counterexample, C82_precision_counterexample, C82_malformed_counterexample, C82_type_counterexample, C82_short_counterexample. The rest is proved through a model of the JSON reader. How a stream prints a double is a parameter that has to be a JSON number of six digits; scientific notation is shown to be an instance.",
  "status": "partial"
 },
 "C83": {
  "note": "The last sentence is false: C83_ray_counterexample (the rays use the orientations stored in the reconstruction, which global reconstruction sets only later), C83_unconstrained_counterexample, C83_isolated_counterexample, C83_no_points_counterexample. C83_rays_partial needs the stored orientations to be the given ones. The solver, the random draws and iteration orders are quantified parameters; that the solver refuses an ordering with parameters it does not know is part of the solver.",
  "status": "partial"
 },
 "C84": {
  "note": "The last sentence is false: C84_failure_counterexample. The rest is proved over the reals; conversion between angle-axis vectors and matrices is exact, and the solver is a parameter.",
  "status": "partial"
 },
 "C85": {
  "note": "The last sentence is false: C85_sift_length_counterexample, C85_sift_range_counterexample, C85_sift_truncated_counterexample. The rest is proved; doubles and floats are bit patterns, the rounding of descriptors is that of floats.",
  "status": "partial"
 },
 "C86": {
  "note": "The last sentence is false: C86_grayscale_counterexample, C86_empty_track_counterexample, C86_schedule_counterexample, C86_slash_counterexample. The rest is proved; single precision is rounding of rationals to 24 bits without overflow or underflow.",
  "status": "partial"
 },
 "C87": {
  "note": "Proved over the reals. Without residuals the ratio is zero over zero: C87_empty_counterexample.",
  "status": "proved"
 },
 "C88": {
  "note": "Not proved: the precision of latitude and altitude away from equator and poles. False: every point has coordinates (C88_centre_counterexample). The rest is proved over the reals with the constants of the source.",
  "status": "partial"
 },
 "C89": {
  "note": "The last sentence is false: C89_visibility_counterexample, C89_no_model_counterexample, C89_abort_counterexample, C89_distortion_counterexample, and C89_uncalibrated shows that use_mle is ignored. The rest is proved over the reals; the five-point and eight-point solvers, the focal lengths from a fundamental matrix and the singular value decomposition are parameters, and LMED is not covered.",
  "status": "partial"
 },
 "C90": {
  "note": "Proved for planes, homographies, fundamental and essential matrices (the five point solver is a parameter, the others are those of C78 and C79). Partial for relative positions: the sign of the direction is not determined, and a counterexample returns the opposite one. Counterexample for planes: the tolerance for points on a line is absolute, so for a small scene success is reported with an uninitialised plane.",
  "status": "partial"
 },
 "C91": {
  "note": "Partial: points behind the camera are inliers (counterexamples for a known orientation and for calibrated cameras). With a known orientation the threshold is applied in a plane of the world, not in the image, so its meaning depends on the orientation, and a camera that looks horizontally has no inliers at all (counterexamples). For uncalibrated cameras the four point solver is a parameter; if it finds nothing, success is reported with uninitialised values (counterexample).",
  "status": "partial"
 },
 "C92": {
  "note": "Partial: the point of a pair is taken only if the singular value decomposition happens to return the vector with the right sign, so exact observations may not be triangulated at all, and then success is reported with the point as it was before the call (counterexample). Proved: optimality over all pairs, exact inliers, all inliers for exact features if the sign is right for one pair.",
  "status": "partial"
 },
 "C93": {
  "note": "Partial: latitudes in the south come out positive (the sign of the longitude is changed instead), altitudes below the sea level too, GPS data is not read when no focal length is found, models that contain the maker are not found in the database, and a file that cannot be opened is not reported (a counterexample each). Proved: size, principal point, exact characterization of the focal length, its physical meaning for square pixels, the database lookup, and GPS where the counterexamples do not apply.",
  "status": "partial"
 },
 "C94": {
  "note": "Partial: the direction is recovered only if more than half of the matches are of finite points (C94_far_points_counterexample shows the sign is wrong otherwise); nothing is proved about the minimisation for inexact matches. Doubles are reals; the left singular vectors are a parameter assumed to belong to a singular value decomposition.",
  "status": "partial"
 },
 "C95": {
  "note": "Proved: for the four models other than fisheye the new camera is a perspective camera with the same pose, focal length, aspect ratio and skew, its size is given exactly and is at most the old one; UndistortImage is right for two cameras with separate intrinsics; UndistortReconstruction removes exactly the observations outside the new image and keeps views and tracks in agreement. False of the code: copying a camera shares the intrinsics, so the constant input camera loses its distortion, the image is only cropped and features are not moved; views with shared intrinsics have their principal point scaled repeatedly; the fisheye model with zero coefficients is not perspective. Real arithmetic.",
  "status": "partial"
 },
 "C96": {
  "note": "Proved: when it aborts, the bound of ten, the epipolar constraint for five points, and that every essential matrix that fits all points is found up to scale, provided the matrices that fit form a space of dimension four, the ten cubic equations can be solved for ten of their monomials and the eigenvalue has only one eigenvector. Missing: that nothing but essential matrices is found. The output is not cleared, so the call also returns true when matrices were in it before. The Gaussian elimination, the singular value decomposition, the solution of the linear system and the eigenvalues are parameters with their specification. Real arithmetic.",
  "status": "partial"
 },
 "C97": {
  "note": "Proved: when it aborts, one common rotation for all orientations whatever the solver does, relative rotations kept, no worse than before if the solver does not increase the cost, best and exact if it reaches the minimum. False of the code: the difference of angle-axis vectors is minimised, so a given orientation written with an angle above pi turns orientations away that are aligned already. Ceres is a parameter. Real arithmetic.",
  "status": "partial"
 },
 "C98": {
  "note": "Proved: what is constant and what is free (both directions), when the calls abort and fail, that costs do not grow, that the position keeps length one unless a step leads to the origin, and that the angular error is the least squared distance of the two rays from a plane through the baseline if the rotation is its own inverse. False of the code: one of the two factors uses the rotation in place of its inverse, so for a quarter turn about the axis and any scene of near points the true motion has a larger error than no turn at all, and the least noise makes the evaluation and with it the call fail. The solver is its trust region loop with arbitrary steps; reprojection errors are a parameter. Real arithmetic.",
  "status": "partial"
 },
 "C99": {
  "note": "Proved: the abort condition, that rotations are about the axis, that the true pose is found with and without rotation when the translation is determined and the matrix of the problem without rotation is above its threshold, that three point translations have the length of the sine of half the angle (the header says one), and that the results explain the rays if the eigenvalues are real. False of the code: three points uses eigenvalues that are not real as if they were, a scene where the matrix is singular for every turn loses the rotation although the comment says this happens only without rotation, the similarity gives negative scales without rotation, and it appends scales to those of an earlier call. Real arithmetic; eigenvalues, singular vectors and null spaces are parameters with their defining properties; FullPivLU decides by the determinant.",
  "status": "partial"
 },
 "C100": {
  "note": "Proved: the residual of the five models against their textbook equations, agreement with ProjectPoint, independence of the coordinate system and, for all models but the fisheye, of the homogeneous scale, robustness of the six losses for positive widths, the cost of a whole reconstruction, and that one point near the centre of a camera makes the whole evaluation fail. False of the code: the fisheye model and the threshold at the centre use homogeneous coordinates that are not normalised, so both depend on their scale; points behind the camera can have residual zero; the Huber loss of width zero is zero everywhere. Real arithmetic; derivatives, the search and the regimes of series in the field of view model, of points near the axis in the fisheye model and of tiny distortion in the division model are outside the equations (see C46). Ceres' losses and its treatment of failed evaluations are modelled from Ceres 1.14.",
  "status": "partial"
 },
 "C101": {
  "note": "Proved: the subgraphs divide the nodes, the cost is the normalized cut and the best of the ten tested ones, the matrices represent the graph, the eigenvalue is a lower bound of all cuts, and the only failures are fewer than ten nodes and the eigensolver. False of the code: graphs with fewer than ten nodes make Spectra throw; when three quarters of the eigenvector equal its largest entry no threshold gives a cut and 10^12 is reported with success; an object keeps the nodes of earlier calls; the output sets are not emptied. Options::num_cuts_to_test is never read. Exact arithmetic; the eigensolver is a parameter.",
  "status": "partial"
 },
 "C102": {
  "note": "Proved: the predictor in closed form and its independence of the unit, the empirical distribution of the library, the least squares property of the inlier ratio, ranges of probabilities and weights, what samples consist of and exactly when sampling ends. A threshold up to 1/e makes the predictor accept everything. False of the code: the density of the negated distances is evaluated at the distances, so with a fit bounded by zero all probabilities are one; the library's extreme value distribution function is 0 beyond the end of a distribution with negative shape; sampling never ends with too few correspondences of positive weight; the number of data points is ignored; a matrix with one column is read out of bounds. Real arithmetic; the fits, the incomplete gamma function and the solver of the quadratic program are parameters.",
  "status": "partial"
 },
 "C103": {
  "note": "Proved: what is appended, exactness of the first two rows, optimality of the last, completeness for pairs that determine the answer, and when the error is zero for lens parameters that are not positive. False of the code: with a zero in the corner of the first row, as for the identity, the call divides by zero; it returns true when all solutions are out of range; the height of a left point on the vertical axis has no influence; the error of a right pair is not zero far from the centre with a positive parameter; ranges of all correspondences but the first are ignored. A discriminant rounded to zero is excluded by hypothesis. Real arithmetic; the decompositions are parameters.",
  "status": "partial"
 },
 "C104": {
  "note": "Partial because the code falsifies parts of the claim: a record naming an image outside the component is a null dereference (C104_outside), a final newline in EGs.txt or cc.txt is read as one more record made of unassigned variables, which may replace the last pair (C104_stale), records naming the larger id first are stored unswapped (C104_reversed), two kept images with the same file name in different directories end the program (C104_same_name), and a reconstruction that has handed out ids before shifts all positions (C104_second_dataset). How characters become numbers is not modelled.",
  "status": "partial"
 },
 "C105": {
  "note": "Partial because the code falsifies parts of the claim: the call returns true although an image does not exist and leaves what was in its vectors (C105_missing_counterexample); vectors that are used again keep the features of the earlier call when the detector only appends, as the one for SIFT does (C105_reused_counterexample); after ExtractToDisk the same object writes to disk and returns empty vectors from Extract (C105_after_disk_counterexample); two images with the same name in different directories overwrite each other's file, in the order of the threads (C105_same_name_counterexample). Decoding images and detecting features are parameters; writing a file is one step.",
  "status": "partial"
 },
 "C106": {
  "note": "Partial because the code falsifies parts of the claim: all cameras share the calibration of the last file (C106_calibration_counterexample; C106_cameras_partial is for datasets whose calibration matrices are multiples of each other), names are cut at the first .camera (C106_name_counterexample), and views that share intrinsics share one principal point, so that with images of different sizes one of them is not centred (C106_shared_counterexample; C106_centre_partial is for equal sizes). How characters become numbers and decoding images are not modelled; cameras are pinhole cameras, as new views have them.",
  "status": "partial"
 },
 "C107": {
  "note": "Partial because the code falsifies parts of the claim. The gradient that VLFeat keeps per octave survives the start of the next image: C107_reuse_counterexample, and C107_compute_stale for every two images of one size (C107_reuse_partial has the condition under which reuse is right; C107_detect is for a new extractor). Describing a given keypoint first leaves VLFeat's own thresholds in the filter (C107_thresholds_counterexample). Keypoints that cannot be described are kept with uninitialised numbers (C107_compute_partial, C107_given_partial). The general ComputeDescriptors never advances and does not return (C107_base). The edge threshold is below one and works the other way round (C107_density_counterexample). Pixels, gradients and histograms are parameters; the library's own extractors are used once per image by FeatureExtractor.",
  "status": "partial"
 },
 "C108": {
  "note": "Partial because the code falsifies parts of the claim. A last line with too few numbers is accepted and the rest of the descriptor is uninitialised memory (C108_cut_counterexample; C108_cut_partial is for cuts after whole lines). The 128 numbers must be split into lines of twenty, which the documented format does not say (C108_lines_counterexample). A null keypoint vector ends the program although the header allows it (C108_abort). Numbers above 255 are taken modulo 256 (C108_wrap).",
  "status": "partial"
 },
 "C109": {
  "note": "Partial because the code falsifies parts of the claim: a negative scale is accepted and gives the error zero for points behind the cameras (C109_negative_scale), and the exhaustive variant always ends the program (C109_exhaustive). C109_similarity, C109_rigid and C109_single are the results for RANSAC and PROSAC, C109_similarity_exact and C109_rigid_exact the exact cases, C109_carry_back and C109_rigid_similarity relate the two forms. gDLS and UPnP are parameters: nothing is claimed about which solutions they find.",
  "status": "partial"
 },
 "C110": {
  "note": "Partial because the code falsifies parts of the claim: an image before the first training is read through a null pointer (C110_untrained), and the dimension is not compared with that of the training, so that more dimensions read past the means and fewer give a vector of another size (C110_dimension). C110_history_partial is the result for all histories, C110_returns says when calls return, C110_abort when they end the program. VLFeat's fitting and encoding are parameters.",
  "status": "partial"
 },
 "C111": {
  "note": "C111_report and C111_order are the claim, C111_median_unique shows that the median is determined. Two findings: for two different errors the larger is shown as the median (C111_median_even), and the program that compares reconstructions adds angles in radians to a histogram with boundaries in degrees, so that no rotation error is ever counted at five or more (C111_radians). Rational arithmetic; the text of the message is not modelled.",
  "status": "proved"
 },
 "C112": {
  "note": "Partial because the code falsifies part of the claim: a missing file ends the program instead of giving the documented null pointer (C112_missing). C112_served_partial is the result for all histories, C112_fixed for files that do not change, C112_once says that no file is read twice, C112_stale that changed files are not noticed while their names are in the cache. Reading an existing file gives an arbitrary value (an empty image if it is not an image). Calls are steps because of the mutex of the cache.",
  "status": "partial"
 },
 "C113": {
  "note": "Over the reals. C113_normal (integral, mean, variance), C113_normal_shape (symmetry and monotonicity in one equivalence), C113_uniform, C113_abort.",
  "status": "proved"
 },
 "C114": {
  "note": "Partial because the code falsifies part of the claim: a text with as many characters as the largest int overflows (undefined behaviour), of longer ones nothing is returned (C114_huge). C114_whole_partial is the result for all other lengths, C114_error for encoding errors. What the format makes is a parameter; vsnprintf is modelled by the C standard. The comparison with the size of the buffer is unsigned, so that the branch for errors is never taken; this is modelled and makes no difference.",
  "status": "partial"
 },
 "C115": {
  "note": "Partial because the code falsifies part of the claim: pairs of ids that share the second id can collide (C115_second_shared, with ids below 3000). The first half is proved in full (C115_pair_contract, C115_matrix_contract); the second half for the last component (C115_first_shared_partial, C115_matrix_last_partial). size_t has 64 bits; the hash functions of the components are parameters.",
  "status": "partial"
 }
}