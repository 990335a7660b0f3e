# Design of the formal model of TheiaSfM

The code under study is the pinned TheiaSfM checkout in `/repo` (C++). It is read as
text, never built or run. The model and all proofs are Lean 4 (4.33.0, Mathlib) in
`/verif/lean`.

## Layout

* `lean/Verif/Base/*`   – shared vocabulary: `Outcome` (ok / abort / undefined behaviour),
  association maps standing for `std::unordered_map`, 3-vectors and 3x3 matrices over a
  field, angle-axis vectors and rotation matrices over ℝ.
* `lean/Verif/Model/*`  – the model, function by function, each definition citing the file
  and lines it models and every simplification.
* `lean/Verif/Spec/*`   – small independent specifications (connectivity, maps, sets,
  polynomials, copies of a scene, ...) that do not use the model's helpers.
* `lean/Verif/Proof/*`  – helper lemmas.
* `lean/Verif/Props/*`  – the property theorems listed in `MANIFEST.json` (named `Cnn_...`),
  with non-vacuity examples beside them. A theorem with the suffix `_partial` proves part of
  its property; one with the suffix `_counterexample` proves that the code does not do
  what its documentation (or the unrestricted property) says, on a concrete witness.
* `properties.jsonl`    – the properties in English. `MANIFEST.json` – property to theorems
  (generated by `tools/manifest.py` from the sources and `tools/notes.json`).
* `AXIOMS.md`           – the axioms of every theorem (generated by `tools/axioms.py`).
* `seeded/LOG.jsonl`    – wrong programs the theorems were tested against; `seeded/README.md` says what the log leaves out.

## Modelling conventions

* `CHECK` failures and `LOG(FATAL)` are the outcome `abort`. Null dereference,
  out-of-range access, `front()` of an empty container, non-termination, reads of
  uninitialised memory and division by zero whose result is used are the outcome `ub`
  (non-termination of a loop is proved as "no amount of fuel suffices").
* `std::unordered_map` / `unordered_set` are association lists / duplicate-free lists. Where
  the code iterates over one, the iteration order is a parameter (any permutation), and
  theorems quantify over it.
* 32-bit ids are unbounded naturals; the 2^32-1 wrap-around is excluded.
* `double` arithmetic is exact arithmetic in a field (a linearly ordered field, or ℝ).
  Rounding and overflow are not modelled. Infinities and NaN appear only where a division by
  zero is the point of the property.
* Rotations are orthogonal 3x3 matrices of determinant one. Angle-axis vectors are
  modelled over ℝ (`Base/RotationMatrix.lean`), with Rodrigues' formula for
  `ceres::AngleAxisToRotationMatrix` and an arbitrary exact logarithm for the inverse.
* Random numbers are arbitrary values within the documented range (universally
  quantified); where the property is a probability it is an exact count.
* Threads are an interleaving transition system, one lock-protected region per step, or
  a schedule parameter over which the theorem quantifies.
* Numerical procedures of the libraries (singular value, eigenvalue, QR and Cholesky
  decompositions, polynomial roots, non-linear least squares, minimal solvers) are
  parameters. Where their result matters, the theorem assumes their mathematical
  specification (for example `IsSvd`, `SmallestVector`), and a lemma shows that a function
  meeting the specification exists, so that the assumption is not vacuous.
* Loops with a data-dependent number of rounds take fuel; the theorems show how much fuel
  suffices (`∃ N, ∀ fuel ≥ N`), so that the fuel is not a bound on the property.
* Files are lists of records or typed tokens; reading and writing numbers as text is
  exact.

## Properties: what is modelled, how it is proved

| id | model (file in `Verif/Model`) | proof idea |
|----|-------|-----------|
| C01-C05 | Reconstruction: one function per mutator | invariant preserved by every operation, induction over histories; frame lemmas |
| C06 | Reconstruction: `getSubReconstruction` | exact characterisation by lookups |
| C07 | Reconstruction: `save`/`load` on the serialised fields | bisimulation on histories without automatic groups; counterexample |
| C08 | Reconstruction | invariant "all groups < counter"; counterexample |
| C09 | ViewGraph: adjacency and edge maps | refinement to a function on unordered pairs |
| C10, C11 | ViewGraph: subgraph, largest component on top of C12 | lookup characterisation, connectivity |
| C12, C13 | ConnectedComponents: union-find with size cap and path compression | root forest invariant; equivalence closure |
| C14 | MinimumSpanningTree: Kruskal over sorted edges | forest invariant, exchange argument |
| C15 | TripletExtractor | counting each triangle at its first edge |
| C16 | TrackBuilder | invariants from C12/C13 |
| C17 | LRUCache: recency list and map | refinement to "last m distinct keys" |
| C18 | ThreadPool: queue, workers, stop flag as a transition system | inductive invariants, progress, ranking |
| C19 | EstimateTrack: chunk intervals | arithmetic |
| C20, C21 | Ransac: the loop with oracle sampler/estimator | loop invariant (argmin), real analysis for the bound |
| C22 | Samplers, random choices as arguments | permutation invariants, bijection |
| C23 | Quality: inlier count, MLE, LMed | list lemmas |
| C24 | Reservoir with explicit random index | induction on the stream, exact counting |
| C25, C26 | Reservoir (histogram), VisibilityPyramid | induction over adds |
| C27 | SelectTracks | greedy loop invariant |
| C28 | Cleanup: two passes and the loop | monotonicity, counterexamples |
| C29 | BundleAdjuster: residual and parameter block bookkeeping | induction over AddView/AddTrack |
| C30, C32-C34, C51 | FeatureMatcher, CascadeHasher, GuidedMatcher, ImagePairs | list lemmas, search invariants |
| C31 | MatchDB: in-memory and RocksDB databases | `Latest` histories, key injectivity |
| C35 | GeometricVerification | decision logic |
| C36, C52 | Polynomial: coefficient lists, highest degree first | link to Mathlib `Polynomial`; Rolle / extreme values |
| C37 | RootSolvers over ℝ/ℂ | algebra, counterexamples |
| C38 | GaussJordan | row-space invariance, counterexamples |
| C39, C53 | Transform: similarity and normalisation | algebra of projections |
| C40 | TwoViewInfo | algebra with Rodrigues' formula |
| C41 | TreeOrientations over a group | induction along the tree |
| C42, C43 | RotationFilters | set characterisation through C15 and the logarithm |
| C44 | TranslationFilter with schedules | weight invariants |
| C45, C61 | Export, Bundler: record-level writers and readers | index bookkeeping, exact description of the copy |
| C46 | CameraModels over ℝ | algebra; contraction of the fixed-point iteration; trigonometry |
| C47, C54 | CameraPriors: every camera model | case analysis per model |
| C48 | PriorityQueue: heap as a permutation of the live entries | refinement |
| C49 | Triangulation | linear algebra, minimality |
| C50 | Localize | decision logic, frame conditions, counterexamples |
| C55 | IntrinsicsGroups with a heap of intrinsics objects | invariant on sharing |
| C56 | EssentialMatrix | SVD algebra, chirality |
| C57 | FundamentalMatrix | algebra, null vectors |
| C58 | ProjectionMatrix: RQ, decomposition, initialisation | uniqueness of RQ |
| C59 | PoseUtil | SVD algebra, nearest orthogonal matrix |
| C60 | EstimatedPart | restriction relation through C04/C06 |
| C62 | LinearRotation: the constraint matrix, eigenvectors and projection as the code calls them | minimal trace (Ky Fan), invariant over calls |
| C63 | AlignPoints, AlignReconstructions | trace inequality for the SVD, uniqueness of similarities, C39 |
| C64 | LinearPosition: depths, baseline ratios, triplet constraints, sparse matrix, sign | C49, C15; quadratic form of the matrix, rigidity of non-coplanar triangles |
| C65 | CompanionRoots: companion matrix, balancing loop, dispatch on the degree | termination by a potential on exponents, charpoly of a power basis, C37, C52 |
| C66 | L1Solver: constructor, ADMM iteration, stopping rule | firmly nonexpansive maps, relaxed Douglas-Rachford convergence (from scratch), Farkas lemma for the dual |
| C67 | ConstrainedL1Solver: stacked matrix, two kinds of rows | as C66 with constraints |
| C68 | QpSolver: bounds, ADMM iteration, stopping rule | as C66; variational inequality of the minimiser |
| C69 | RobustRotationEstimator: numbering, linear system, both loops, state between calls | kernel of the difference matrix is trivial exactly for connected views; weighted normal equations; induction over the loops |
| C70 | LeastUnsquaredDeviationPositionEstimator: index mapping, constraint matrices, state between calls | kernel of the stacked matrices is trivial exactly for connected, oriented pairs; C67 |
| C71 | SetOutlierTracksToUnestimated and reconstruction_estimator_utils, function by function; the geometry is a parameter | each loop characterised by what it leaves of every flag, independently of the order |
| C72 | IncrementalReconstructionEstimator as a whole, composed of the models of C19, C27, C28, C50, C71; bundle adjustment writes arbitrary values to what C29 allows | invariant of all states between calls (containers, structure, observers of tracks), by induction over candidates and passes; runs that break a claim are computed by the kernel |
| C73 | GlobalReconstructionEstimator as a whole, composed of the models of C09-C11, C19, C27, C28, C71; rotation and position solvers, the rigid component and contradicted pairs are parameters | each filter is characterised by the edges it leaves (largest component); invariant of the passes; runs that break a claim are computed by the kernel |
| C74 | ReconstructionBuilder: histories of AddImage, AddTwoViewMatch and ExtractAndMatchFeatures (the database is a parameter), BuildReconstruction with any estimator, the incremental and the global estimator as instances; intrinsics objects on a heap shared by copies | invariant of the history (edges, tracks); invariant of the loop over estimations (parts, disjointness, cover); termination measure for productive estimators; runs that break a claim are computed by the kernel, non-termination by an invariant |
| C75 | TwoPointPosePartialRotation over the reals: the quadratic equation (model of C37), the choice of roots, the pose from two lengths | the quadratic is the difference of squared distances; rotation about an axis determined by one direction (Rodrigues); completeness from C37_quadratic; wrong cases by explicit numbers |
| C76 | PoseFromThreePoints over the reals: the two frames, the polynomial of degree four, the angle and the pose for each root (root finder of C65) | the polynomial is the resultant of two equations for the angles; uniqueness of a rotation from a frame; completeness through all real roots; wrong cases by explicit numbers |
| C77 | SevenPointFundamentalMatrix: the constraint rows, the null space (LU, a parameter), the cubic, the matrices for its roots | the constraints are linear in the columns of the matrix; the cubic is the determinant of the pencil; a closed counterexample for the order of the coefficients with the roots of C65
| C78 | NormalizedEightPointFundamentalMatrix: the constraint rows, null space or last singular vector, the rank two projection | least squares by the specification of the singular vector; setting the last singular value to zero gives the nearest singular matrix (proved from the decomposition)
| C79 | FourPointHomography: the action matrix, the Gram matrix, its last singular vector, the change of coordinates | the last singular vector of the Gram matrix minimises the form of the matrix (smallest eigenvector, by compactness); four eigenvectors in general position make a multiple of the identity
| C80 | PositionFromTwoRays and RelativePoseFromTwoPointsWithKnownRotation | least squares by the specification of the QR solver; null space of two rows is the cross product
| C81 | HybridReconstructionEstimator as a whole, composed of the models of C28, C50, C71, C72; rotation averaging and the solver for a pair are parameters | the invariant of C72 over all views of the reconstruction; orientations by induction over candidates and passes; the rounded square root by integer square roots; runs that break a claim are computed by the kernel |
| C82 | WriteCalibration and ReadCalibration on texts, with the JSON reader of rapidjson as a function on lists of characters; printing of doubles is a parameter | the text is decomposed into members and rows, each of which is read whatever follows it; looked up through the optional members; mistakes are computed by the kernel |
| C83 | NonlinearPositionEstimator up to the solver, as the list of residual blocks; solver, draws, rays and orders of iteration are parameters | an invariant of the choice of tracks counts the chosen tracks of each view; double counting gives the number of blocks; mistakes follow from the same lemmas |
| C84 | the residuals PairwiseRotationError, PairwiseTranslationError, PairwiseTranslationAndScaleError and NonlinearRotationEstimator over the reals; the solver is a parameter | lengths and angles by algebra on rotations; the cost is a sum of terms that vanish exactly for consistent rotations |
| C85 | the portable (cereal) file of keypoints and descriptors and the binary SIFT key file as lists of bytes, with the byte order of the machines; floats are bit patterns, rounding to 24 bits is defined on rationals | readers undo writers by induction over the lists; readers are monotone in the stream, hence cut files throw; all 256 bytes survive conversion, by kernel computation over the whole domain |
| C86 | colouring over the model of reconstructions, with images as functions, threads as a schedule that interleaves the additions under the lock, and single precision as rounding of rationals to 24 bits | additions of a schedule are a permutation of all additions; sums of bytes below 2^24 are exact, hence independent of the order; the float of a quotient has the same integer part as the quotient; witnesses for grey images, empty tracks, missing slash and deep images |
| C87 | the sequential probability ratio test and its threshold over the reals, logarithms and divisions out of their domain are undefined | invariant of the loop over the points; the probability of rejecting a good model is bounded by induction over the number of points (the likelihood ratio is a martingale); the fixed point exists by the intermediate value theorem, and steps of the iteration shrink by a constant factor once the value is above 1.05 |
| C88 | both conversions over the reals, with the decimal constants of the source; values that are not finite are undefined | the definition of geodetic coordinates by the normal of the ellipsoid determines the formulas; uniqueness because the equation of the distance along the normal is strictly monotone; the closed forms on the equator and the axis by computation. Not covered: an error bound for Olson's series elsewhere |
| C89 | estimation of two views: features from priors, sample consensus with either estimator, the visibility score; residuals are reals or infinite, solvers are parameters | the loop of sample consensus returns a model of least cost among those evaluated (C02), the cost is rewritten as the one of the specification, a sample of the truth gives the true pose (C56); the units by splitting the gradient of the epipolar residual |
| C90 | The estimators over the reals as instances of the sample consensus of C89, with the solvers of C78-C80 | The consensus theorem is turned into a statement about samples (`RobustResult`); each estimator's residual is shown to be invariant under the ambiguity of its model (sign of the normal, factor of the matrix), so the exactness theorems of the solvers bound the cost |
| C91 | The three estimators over the reals as instances of the sample consensus of C89, with the solvers of C76 and C80, and the decomposition of C58 | As C90: the completeness theorem of the three point solver bounds the cost, with enough steps for all samples at once; least squares for a known orientation; the round trip of C58 for the projection matrix |
| C92 | `EstimateTriangulation` over the reals as an instance of the sample consensus of C89 with the exhaustive sampler of C22 and the triangulation of C49; the intrinsics are parameters | The consensus theorem, transferred from observations to cameras with features; the cycle of the exhaustive sampler covers all pairs; the exactness theorem of C49 |
| C93 | The reader over an ordered field, with the attributes that OpenImageIO returns as a record, and the loading of the sensor database from its lines of text | Case analysis over the attributes; induction over the lines of the database; counterexamples by evaluation |
| C94 | the constraint matrix, the reweighted iterations, the majority test and the choice of the sign | the invariant of the loop that every iteration yields a unit vector in the kernel of the exact constraints; the kernel of the weighted matrix is the baseline; the sign by the theorems on the cheirality test; counterexample for points at infinity |
| C95 | Cameras with pointers into a heap of intrinsics, the five lens models, the boundary loops, the pixel remapping, the loops over views and features | identity of pixel -> ray -> pixel for lenses without distortion, then the loops by induction; removal of observations as composition of single removals |
| C96 | The polynomial arithmetic in four unknowns, the ten constraints, their split, the action matrix, the choice of eigenvectors | evaluation of the polynomials at the true coefficients; the constraints of Demazure hold for essential matrices; the monomials are an eigenvector of the action matrix |
| C97 | The residual, the cost, the application of the alignment; the solver is any function from costs to alignments | algebra of rotation matrices; sum of squares zero gives equality; witness with the angle 2 pi |
| C98 | The parameter blocks and their state with aliasing of intrinsics, the residuals, the trust region loop with arbitrary steps, the angular error, the unit norm parameterization | induction over the steps; the least eigenvalue of a two by two matrix as a minimum over planes; exact evaluation for the quarter turn |
| C99 | The rows of the three matrices, the linearised eigenvalue problem, the selection of eigenvalues, the division by the last entry, the branches without rotation | the rows are the coplanarity constraints for the turned rays, by polynomial identities for quaternions; companion matrix of the quadratic problem in both directions; null spaces that are lines; exact scenes for the failures |
| C100 | Parameter arrays of the five models, the residual with its threshold, the choice of the cost function and of the loss, the evaluation of a problem | textbook equations as a relation, solved case by case; linearity of the rotation; the problem of C29 gives the list of observations, which is summed as a finite set |
| C101 | Index of the nodes, triplets and matrices, cost of a cut, quartiles, the loop over the thresholds, the subgraphs | sums over matrices become sums over edges; algebraic identity between the Rayleigh quotient of a two-valued vector and the normalized cut; invariants of the loops |
| C102 | Predictor, extraction of the data, empirical distribution, quadratic program, posteriors, weights, rejection loop | closed form of the Rayleigh test; invariants of the histogram and a telescoping product; the objective as a sum of squares; induction over the draws |
| C103 | Both linear stages, the quadratic, the range filters, the lens functions, the symmetric error, the estimator | kernels and least squares from the specification of the decomposition; the quadratic as the consistency of the two lens products; uniqueness of the positive root of the lens equation |
| C104 | Model/OneDSfM: the five passes over the parsed files, on top of the model of Reconstruction and ViewGraph; the values of unassigned variables are part of the input | induction over the list, the blocks, the tracks and the records; the geometry by matrix algebra; counterexamples on a dataset of three images |
| C105 | Model/Extraction: a transition system with one job per image, four steps per job and a disk; a schedule is any list of job positions | an invariant relating every job to its start and every file to the job that wrote it last, by induction over the schedule; progress by the number of steps left; counterexamples with a detector that appends |
| C106 | Model/ImageSizes: both functions on top of the model of Reconstruction, with the intrinsics objects that cameras share | induction over the files and over the views; the geometry by matrix algebra; counterexamples with two files and with two views |
| C107 | Model/Descriptors: the extractors, the filter with its octave, thresholds and gradient buffer, and the functions of VLFeat that choose the octave; what VLFeat computes from pixels is a parameter | induction over keypoints and octaves with an invariant on the octave of the gradient buffer; invariant over histories; counterexamples with two images |
| C108 | Model/SiftText: files as lines of words, fscanf and fgets on them, with the memory of each descriptor as a parameter | induction over the features for reading and for cut files; induction over the loop for the counts; counterexamples |
| C109 | Model/AlignCameras: both estimators, their errors, the change between the two forms of a solution and the calls of the consensus; gDLS, UPnP and the intrinsics are parameters | the general result on sample consensus (C90, C91) with the errors characterised; algebra of rotations |
| C110 | Model/Fisher: the extractor with its sampler and mixture; VLFeat's fitting and encoding are parameters | invariant over all sequences of calls, with the invariant of the reservoir sampler |
| C111 | Model/PoseError: the errors, the two histograms (C25) and the numbers of the message | invariant over all calls (errors up to their order, histograms filled in the order of the calls); the element in the middle of a sorted list; C25 |
| C112 | Model/ImageCache: the cache on top of the model of C17, with a disk that can change between calls | refinement of a description in terms of the names used last; induction over the calls |
| C113 | Model/Distribution: both classes over the reals | comparison with Mathlib's Gaussian density; integral of an indicator |
| C114 | Model/StringPrintf: both functions with the two calls of vsnprintf, the unsigned comparison and the sizes of the buffers | cases on the length |
| C115 | Model/Hash: the three functions on 64 bit words | induction over the entries; the combination is injective in the new hash for a fixed seed |

No property of the list is outside the model. Properties that are false of the code, in
whole or in part, have a `_counterexample` theorem and, where part of them holds, a
`_partial` theorem; their status in the manifest is "partial" unless the English
statement names the exception itself.

## Findings: where the code does not do what one expects

`FINDINGS.md` lists every proved counterexample with its explanation (generated by
`tools/findings.py` from the doc comments of the theorems). Observations about the code
that are outside the model, and so only remarks: the in-memory database writes features
without taking its lock while images are processed in parallel; a random generator passed
in the options of the translation filter is shared by threads without a lock.

## Trusted base

* Lean 4.33.0's kernel, and the axioms `propext`, `Classical.choice` and `Quot.sound`
  only; `AXIOMS.md` lists them per theorem. There are no axioms of our own, no `sorry`, no
  `native_decide`, no `bv_decide`.
* The reading of the C++ recorded in the comments of `Verif/Model/*`, with the
  simplifications stated there and the conventions above.
* The assumed behaviour of what the code calls: STL containers and heaps, Eigen, Ceres,
  glog, cereal, RocksDB, Spectra, stated where used as parameters or hypotheses.

## Modelled and not modelled

Modelled: the functions cited in `Verif/Model/*`. They come from these files of `src/theia` (the comment of each
definition says which lines and what was simplified; numerical steps named there as parameters are not modelled):

* `image`: `image`, `image_cache`
* `image/descriptor`: `akaze_descriptor`, `create_descriptor_extractor`, `descriptor_extractor`, `sift_descriptor`
* `image/keypoint_detector`: `keypoint`, `sift_parameters`
* `io`: `bundler_file_reader`, `eigen_serializable`, `import_nvm_file`, `populate_image_sizes`, `read_1dsfm`, `read_bundler_files`, `read_calibration`, `read_keypoints_and_descriptors`, `read_strecha_dataset`, `reconstruction_reader`, `reconstruction_writer`, `sift_binary_file`, `sift_text_file`, `write_bundler_files`, `write_calibration`, `write_colmap_files`, `write_keypoints_and_descriptors`, `write_nvm_file`, `write_ply_file`
* `matching`: `brute_force_feature_matcher`, `cascade_hasher`, `cascade_hashing_feature_matcher`, `feature_matcher`, `feature_matcher_options`, `feature_matcher_utils`, `features_and_matches_database`, `fisher_vector_extractor`, `guided_epipolar_matcher`, `in_memory_features_and_matches_database`, `indexed_feature_match`, `rocksdb_features_and_matches_database`
* `math`: `closed_form_polynomial_solver`, `constrained_l1_solver`, `distribution`, `find_polynomial_roots_companion_matrix`, `histogram`, `l1_solver`, `polynomial`, `qp_solver`, `reservoir_sampler`, `rotation`, `util`
* `math/graph`: `connected_components`, `minimum_spanning_tree`, `normalized_graph_cut`, `triplet_extractor`
* `math/matrix`: `gauss_jordan`, `rq_decomposition`, `sparse_cholesky_llt`, `spectra_linear_operator`
* `math/probability`: `sequential_probability_ratio`
* `sfm`: `camera_intrinsics_prior`, `colorize_reconstruction`, `create_and_initialize_ransac_variant`, `estimate_track`, `estimate_twoview_info`, `exif_reader`, `extract_maximally_parallel_rigid_subgraph`, `feature`, `feature_extractor`, `feature_extractor_and_matcher`, `filter_view_graph_cycles_by_rotation`, `filter_view_pairs_from_orientation`, `filter_view_pairs_from_relative_translation`, `find_common_tracks_in_views`, `find_common_views_by_name`, `global_reconstruction_estimator`, `gps_converter`, `hybrid_reconstruction_estimator`, `incremental_reconstruction_estimator`, `localize_view_to_reconstruction`, `pose_error`, `reconstruction`, `reconstruction_builder`, `reconstruction_estimator`, `reconstruction_estimator_options`, `reconstruction_estimator_utils`, `rigid_transformation`, `select_good_tracks_for_bundle_adjustment`, `set_camera_intrinsics_from_priors`, `set_outlier_tracks_to_unestimated`, `similarity_transformation`, `track`, `track_builder`, `two_view_match_geometric_verification`, `twoview_info`, `types`, `undistort_image`, `view`, `visibility_pyramid`
* `sfm/bundle_adjustment`: `angular_epipolar_error`, `bundle_adjust_two_views`, `bundle_adjuster`, `bundle_adjustment`, `create_loss_function`, `optimize_relative_position_with_known_rotation`, `unit_norm_three_vector_parameterization`
* `sfm/camera`: `camera`, `camera_intrinsics_model`, `camera_intrinsics_model_type`, `create_reprojection_error_cost_function`, `division_undistortion_camera_model`, `fisheye_camera_model`, `fov_camera_model`, `pinhole_camera_model`, `pinhole_radial_tangential_camera_model`, `projection_matrix_utils`, `reprojection_error`
* `sfm/estimators`: `camera_and_feature_correspondence_2d_3d`, `estimate_absolute_pose_with_known_orientation`, `estimate_calibrated_absolute_pose`, `estimate_dominant_plane_from_points`, `estimate_essential_matrix`, `estimate_fundamental_matrix`, `estimate_homography`, `estimate_radial_distortion_homography`, `estimate_relative_pose`, `estimate_relative_pose_with_known_orientation`, `estimate_rigid_transformation_2d_3d`, `estimate_similarity_transformation_2d_3d`, `estimate_triangulation`, `estimate_uncalibrated_absolute_pose`, `estimate_uncalibrated_relative_pose`, `feature_correspondence_2d_3d`
* `sfm/global_pose_estimation`: `compute_triplet_baseline_ratios`, `least_unsquared_deviation_position_estimator`, `linear_position_estimator`, `linear_rotation_estimator`, `nonlinear_position_estimator`, `nonlinear_rotation_estimator`, `pairwise_rotation_error`, `pairwise_translation_and_scale_error`, `pairwise_translation_error`, `robust_rotation_estimator`
* `sfm/pose`: `eight_point_fundamental_matrix`, `essential_matrix_utils`, `five_point_relative_pose`, `four_point_homography`, `four_point_relative_pose_partial_rotation`, `fundamental_matrix_util`, `perspective_three_point`, `position_from_two_rays`, `relative_pose_from_two_points_with_known_rotation`, `seven_point_fundamental_matrix`, `sim_transform_partial_rotation`, `six_point_radial_distortion_homography`, `three_point_relative_pose_partial_rotation`, `two_point_pose_partial_rotation`, `util`
* `sfm/transformation`: `align_point_clouds`, `align_reconstructions`, `align_rotations`, `transform_reconstruction`
* `sfm/triangulation`: `triangulation`
* `sfm/view_graph`: `orientations_from_maximum_spanning_tree`, `remove_disconnected_view_pairs`, `view_graph`
* `solvers`: `evsac_sampler`, `exhaustive_ransac`, `exhaustive_sampler`, `inlier_support`, `lmed`, `lmed_quality_measurement`, `mle_quality_measurement`, `prosac_sampler`, `random_sampler`, `sample_consensus_estimator`
* `util`: `filesystem`, `hash`, `lru_cache`, `map_util`, `mutable_priority_queue`, `random`, `string`, `stringprintf`, `threadpool`, `util`

Not modelled, files of `src/theia` no definition cites:

* minimal solvers `sfm/pose/upnp`, `build_upnp_action_matrix*`, `dls_pnp`, `dls_impl`, `four_point_focal_length*`,
  `five_point_focal_length_radial_distortion` and `sfm/transformation/gdls_similarity_transform` (parameters of the models
  that call them), `math/find_polynomial_roots_jenkins_traub`
* `image/keypoint_detector/keypoint_detector`, `sift_detector`, `matching/create_feature_matcher`,
  `math/matrix/sparse_matrix`, `linear_operator`, `sfm/bundle_adjustment/orthogonal_vector_error`
* `matching/local_features_and_matches_database`, which the build does not compile
* types and interfaces without behaviour of their own: `alignment`, `matching/distance`, `feature_correspondence`,
  `image_pair_match`, `keypoints_and_descriptors`, `global_descriptor_extractor`, `sfm/view_triplet`,
  `position_estimator`, `rotation_estimator`, `solvers/estimator`, `sampler`, `quality_measurement`, and the thin
  subclasses `solvers/ransac`, `prosac`, `evsac`
* `util/timer`, `enable_enum_bitmask_operators`, and the tests

Not modelled in general: the iterations of non-linear optimisation (Ceres), eigenvalue and singular value decompositions
(parameters with their specification), image processing inside VLFeat, Akaze and OpenImageIO, the applications (but for
the use of angles in C111), floating-point rounding, and the memory model below the level of locks.
