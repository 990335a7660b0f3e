{"id": "C01", "title": "Views and tracks of a reconstruction always point at each other", "statement": "After any sequence of AddView, RemoveView, AddTrack, AddObservation, RemoveTrack calls on a Reconstruction (starting from an empty one), view v reports a feature for track t if and only if track t exists and lists v among its views; in particular no view mentions a removed track and no track mentions a removed view.", "quantifier": "every finite sequence of Reconstruction mutations with arbitrary arguments that does not hit a CHECK failure", "why_tests_cant": "The claim is over every history of API calls; a unit test runs one short hand-written history.", "anchors": ["src/theia/sfm/reconstruction.cc: Reconstruction::AddView, RemoveView, AddTrack, AddObservation, RemoveTrack", "src/theia/sfm/view.cc", "src/theia/sfm/track.cc"]}
{"id": "C02", "title": "View names and view ids stay in one-to-one correspondence and ids are never reused", "statement": "After any sequence of Reconstruction mutations, ViewIdFromName(View(v)->Name()) = v for every view v and every name that resolves, resolves to an existing view with that name; a successful AddView/AddTrack returns an id that was never returned before in the history, and AddView with a name already present (or empty) returns the invalid id and adds nothing.", "quantifier": "every finite sequence of Reconstruction mutations, fewer than 2^32-1 allocations", "why_tests_cant": "The claim is over every history of API calls; a unit test runs one short hand-written history.", "anchors": ["src/theia/sfm/reconstruction.cc: AddView, RemoveView, ViewIdFromName", "src/theia/sfm/types.h"]}
{"id": "C03", "title": "Camera intrinsics groups partition the views", "statement": "After any sequence of Reconstruction mutations every view belongs to exactly one camera intrinsics group, that group lists it, no listed group is empty, no group lists a removed view, and all views of one group share one camera intrinsics object.", "quantifier": "every finite sequence of Reconstruction mutations including AddView with caller-chosen group ids", "why_tests_cant": "The claim is over every history of API calls; a unit test runs one short hand-written history.", "anchors": ["src/theia/sfm/reconstruction.cc: AddView(name, group), RemoveView, CameraIntrinsicsGroupIdFromViewId, GetViewsInCameraIntrinsicGroup"]}
{"id": "C04", "title": "Removing a view or track removes exactly that and leaves no empty track behind", "statement": "RemoveView(v) on an existing view removes v, its name and its group membership, drops v from every track, deletes exactly those tracks whose only view was v, and changes no other view, track, feature or estimate; RemoveTrack(t) removes t and exactly its features. On unknown ids both return false and change nothing.", "quantifier": "every reachable reconstruction and every view or track id", "why_tests_cant": "The claim is over every history of API calls; a unit test runs one short hand-written history.", "anchors": ["src/theia/sfm/reconstruction.cc: RemoveView, RemoveTrack"]}
{"id": "C05", "title": "AddTrack is all-or-nothing", "statement": "AddTrack(observations) succeeds exactly when there are at least two observations, all in distinct views (all existing, otherwise the process aborts); on success a new track with exactly those observations exists and nothing else changed; on failure the reconstruction is unchanged. AddObservation adds exactly one observation or reports false and changes nothing.", "quantifier": "every reachable reconstruction and every observation list", "why_tests_cant": "The claim is over every input of unbounded size; a unit test samples a handful of inputs.", "anchors": ["src/theia/sfm/reconstruction.cc: AddTrack(vector), AddObservation, DuplicateViewsExistInTrack"]}
{"id": "C06", "title": "A sub-reconstruction is exactly the restriction to the chosen views", "statement": "GetSubReconstruction(S) into an empty destination yields exactly the views of S, with their names, ids and groups; exactly the tracks observed by some view of S, each listing exactly its views inside S; the result satisfies the consistency laws of C01-C03 and never reuses ids of the source.", "quantifier": "every reachable reconstruction and every set of view ids", "why_tests_cant": "The claim is over every input of unbounded size; a unit test samples a handful of inputs.", "anchors": ["src/theia/sfm/reconstruction.cc: GetSubReconstruction"]}
{"id": "C07", "title": "Saving and loading a reconstruction restores its behaviour", "statement": "Writing a reconstruction and reading it back gives an object on which every later API call returns the same as on the original. (False: the group-id counter is not serialised; the proved part is that all queries agree and that every future behaviour agrees for histories that never use automatic groups.)", "quantifier": "every reachable reconstruction and every continuation", "why_tests_cant": "The claim is over every history of API calls; a unit test runs one short hand-written history.", "anchors": ["src/theia/sfm/reconstruction.h: Reconstruction::serialize", "src/theia/io/reconstruction_reader.cc", "src/theia/io/reconstruction_writer.cc"]}
{"id": "C08", "title": "AddView(name) without a group gives the view intrinsics of its own", "statement": "AddView(name) puts the new view in a group containing only that view. (False when the caller has used explicit group ids: the automatically numbered group can collide with one; proved for histories that never pass an explicit group id.)", "quantifier": "every finite sequence of Reconstruction mutations", "why_tests_cant": "The claim is over every history of API calls; a unit test runs one short hand-written history.", "anchors": ["src/theia/sfm/reconstruction.cc: AddView(name), AddView(name, group)"]}
{"id": "C09", "title": "A view graph behaves as a symmetric edge map", "statement": "After any sequence of AddEdge, RemoveEdge, RemoveView calls, GetEdge(a,b) equals GetEdge(b,a) and returns the value last given to AddEdge for the unordered pair {a,b} since it was last removed; self-edges are never stored; the neighbours reported for a are exactly the b with an edge; edge and view counts agree with the map.", "quantifier": "every finite sequence of ViewGraph mutations", "why_tests_cant": "The claim is over every history of API calls; a unit test runs one short hand-written history.", "anchors": ["src/theia/sfm/view_graph/view_graph.cc: AddEdge, RemoveEdge, RemoveView, GetEdge, GetNeighborIdsForView, NumEdges"]}
{"id": "C10", "title": "Extracting a subgraph keeps exactly the edges inside the chosen views", "statement": "ExtractSubgraph(S) yields exactly the edges of the graph with both ends in S with their values; GetLargestConnectedComponentIds returns a maximal connected set of views with at least as many views as any other, and aborts exactly when the graph has no edge.", "quantifier": "every reachable view graph, every set of views, every iteration order", "why_tests_cant": "The claim is over every input of unbounded size; a unit test samples a handful of inputs.", "anchors": ["src/theia/sfm/view_graph/view_graph.cc: ExtractSubgraph, GetLargestConnectedComponentIds"]}
{"id": "C11", "title": "RemoveDisconnectedViewPairs leaves one connected component", "statement": "After RemoveDisconnectedViewPairs on a graph with an edge, every two views that still have an edge are connected, the surviving edges are exactly the edges of a largest component, and the returned set is exactly the removed views.", "quantifier": "every view graph with at least one edge and every iteration order", "why_tests_cant": "The claim is over every input of unbounded size; a unit test samples a handful of inputs.", "anchors": ["src/theia/sfm/view_graph/remove_disconnected_view_pairs.cc: RemoveDisconnectedViewPairs"]}
{"id": "C12", "title": "Unbounded connected components are exactly graph connectivity", "statement": "With no size limit, after any sequence of AddEdge calls two nodes are reported in the same component iff a path of added edges connects them, and Extract returns each node in exactly one component, two nodes sharing a component iff connected.", "quantifier": "every finite edge sequence over any node type", "why_tests_cant": "The claim is over every history of API calls; a unit test runs one short hand-written history.", "anchors": ["src/theia/math/graph/connected_components.h: ConnectedComponents::AddEdge, FindRoot, Extract, NodesInSameConnectedComponent"]}
{"id": "C13", "title": "The component size limit is never exceeded", "statement": "With limit m >= 1, no component returned by Extract ever has more than m nodes, every component is connected by added edges, every node of an added edge is in exactly one component, and an edge leaves its ends separated only if merging their components at that moment would have exceeded m.", "quantifier": "every finite edge sequence and every limit", "why_tests_cant": "The claim is over every history of API calls; a unit test runs one short hand-written history.", "anchors": ["src/theia/math/graph/connected_components.h: ConnectedComponents(max_connected_component_size), AddEdge"]}
{"id": "C14", "title": "The minimum spanning tree is a spanning tree of minimum weight", "statement": "On a graph without self edges, Extract returns true iff the graph is nonempty and connected, and then the edges returned form a spanning tree whose total weight is at most that of any other spanning tree. (With self edges it can return true for a non-spanning edge set; proved as a counterexample.)", "quantifier": "every finite weighted edge list over any node type and totally ordered weights", "why_tests_cant": "The claim is over every input of unbounded size; a unit test samples a handful of inputs.", "anchors": ["src/theia/math/graph/minimum_spanning_tree.h: MinimumSpanningTree::AddEdge, Extract"]}
{"id": "C15", "title": "Triplet extraction finds every triangle exactly once", "statement": "TripletExtractor lists every triangle of the graph exactly once over all returned groups, lists nothing that is not a triangle, and two triplets sharing an edge are in the same group.", "quantifier": "every finite edge list and iteration order", "why_tests_cant": "The claim is over every input of unbounded size; a unit test samples a handful of inputs.", "anchors": ["src/theia/math/graph/triplet_extractor.h: TripletExtractor::ExtractTriplets"]}
{"id": "C16", "title": "Tracks built from matches never contain two features of one image", "statement": "TrackBuilder::BuildTracks adds tracks such that each track has at most one feature per view and at most max_track_length features, all features in a track are connected through the given correspondences, no (view, feature) pair is in two tracks, and with min_track_length >= 2 building never aborts. (A built track can be shorter than min_track_length; proved as a counterexample.)", "quantifier": "every finite sequence of AddFeatureCorrespondence calls and every option setting", "why_tests_cant": "The claim is over every history of API calls; a unit test runs one short hand-written history.", "anchors": ["src/theia/sfm/track_builder.cc: AddFeatureCorrespondence, BuildTracks"]}
{"id": "C17", "title": "The LRU cache is a transparent bounded cache", "statement": "For any sequence of Fetch calls on an LRUCache of capacity m >= 1 with a deterministic entry function, every Fetch returns the value of that function for the key, the cache never holds more than m entries, it holds exactly the m most recently used distinct keys, and every call that does not hit invokes the entry function exactly once.", "quantifier": "every finite sequence of Fetch/Insert calls, every capacity", "why_tests_cant": "The claim is over every history of API calls; a unit test runs one short hand-written history.", "anchors": ["src/theia/util/lru_cache.h: LRUCache::Fetch, Insert, ExistsInCache"]}
{"id": "C18", "title": "The thread pool runs every task exactly once and its destructor waits for them", "statement": "For any number of workers and any interleaving, each task passed to ThreadPool::Add starts at most once, tasks start in the order added, and when the destructor returns every added task has finished; no interleaving with live workers deadlocks.", "quantifier": "every interleaving of any number of workers, any number of tasks added and every point of destruction", "why_tests_cant": "Schedules are chosen by the OS; a unit test observes only the few schedules that happen.", "anchors": ["src/theia/util/threadpool.h: ThreadPool::Add", "src/theia/util/threadpool.cc: ThreadPool::ThreadPool, ~ThreadPool"]}
{"id": "C19", "title": "Parallel track estimation processes each track exactly once", "statement": "TrackEstimator splits the tracks to estimate into chunks which together cover each selected track exactly once for any positive thread count and chunk size, so the resulting sets of triangulated / failed tracks do not depend on the thread count or schedule. (With a non-positive chunk size the loop never ends or attempts nothing; proved as a counterexample.)", "quantifier": "every number of tracks, threads and step size, every completion order", "why_tests_cant": "Needs all sizes and schedules.", "anchors": ["src/theia/sfm/estimate_track.cc: TrackEstimator::EstimateTracks, EstimateTrackSet"]}
{"id": "C20", "title": "Sample consensus returns the best model it evaluated within its iteration budget", "statement": "SampleConsensusEstimator::Estimate performs between min_iterations and max_iterations iterations, stops early only when enough iterations for the inlier ratio of an evaluated model were made, returns the model with the lowest cost among all models evaluated (first such; the caller's initial value if no sample gave a model), and reports inliers/confidence computed from that model.", "quantifier": "every data set, sampler behaviour, estimator and parameter setting", "why_tests_cant": "Quantifies over all random samples and all models an estimator may produce.", "anchors": ["src/theia/solvers/sample_consensus_estimator.h: Estimate, ComputeMaxIterations"]}
{"id": "C21", "title": "The adaptive RANSAC iteration bound respects its limits and confidence", "statement": "ComputeMaxIterations always returns a value in [min_iterations, max_iterations], is non-increasing in the inlier ratio, and the number of iterations it returns gives failure probability at most that requested unless cut by max_iterations. (False as coded because the log ratio is truncated rather than rounded up; proved: one more iteration is enough up to the factor exp((k+1)*2^-52) due to the epsilon in the code, and a counterexample.)", "quantifier": "every inlier ratio, sample size and failure probability", "why_tests_cant": "The claim is over every input of unbounded size; a unit test samples a handful of inputs.", "anchors": ["src/theia/solvers/sample_consensus_estimator.h: ComputeMaxIterations"]}
{"id": "C22", "title": "Samplers return valid minimal samples", "statement": "RandomSampler returns min_num_samples distinct in-range data for every random outcome and every such ordered subset occurs for exactly one choice of the random numbers; a new ExhaustiveSampler enumerates every pair exactly once per cycle (re-initialising a used one for fewer data can give out-of-range indices); ProsacSampler indices are distinct and in range whenever the subset size it uses is below the number of data points (out-of-range access is otherwise possible).", "quantifier": "every data size, sample size, call count and random outcome", "why_tests_cant": "Quantifies over all random outcomes.", "anchors": ["src/theia/solvers/random_sampler.cc: RandomSampler::Sample", "src/theia/solvers/exhaustive_sampler.cc: ExhaustiveSampler::Sample", "src/theia/solvers/prosac_sampler.cc: ProsacSampler::Sample"]}
{"id": "C23", "title": "Inlier bookkeeping matches the threshold", "statement": "InlierSupport and MLE quality measurements report exactly the indices whose residual is below the threshold, cost is monotone in each residual, and MLE cost lies between 0 and n times the threshold. The least-median cost of two or more residuals has at least half of the squared residuals on each side (it is not the exact median for odd counts) and at least half of the data are inliers unless the cost is zero, when none is.", "quantifier": "every residual vector and threshold", "why_tests_cant": "The claim is over every input of unbounded size; a unit test samples a handful of inputs.", "anchors": ["src/theia/solvers/inlier_support.h: ComputeCost", "src/theia/solvers/mle_quality_measurement.h: ComputeCost", "src/theia/solvers/lmed_quality_measurement.h: CalculateMedianOfSquaredResiduals"]}
{"id": "C24", "title": "Reservoir sampling is uniform", "statement": "After adding N >= K elements to a ReservoirSampler of size K, it holds K elements of the stream at distinct stream positions and each stream element is present with probability exactly K/N; with N < K it holds all of them in order.", "quantifier": "every stream length and reservoir size, all random outcomes weighted by probability", "why_tests_cant": "A probability over all outcomes for every length cannot be tested exactly.", "anchors": ["src/theia/math/reservoir_sampler.h: AddElementToSampler"]}
{"id": "C25", "title": "A histogram loses no sample", "statement": "For any increasing bucket boundaries, Histogram::Add increments exactly one bucket, the bucket whose boundaries enclose the value, so the total equals the number of Add calls for every sequence, and the printed lines show these counts. (Integer histograms have first boundary 0, so negative values write out of bounds; proved as a counterexample.)", "quantifier": "every boundary list and sequence of values", "why_tests_cant": "The claim is over every history of API calls; a unit test runs one short hand-written history.", "anchors": ["src/theia/math/histogram.h: Histogram::Add"]}
{"id": "C26", "title": "The visibility score depends only on the set of occupied cells and rewards spread", "statement": "VisibilityPyramid::ComputeScore is independent of the order in which points are added and adding a point never lowers it; each level counts each occupied cell once.", "quantifier": "every image size, pyramid depth and point sequence", "why_tests_cant": "The claim is over every history of API calls; a unit test runs one short hand-written history.", "anchors": ["src/theia/sfm/visibility_pyramid.cc: AddPoint, ComputeScore"]}
{"id": "C27", "title": "Track subsampling keeps every view constrained", "statement": "SelectGoodTracksForBundleAdjustment selects only estimated tracks of estimated views and every estimated view observes at least min(k, number of its estimated tracks) selected tracks, where k is the requested minimum per view; in every occupied image grid cell of every view a track is selected. (The documented preference for long tracks is false of the code: the shortest track of a cell is taken, and the ranking of the rest is by track id; shown with counterexamples.)", "quantifier": "every reconstruction and option setting, every iteration order", "why_tests_cant": "The claim is over every input of unbounded size; a unit test samples a handful of inputs.", "anchors": ["src/theia/sfm/select_good_tracks_for_bundle_adjustment.cc: SelectGoodTracksForBundleAdjustment, SelectTopRankedTracksInView"]}
{"id": "C28", "title": "Underconstrained cleanup reaches a consistent state", "statement": "After the underconstrained clean-up of the incremental pipeline, every estimated view sees at least 3 estimated tracks and every estimated track is seen by at least 2 estimated views, and every view that lost its estimate is queued again for localisation. (False: the loop stops as soon as either pass changes nothing and only looks at the last pass; proved with counterexamples, plus the parts that hold.)", "quantifier": "every reconstruction state", "why_tests_cant": "The claim is over every history of API calls; a unit test runs one short hand-written history.", "anchors": ["src/theia/sfm/incremental_reconstruction_estimator.cc: SetUnderconstrainedAsUnestimated", "src/theia/sfm/reconstruction_estimator_utils.cc: SetUnderconstrainedTracksToUnestimated, SetUnderconstrainedViewsToUnestimated"]}
{"id": "C29", "title": "Bundle adjustment counts every observation exactly once", "statement": "Bundle adjusting views V and tracks T adds exactly one residual for every observation of an estimated track by an estimated view where the view is in V or the track in T, and none otherwise; 3D points are variable iff their track is in T; camera extrinsics are variable iff their view is in V.", "quantifier": "every reconstruction, every V and T", "why_tests_cant": "The claim is over every input of unbounded size; a unit test samples a handful of inputs.", "anchors": ["src/theia/sfm/bundle_adjustment/bundle_adjuster.cc: AddView, AddTrack", "src/theia/sfm/bundle_adjustment/bundle_adjustment.cc"]}
{"id": "C30", "title": "Feature matching considers every pair once and symmetric matches are mutual", "statement": "FeatureMatcher::MatchImages with no explicit pair list matches every unordered image pair exactly once for any thread count; IntersectMatches keeps exactly the forward matches whose reverse is a backward match; brute force with the ratio test returns only the nearest descriptor and only if it beats the runner-up by the ratio.", "quantifier": "every image list, descriptor set and iteration order", "why_tests_cant": "The claim is over every input of unbounded size; a unit test samples a handful of inputs.", "anchors": ["src/theia/matching/feature_matcher.cc: MatchImages", "src/theia/matching/feature_matcher_utils.cc: IntersectMatches", "src/theia/matching/brute_force_feature_matcher.cc: GetMatches"]}
{"id": "C31", "title": "The match databases return what was stored", "statement": "For any sequence of Put calls, Get returns the latest value put for that key, for features, intrinsics priors and image-pair matches; distinct pairs never interfere. (False for the on-disk key encoding when image names contain the separator; proved as a counterexample, and proved when they do not.)", "quantifier": "every sequence of Put/Get calls and every key string", "why_tests_cant": "The claim is over every history of API calls; a unit test runs one short hand-written history.", "anchors": ["src/theia/matching/in_memory_features_and_matches_database.cc", "src/theia/matching/rocksdb_features_and_matches_database.cc: ComposeKey..."]}
{"id": "C32", "title": "Cascade hashing never reads an out-of-range bucket or too few candidates", "statement": "Bucket ids computed by the cascade hasher are always below the number of buckets and whenever it selects the two nearest of the candidate list at least two distinct candidates exist.", "quantifier": "every descriptor set and every hash outcome", "why_tests_cant": "The claim is over every input of unbounded size; a unit test samples a handful of inputs.", "anchors": ["src/theia/matching/cascade_hasher.cc: CreateHashedSiftDescriptors, MatchImages"]}
{"id": "C33", "title": "Guided matching encodes and groups epipolar lines without loss", "statement": "Decoding an encoded epipolar-line endpoint pair gives the pixels of the endpoints; codes are equal iff the pixels are and sort as the pixels do. Every unmatched feature whose line meets the feature box in two listed points is in exactly one group, the endpoints of a group are the means of those of its members, and a new group starts exactly when a line is farther than the maximal distance from that mean. (Lines through a corner of the box are listed more than twice and skipped, and coordinates beyond 16 bits are undefined: shown as counterexamples.)", "quantifier": "every line, box, set of features and match set with coordinates in the 16-bit range", "why_tests_cant": "The claim is over every input of unbounded size; a unit test samples a handful of inputs.", "anchors": ["src/theia/matching/guided_epipolar_matcher.cc: EncodeLineEndpoints, DecodeLineEndpoints, FindEpipolarLineIntersection, GroupEpipolarLines"]}
{"id": "C34", "title": "Image-pair selection by global descriptors returns exactly the neighbour pairs", "statement": "The selected pair list contains a pair of images iff one is among the k nearest images of the other by global descriptor distance, or the pair comes from query expansion over such neighbours; it contains no self pair and no duplicate, is sorted, and has the smaller index first. (Which pairs query expansion adds depends on the order in which images are processed, and a negative neighbour option is an out-of-range access: counterexamples.)", "quantifier": "every number of images, every score matrix, every partial sort meeting its specification", "why_tests_cant": "The claim is over every input of unbounded size; a unit test samples a handful of inputs.", "anchors": ["src/theia/sfm/feature_extractor_and_matcher.cc: SelectImagePairsWithGlobalDescriptorMatching"]}
{"id": "C35", "title": "A verified match has more inliers than the configured minimum", "statement": "Geometric verification succeeds only if the matches given, the inliers of the relative pose and, with bundle adjustment on, the triangulated correspondences left each pass the minimum test; the correspondences returned come from the input in their order and passed every enabled check. (A pair with exactly the documented minimum is rejected, and a negative minimum rejects everything: counterexamples.)", "quantifier": "every match set, option setting, pose estimator, triangulation and bundle adjustment result", "why_tests_cant": "The claim is over every input of unbounded size; a unit test samples a handful of inputs.", "anchors": ["src/theia/sfm/two_view_match_geometric_verification.cc: VerifyMatches, CreateCorrespondencesFromIndexedMatches, TriangulatePoints, BundleAdjustRelativePose"]}
{"id": "C36", "title": "Polynomial arithmetic is exact as polynomial algebra", "statement": "MultiplyPolynomials, AddPolynomials, DifferentiatePolynomial, RemoveLeadingZeros and EvaluatePolynomial agree with the product, sum, derivative, normal form and value of the represented polynomials; DividePolynomial returns quotient and remainder with dividend = quotient*divisor + remainder and deg remainder < deg divisor for divisors of degree at least one. (It never terminates for a constant divisor, and leading zeros of the dividend can ask for a quotient of negative size: counterexamples.)", "quantifier": "all coefficient vectors over a field", "why_tests_cant": "The claim is over every input of unbounded size; a unit test samples a handful of inputs.", "anchors": ["src/theia/math/polynomial.cc: MultiplyPolynomials, AddPolynomials, DifferentiatePolynomial, DividePolynomial, RemoveLeadingZeros", "src/theia/math/polynomial.h: EvaluatePolynomial"]}
{"id": "C37", "title": "Closed-form root solvers return roots", "statement": "FindQuadraticPolynomialRoots and SolveQuadratic return exactly the roots of the quadratic; SolveCubic and SolveQuartic return roots of the polynomial; the Reals variants return the roots whose imaginary part is within the tolerance. (a x^2 = 0 gives NaN; every cubic a x^3+b x^2+c x+d with 3ac > b^2 and a nonzero depressed constant term gets three numbers none of which is a root; a quartic with tiny coefficients can divide by zero; the Reals variants without tolerance return the real parts of non-real roots: counterexamples.)", "quantifier": "all real coefficients", "why_tests_cant": "The claim is over every input of unbounded size; a unit test samples a handful of inputs.", "anchors": ["src/theia/math/polynomial.cc: FindQuadraticPolynomialRoots", "src/theia/math/closed_form_polynomial_solver.cc: SolveQuadratic, SolveQuadraticReals, SolveCubic, SolveCubicReals, SolveQuartic, SolveQuarticReals"]}
{"id": "C38", "title": "Gauss-Jordan elimination preserves the solution set", "statement": "When GaussJordan ends without a zero pivot the equations of the result have the same solutions as those of the input; when no nonzero coefficient is left for being below 1e-9 the processed block is the identity, so the right-hand column gives the unique solution. (It divides by zero on an invertible matrix because the pivot search skips the last row; entries below the threshold can grow; a one-row matrix aborts: counterexamples.)", "quantifier": "all matrices over a field, all row limits", "why_tests_cant": "The claim is over every input of unbounded size; a unit test samples a handful of inputs.", "anchors": ["src/theia/math/matrix/gauss_jordan.h: GaussJordan, TopDownGaussJordan, BottomUpGaussJordan"]}
{"id": "C39", "title": "A similarity transform of a reconstruction changes no reprojection", "statement": "TransformReconstruction with rotation R, translation t, scale s>0 leaves the projection of every estimated point in every estimated camera unchanged and multiplies its depth by s; transforming and then applying the inverse transform restores the reconstruction. A point at infinity (homogeneous coordinate 0) is undefined behaviour.", "quantifier": "all reconstructions, rotations, translations and positive scales (exact arithmetic)", "why_tests_cant": "The claim is over every input of unbounded size; a unit test samples a handful of inputs.", "anchors": ["src/theia/sfm/transformation/transform_reconstruction.cc: TransformReconstruction"]}
{"id": "C40", "title": "Swapping the cameras of a two-view geometry is an involution and preserves the geometry", "statement": "SwapCameras stops the program exactly if a focal length is zero; applied twice it is the identity if the rotation is not below the small-angle threshold (otherwise the position changes by at most the threshold times its length) and the swapped geometry describes the same relative pose seen from the other camera; storing an edge through ReconstructionBuilder with ids in either order yields the same view-graph edge. TwoViewInfoFromTwoCameras describes the second camera in the frame of the first.", "quantifier": "all two-view geometries, pairs of cameras and view graphs", "why_tests_cant": "The claim is over every input of unbounded size; a unit test samples a handful of inputs.", "anchors": ["src/theia/sfm/twoview_info.cc: SwapCameras", "src/theia/sfm/twoview_info.h: TwoViewInfoFromTwoCameras", "src/theia/sfm/reconstruction_builder.cc: AddMatchToViewGraph"]}
{"id": "C41", "title": "Spanning-tree orientations satisfy every tree edge and recover consistent inputs", "statement": "OrientationsFromMaximumSpanningTree assigns an orientation to exactly the views of the largest component, satisfies the relative rotation of every tree edge exactly, and if the pairwise rotations are consistent with some ground truth, returns it up to one global rotation; the tree has the maximum total number of verified matches. It stops the program on a graph without edges, and an orientation already present in the output map for a view of the component is kept and blocks that view.", "quantifier": "every view graph and iteration order (exact arithmetic)", "why_tests_cant": "The claim is over every input of unbounded size; a unit test samples a handful of inputs.", "anchors": ["src/theia/sfm/view_graph/orientations_from_maximum_spanning_tree.cc: OrientationsFromMaximumSpanningTree"]}
{"id": "C42", "title": "Cycle filtering keeps exactly the edges supported by a consistent triangle", "statement": "FilterViewGraphCyclesByRotation keeps exactly the edges that lie on at least one triangle whose loop rotation error is below the threshold.", "quantifier": "every view graph, iteration order and threshold", "why_tests_cant": "The claim is over every input of unbounded size; a unit test samples a handful of inputs.", "anchors": ["src/theia/sfm/filter_view_graph_cycles_by_rotation.cc"]}
{"id": "C43", "title": "Orientation filtering keeps exactly the agreeing edges", "statement": "FilterViewPairsFromOrientation removes exactly the edges that have an end without orientation or whose relative rotation disagrees with the orientations by more than the threshold; it is idempotent.", "quantifier": "every view graph, orientation map and threshold", "why_tests_cant": "The claim is over every input of unbounded size; a unit test samples a handful of inputs.", "anchors": ["src/theia/sfm/filter_view_pairs_from_orientation.cc"]}
{"id": "C44", "title": "Translation filtering never rejects a consistent edge", "statement": "FilterViewPairsFromRelativeTranslation orders, for each random axis, all views that have an edge: different views get different numbers. It keeps exactly the edges for which the absolute projections contradicted by these orders sum to at most tolerance times the number of iterations, and keeps all views and edge values. If the translations, rotated to the global frame, are positive multiples of differences of some view positions, no order contradicts an edge and nothing is removed. A missing orientation of the first view of an edge aborts.", "quantifier": "every view graph history, every set of axes, iteration order and interleaving of the threads' updates; consistent translations for the second part", "why_tests_cant": "The claim is over every input of unbounded size; a unit test samples a handful of inputs.", "anchors": ["src/theia/sfm/filter_view_pairs_from_relative_translation.cc: OrderTranslationsFromProjections, FindNextViewInOrder, FilterViewPairsFromRelativeTranslation"]}
{"id": "C45", "title": "NVM, COLMAP and PLY files agree with the reconstruction", "statement": "The NVM, COLMAP and PLY writers emit counts that match the number of records written and identifiers that refer to the right view, feature, camera or point record; importing a written NVM file gives back the views, cameras, tracks and observations (but marks everything as estimated, drops the distortion and aborts for reconstructions without tracks, with one view or with a track of one view: counterexamples). Views with other camera models are refused or abort. COLMAP files hold exactly the estimated part and the first distortion coefficient twice (counterexample).", "quantifier": "every reconstruction reachable through the API, all cameras and points, every iteration order of the hash maps", "why_tests_cant": "The claim is over every input of unbounded size; a unit test samples a handful of inputs.", "anchors": ["src/theia/io/write_nvm_file.cc: WriteNVMFile", "src/theia/io/import_nvm_file.cc: ImportNVMFile", "src/theia/io/write_colmap_files.cc: WriteColmapFiles", "src/theia/io/write_ply_file.cc: WritePlyFile"]}
{"id": "C46", "title": "Camera projection and back-projection are mutually inverse", "statement": "Without distortion, pixel -> camera ray -> pixel and point -> pixel -> ray are identities for the pinhole models; with moderate radial and tangential distortion the iterative undistortion converges and they are identities up to 1e-10 in the image plane; the division model is exact up to the machine epsilon in its valid range; the field-of-view and fisheye models are inverse too (false near the optical axis and for small or negative omega: counterexamples). A pixel does not depend on the depth of the point. In every pose, ProjectPoint of a point on the back-projected ray returns the pixel and the depth, and the projection matrix agrees with ProjectPoint.", "quantifier": "all intrinsics with nonzero focal length and aspect ratio and distortion in the stated ranges, all poses, all points with nonzero depth (exact arithmetic)", "why_tests_cant": "The claim is over every input of unbounded size; a unit test samples a handful of inputs.", "anchors": ["src/theia/sfm/camera/pinhole_camera_model.h", "src/theia/sfm/camera/pinhole_radial_tangential_camera_model.h", "src/theia/sfm/camera/division_undistortion_camera_model.h", "src/theia/sfm/camera/fov_camera_model.h", "src/theia/sfm/camera/fisheye_camera_model.h", "src/theia/sfm/camera/camera.cc: ProjectPoint, PixelToUnitDepthRay, GetProjectionMatrix"]}
{"id": "C47", "title": "Camera priors round-trip", "statement": "SetFromCameraIntrinsicsPriors sets every parameter exactly as documented: the value of the prior if it is set, else a guess from the image size for focal length and principal point, else the old value (or the default distortion of the one-parameter models); it stops the program exactly if this would give a focal length that is not positive. SetFromCameraIntrinsicsPriors(CameraIntrinsicsPriorFromIntrinsics()) restores the same model, intrinsics and image size for every camera model whatever the receiving camera was, a deep copy is equal, a prior archive written by the current version reads back identically, and archives of the older versions restore the fields they hold.", "quantifier": "all parameter values, all camera models, all priors, all archive versions", "why_tests_cant": "The claim is over every input of unbounded size; a unit test samples a handful of inputs.", "anchors": ["src/theia/sfm/camera/*_camera_model.cc: SetFromCameraIntrinsicsPriors, CameraIntrinsicsPriorFromIntrinsics", "src/theia/sfm/camera/camera.cc: SetFromCameraIntrinsicsPriors, CameraIntrinsicsPriorFromIntrinsics, DeepCopy", "src/theia/sfm/camera_intrinsics_prior.h: serialize"]}
{"id": "C48", "title": "The mutable priority queue always pops a maximal live entry", "statement": "For any sequence of insert (of new keys), update, erase and pop calls, top() is an entry with the highest priority among the live entries and pop removes exactly it; find/contains agree with the abstract map.", "quantifier": "every sequence of operations", "why_tests_cant": "The claim is over every history of API calls; a unit test runs one short hand-written history.", "anchors": ["src/theia/util/mutable_priority_queue.h"]}
{"id": "C49", "title": "Triangulation and the tests on rays are geometrically right", "statement": "With unit directions, not all parallel, TriangulateMidpoint returns the one point with the smallest sum of squared distances from the rays, hence the common point of rays that meet, and false if all rays are parallel. TriangulateNView and Triangulate recover a point (up to scale) from its exact projections. IsTriangulatedPointInFrontOfCameras holds iff the closest points of the two rays have positive depth in their cameras, and fails for parallel rays. SufficientTriangulationAngle holds iff two rays enclose more than the minimum angle. The essential matrix of two poses satisfies the epipolar constraint for every point. (False of the code, proved: the optimal correction in Triangulate updates each epipolar line with itself, so corrected points miss the epipolar constraint; TriangulateNViewSVD reads uninitialised memory; the estimator of EstimateTriangulation accepts or rejects a point depending on the sign of a singular vector.)", "quantifier": "all poses, points, numbers of rays and views (exact arithmetic), any correct linear solver", "why_tests_cant": "The claim is over every input of unbounded size; a unit test samples a handful of inputs.", "anchors": ["src/theia/sfm/triangulation/triangulation.cc", "src/theia/sfm/pose/essential_matrix_utils.cc: EssentialMatrixFromTwoProjectionMatrices", "src/theia/sfm/estimators/estimate_triangulation.cc: TriangulationEstimator::EstimateModel"]}
{"id": "C50", "title": "Localising a view changes exactly that view, and uses shared intrinsics", "statement": "LocalizeViewToReconstruction passes the pose solver exactly the features and points of the estimated tracks the view observes; it returns true exactly if the solver accepts them with the minimum of inliers (and the bundle adjustment, if requested, succeeds); then the view is marked estimated with the pose found. Nothing but the camera and the flag of the view changes, and intrinsics only within its intrinsics group. When another estimated view shares the intrinsics the intrinsics are treated as known. (The last is false: the check inspects the view being localised instead of the other one, so the shared focal length of estimated views is overwritten; proved. A failed call may leave a changed pose and focal length, a failed bundle adjustment leaves the view estimated, and there is no fall-back from the known-orientation solver; proved.)", "quantifier": "every reachable reconstruction, all options, all solver answers, every iteration order", "why_tests_cant": "The claim is over every input of unbounded size; a unit test samples a handful of inputs.", "anchors": ["src/theia/sfm/localize_view_to_reconstruction.cc: LocalizeViewToReconstruction, EstimateCameraPose, DoesViewHaveKnownIntrinsics"]}
{"id": "C51", "title": "Guided matching only adds matches of unmatched features", "statement": "Guided matching keeps all given matches in front and in order; every match it adds is of a feature of the first image that had none, each at most once, with its nearest candidate, passing the ratio test; a candidate is an unmatched feature of the second image or a randomly drawn one. (It reads past the end if all features of the second image are matched, and a drawn feature may get a second match, contrary to the header: shown as counterexamples.)", "quantifier": "every keypoint set, match set, epipolar geometry, random draw and nearest-neighbour search", "why_tests_cant": "The claim is over every input of unbounded size; a unit test samples a handful of inputs.", "anchors": ["src/theia/matching/guided_epipolar_matcher.cc: GetMatches, Initialize, FindFeaturesNearEpipolarLines"]}
{"id": "C52", "title": "MinimizePolynomial returns the minimum over the interval", "statement": "MinimizePolynomial returns a point of the closed interval and the value of the polynomial there, and no point of the interval has a smaller value, provided the root finder returns all real critical points.", "quantifier": "all polynomials over the reals, all intervals", "why_tests_cant": "The claim is over every input of unbounded size; a unit test samples a handful of inputs.", "anchors": ["src/theia/math/polynomial.cc: MinimizePolynomial"]}
{"id": "C53", "title": "Normalisation moves the scene without changing any reprojection", "statement": "Reconstruction::Normalize leaves every reprojection unchanged and scales all depths by one positive factor; up to a final rotation the camera positions then have marginal median zero, and the median distance of the points from their own marginal median (not from the origin, as the header says) is 100. Without estimated views, with coincident points or points at infinity the result is undefined.", "quantifier": "all reconstructions with estimated views and non-coincident points (exact arithmetic)", "why_tests_cant": "The claim is over every input of unbounded size; a unit test samples a handful of inputs.", "anchors": ["src/theia/sfm/reconstruction.cc: Normalize", "src/theia/sfm/reconstruction.h: Normalize"]}
{"id": "C54", "title": "Parameters not chosen for optimisation are held constant", "statement": "For every camera model and every combination of OptimizeIntrinsicsType flags, GetSubsetFromOptimizeIntrinsicsType returns exactly the indices of the parameters whose kind is not among the flags, each once.", "quantifier": "all camera models and flag combinations", "why_tests_cant": "The claim is over every input of unbounded size; a unit test samples a handful of inputs.", "anchors": ["src/theia/sfm/camera/*_camera_model.cc: GetSubsetFromOptimizeIntrinsicsType"]}
{"id": "C55", "title": "Setting intrinsics from priors gives each group one shared camera", "statement": "After SetCameraIntrinsicsFromPriors all views of an intrinsics group share one intrinsics object and image size, obtained by applying the prior of one view of the group to its camera; that view is an estimated one if the group has any; views of different groups do not share; nothing else in the reconstruction changes. (An estimated view keeps its intrinsics only where the prior sets nothing: an estimated focal length is overwritten.) The call returns normally if all priors name a known model and give a positive focal length.", "quantifier": "every reachable reconstruction, prior, camera and iteration order", "why_tests_cant": "The claim is over every input of unbounded size; a unit test samples a handful of inputs.", "anchors": ["src/theia/sfm/set_camera_intrinsics_from_priors.cc: SetCameraIntrinsicsFromPriors", "src/theia/sfm/camera/camera.cc: SetFromCameraIntrinsicsPriors"]}
{"id": "C56", "title": "The pose recovered from an essential matrix is the right one", "statement": "DecomposeEssentialMatrix always returns two rotations and a unit translation; for the essential matrix (up to scale and sign) of two cameras one rotation is their relative rotation, the translation is theirs up to sign, and both rotations reproduce the matrix. GetBestPoseFromEssentialMatrix returns the candidate with most correspondences in front of both cameras and their number; if more than half of the correspondences come from points in front of both cameras and off the baseline, it returns the true rotation and position.", "quantifier": "all rotations, unit translations, scales, correspondence lists and singular value decompositions (exact arithmetic)", "why_tests_cant": "The claim is over every input of unbounded size; a unit test samples a handful of inputs.", "anchors": ["src/theia/sfm/pose/essential_matrix_utils.cc: DecomposeEssentialMatrix, GetBestPoseFromEssentialMatrix"]}
{"id": "C57", "title": "Fundamental matrices relate the images of the same point", "statement": "FundamentalMatrixFromProjectionMatrices gives F with point1^T F point2 = 0 for the images of every point; ProjectionMatricesFromFundamentalMatrix gives cameras satisfying the constraint, whose fundamental matrix is F again; ComposeFundamentalMatrix gives point2^T F point1 = 0 for K1[I|0], K2[R|t], and EssentialMatrixFromFundamentalMatrix undoes it. FocalLengthsFromFundamentalMatrix recovers both focal lengths from any multiple of F for cameras in general position, and positive focal lengths it returns always make the calibrated matrix an essential matrix. (It refuses, or divides by zero, for some configurations where it need not: an epipole on the vertical line through the image centre, a purely sideways motion; proved.)", "quantifier": "all projection matrices, points, rotations, translations, focal lengths, null vectors (exact arithmetic)", "why_tests_cant": "The claim is over every input of unbounded size; a unit test samples a handful of inputs.", "anchors": ["src/theia/sfm/pose/fundamental_matrix_util.cc"]}
{"id": "C58", "title": "Projection matrices decompose into the camera they were composed from", "statement": "The RQ decomposition of every 3x3 matrix gives an upper triangular matrix and a rotation of determinant one with the matrix as product. DecomposeProjectionMatrix returns false exactly if the left block is singular; otherwise the calibration matrix is upper triangular with positive diagonal and calibration, rotation and position act on every point as the matrix does, up to its sign, and no other camera does. Composing a camera, multiplying the matrix by any nonzero number and decomposing gives the same rotation and position and the calibration matrix times the absolute value. Intrinsics survive the way through calibration matrices and back. A camera initialised from a projection matrix with regular left block has a multiple of it as its projection matrix. (For a singular one the initialisation reads uninitialised memory: shown.)", "quantifier": "all projection matrices, cameras, scale factors, QR and singular value decompositions (exact arithmetic)", "why_tests_cant": "The claim is over every input of unbounded size; a unit test samples a handful of inputs.", "anchors": ["src/theia/sfm/camera/projection_matrix_utils.cc", "src/theia/math/matrix/rq_decomposition.h: RQDecomposition", "src/theia/sfm/camera/camera.cc: InitializeFromProjectionMatrix"]}
{"id": "C59", "title": "Pose utilities do what their headers say", "statement": "ProjectToRotationMatrix returns a rotation, a rotation unchanged, and the rotation nearest in the Frobenius norm (false for negative determinants, where it is the farthest: shown). NormalizeImagePoints is defined for points that are not all equal; the points it returns are the images under the invertible matrix it returns, have centroid zero and root mean square distance sqrt(2) (their average distance, which the header promises to be sqrt(2), is at most that and can be less: shown). SquaredSampsonDistance is the least squared move of the two points that satisfies the epipolar constraint to first order, is zero exactly for correspondences satisfying it, and does not depend on the scale of the matrix or on the order of the images.", "quantifier": "all matrices, point lists and correspondences (exact arithmetic)", "why_tests_cant": "The claim is over every input of unbounded size; a unit test samples a handful of inputs.", "anchors": ["src/theia/sfm/pose/util.cc: ProjectToRotationMatrix, NormalizeImagePoints, SquaredSampsonDistance", "src/theia/sfm/pose/util.h"]}
{"id": "C60", "title": "The estimated part of a reconstruction is exact", "statement": "CreateEstimatedSubreconstruction of a reconstruction produced by any sequence of API calls never aborts and gives a consistent reconstruction with exactly the estimated views (same names, groups and intrinsics, and their features in the tracks kept) and exactly the estimated tracks observed by at least two estimated views, with exactly those views, in whatever order the containers are iterated. The lists and counts of estimated views and tracks are exact.", "quantifier": "all API histories, all iteration orders", "why_tests_cant": "The claim is over every history of API calls; a unit test runs one short hand-written history.", "anchors": ["src/theia/sfm/reconstruction_estimator_utils.cc: CreateEstimatedSubreconstruction, GetEstimatedViewsFromReconstruction, GetEstimatedTracksFromReconstruction, NumEstimatedViews, NumEstimatedTracks"]}
{"id": "C61", "title": "Bundler files hold the estimated scene and load into it", "statement": "WriteBundlerFiles followed by ReadBundlerFiles into a new reconstruction restores the estimated part: the same views (by base name), pinhole cameras (focal length, radial distortion, orientation, position, principal point moved to zero), focal length priors, points, colours and observations; the written camera projects every point to the same pixel in the conventions of Bundler. Reading any well-formed pair of files gives exactly the cameras with positive focal length and the points off the origin seen by at least two of them. (Not restored, shown: pixel coordinates are truncated to integers, points at the origin are lost, equal base names abort, a scene without points cannot be read back, and reading into a reconstruction that was emptied uses a null pointer.)", "quantifier": "all API histories, cameras, well-formed files and iteration orders (exact arithmetic)", "why_tests_cant": "The claim is over every history of API calls; a unit test runs one short hand-written history.", "anchors": ["src/theia/io/write_bundler_files.cc: WriteBundlerFiles", "src/theia/io/bundler_file_reader.cc: ParseBundleFile", "src/theia/io/read_bundler_files.cc: ReadBundlerFiles"]}
{"id": "C62", "title": "Linear rotation averaging solves its least-squares problem", "statement": "EstimateRotations of the linear estimator, for any relative rotations between distinct views added one by one or by several calls, succeeds and takes as orientations the projections of matrices that minimise the sum of ||X_2 - R_12 X_1||^2 among all matrices with orthonormal stacked columns. If the relative rotations come from global rotations and join all views, the result is these rotations up to one common rotation, for exactly the views of the constraints. (Shown: orientations passed in are not replaced by the estimate, and a second call still uses the constraints of the first.)", "quantifier": "all sets of constraints, orders and histories of calls, all exact eigensolvers and SVDs (exact arithmetic)", "why_tests_cant": "The claim is over every input of unbounded size; a unit test samples a handful of inputs.", "anchors": ["src/theia/sfm/global_pose_estimation/linear_rotation_estimator.cc: LinearRotationEstimator::AddRelativeRotationConstraint, EstimateRotations"]}
{"id": "C63", "title": "Alignment of point clouds and reconstructions is optimal and exact", "statement": "AlignPointCloudsUmeyama(WithWeights) is defined exactly for equally many points and nonnegative weights that leave two different left points; it returns a rotation, translation and nonnegative scale whose weighted sum of squared distances is the least of all. If the right points are images of the left ones under a similarity and not on one line, that similarity is returned. AlignReconstructions then transforms the second reconstruction by exactly the similarity that relates the cameras of the views with equal names. (Shown: the camera of a view that was never estimated is used as well, and moves reconstructions apart that agree on all commonly estimated views.)", "quantifier": "all point lists, weights, reconstructions and iteration orders, all exact SVDs (exact arithmetic)", "why_tests_cant": "The claim is over every input of unbounded size; a unit test samples a handful of inputs.", "anchors": ["src/theia/sfm/transformation/align_point_clouds.cc: AlignPointCloudsUmeyama, AlignPointCloudsUmeyamaWithWeights", "src/theia/sfm/transformation/align_reconstructions.cc: AlignReconstructions", "src/theia/sfm/find_common_views_by_name.cc: FindCommonViewsByName"]}
{"id": "C64", "title": "Linear position estimation solves its least-squares problem and recovers exact scenes", "statement": "ComputeTripletBaselineRatios gives the medians of the ratios of the point depths, which are the true ratios of the baselines for exact input with one well-seen point. FindCommonTracksInViews returns exactly the tracks seen by all the views. EstimatePositions of the linear estimator returns positions for exactly the cameras of a largest connected component of view triplets; they minimise, with the first camera at the origin and unit norm, the weighted squared distances between each camera and its predictions from the other two cameras of a triplet. For exact input and cameras not all in one plane, the result is the true positions up to one translation and one positive scale. (Shown: cameras in one plane need not be recovered, a camera with the identity orientation and a triplet without a common track divide by zero, a graph without triangles ends the program, and a second call keeps the cameras of the first.)", "quantifier": "all view graphs, measurements, iteration orders and exact sub-solvers (exact arithmetic)", "why_tests_cant": "The claim is over every input of unbounded size; a unit test samples a handful of inputs.", "anchors": ["src/theia/sfm/global_pose_estimation/linear_position_estimator.cc: LinearPositionEstimator::EstimatePositions", "src/theia/sfm/global_pose_estimation/compute_triplet_baseline_ratios.cc: ComputeTripletBaselineRatios", "src/theia/sfm/find_common_tracks_in_views.cc: FindCommonTracksInViews"]}
{"id": "C65", "title": "Root finding for polynomials of any degree ends and returns all roots", "statement": "FindPolynomialRoots and FindPolynomialRootsCompanionMatrix end for every polynomial that is not constant, whatever the balancing does, and write all complex roots with their multiplicities (or return false if the eigensolver fails); leading zero coefficients do not matter. A constant polynomial gives true and leaves the output vectors unchanged, an empty one gives false. With it MinimizePolynomial returns a minimum over the interval. (Shown: a x^2 gives zero divided by zero for one root; the result of frexp for infinity, which C leaves unspecified, decides whether x^3 ends.)", "quantifier": "all coefficient vectors and exact eigensolvers (exact arithmetic)", "why_tests_cant": "The claim is over every input of unbounded size; a unit test samples a handful of inputs.", "anchors": ["src/theia/math/find_polynomial_roots_companion_matrix.cc: FindPolynomialRootsCompanionMatrix, BalanceCompanionMatrix, BuildCompanionMatrix", "src/theia/math/polynomial.cc: FindPolynomialRoots, FindLinearPolynomialRoots, FindQuadraticPolynomialRoots, MinimizePolynomial"]}
{"id": "C66", "title": "The L1 solver converges to a minimiser of the sum of absolute residuals", "statement": "Constructing an L1Solver ends the program exactly if the columns of the matrix are dependent. For every right hand side, positive rho and 0 < alpha < 2, Solve with the tolerances at zero converges to a minimiser of ||A x - b||_1 as the limit on the iterations grows, whatever the start; a consistent system is solved exactly after one iteration. With a positive absolute tolerance it stops by itself, and without over-relaxation the objective then exceeds the minimum by no more than a bound the tolerances give.", "quantifier": "all matrices, right hand sides, starting points and options in the stated range (exact arithmetic)", "why_tests_cant": "The claim is over every input of unbounded size; a unit test samples a handful of inputs.", "anchors": ["src/theia/math/l1_solver.h: L1Solver", "src/theia/math/matrix/sparse_cholesky_llt.cc: SparseCholeskyLLt"]}
{"id": "C67", "title": "The constrained L1 solver converges to a constrained minimiser", "statement": "Constructing a ConstrainedL1Solver ends the program exactly if some nonzero vector is sent to zero by both matrices. If the constraints can be met, Solve with the tolerances at zero converges to a vector with C x >= d that minimises ||A x - b||_1 among these; with a positive absolute tolerance it stops by itself and violates no constraint by more than the tolerances allow. (Shown: the vector returned may violate the constraints.)", "quantifier": "all matrices, right hand sides, starting points and options in the stated range (exact arithmetic)", "why_tests_cant": "The claim is over every input of unbounded size; a unit test samples a handful of inputs.", "anchors": ["src/theia/math/constrained_l1_solver.cc: ConstrainedL1Solver", "src/theia/math/constrained_l1_solver.h"]}
{"id": "C68", "title": "The quadratic program solver converges to a minimiser", "statement": "Solve answers false exactly if some lower bound exceeds its upper bound. For symmetric positive semidefinite P, if a minimiser of 1/2 x^T P x + q^T x between the bounds exists, Solve with the tolerances at zero converges to one as the limit on the iterations grows; with a positive absolute tolerance it stops by itself and exceeds no bound by more than the tolerances allow. A symmetric P is accepted exactly if P + rho I is positive definite. (Shown: the vector returned may lie outside the bounds, even always; a matrix that is not symmetric is accepted and read above the diagonal only; a maximum may be returned for a program that is not convex.)", "quantifier": "all matrices, vectors, bounds and options in the stated range (exact arithmetic)", "why_tests_cant": "The claim is over every input of unbounded size; a unit test samples a handful of inputs.", "anchors": ["src/theia/math/qp_solver.cc: QPSolver", "src/theia/math/qp_solver.h"]}
{"id": "C69", "title": "Robust rotation averaging succeeds exactly for connected views and keeps consistent rotations", "statement": "With an orientation for at least two views and for every view of the relative rotations, EstimateRotations succeeds if the relative rotations connect all views that have an orientation, and ends the program otherwise; without relative rotations, or if a view of one has no orientation, no call returns. It gives orientations to exactly the same views and keeps one of them. Orientations that agree with all relative rotations are kept. The last phase takes steps that each minimise the weighted squared error of the relative rotations, until one is short on average or the limit is reached. The relative rotations of all calls add up. (Shown: an estimator that was used for some views cannot be used for others.)", "quantifier": "all sets of relative rotations, orientations, iteration orders, options with positive sigma and histories of calls (exact arithmetic)", "why_tests_cant": "The claim is over every input of unbounded size; a unit test samples a handful of inputs.", "anchors": ["src/theia/sfm/global_pose_estimation/robust_rotation_estimator.cc: RobustRotationEstimator", "src/theia/sfm/global_pose_estimation/robust_rotation_estimator.h"]}
{"id": "C70", "title": "Least unsquared deviations: positions exactly for connected views, converging to a minimiser", "statement": "If every view of the pairs has an orientation and the pairs connect the views, EstimatePositions succeeds and gives a position to exactly these views, one of them at the origin. As the limit of its inner solver grows and its tolerances vanish, the positions converge to positions with the least sum of the absolute deviations from the rotated relative translations, among all positions and all baselines of length at least one; exact directions are reproduced exactly. A call can be repeated with the same estimator. (Shown: a single pair with a view that has no orientation ends the program, as do views that are not connected; without any usable pair, and with an estimator that has seen another pair, a call does not return; the options have no effect.)", "quantifier": "all sets of view pairs and orientations, iteration orders, histories of calls and options of the inner solver in range (exact arithmetic)", "why_tests_cant": "The claim is over every input of unbounded size; a unit test samples a handful of inputs.", "anchors": ["src/theia/sfm/global_pose_estimation/least_unsquared_deviation_position_estimator.cc: LeastUnsquaredDeviationPositionEstimator", "src/theia/sfm/global_pose_estimation/least_unsquared_deviation_position_estimator.h"]}
{"id": "C71", "title": "The helpers of the estimators change exactly the estimates they name", "statement": "SetOutlierTracksToUnestimated sets to unestimated exactly the estimated tracks among the given ones whose point is behind an estimated camera that observes it, whose mean squared error exceeds the squared bound, or that no two of these cameras see under the minimum angle, and returns their number; an unknown track ends in undefined behaviour. SetTracksInViewsToUnestimated keeps the selected tracks. The counts of estimated views and tracks are right. SetReconstructionFromEstimatedPoses gives exactly the views with a position and an orientation their pose, and ends the program if one of them is estimated. RefineRelativeTranslationsWithKnownRotations updates each edge from the features both views share, whatever the order of its threads. Nothing else changes.", "quantifier": "all reachable reconstructions, sets of tracks and views, geometries and schedules (exact arithmetic)", "why_tests_cant": "The claim is over every input of unbounded size; a unit test samples a handful of inputs.", "anchors": ["src/theia/sfm/set_outlier_tracks_to_unestimated.cc: SetOutlierTracksToUnestimated", "src/theia/sfm/reconstruction_estimator_utils.cc", "src/theia/sfm/reconstruction_estimator_utils.h: SetTracksInViewsToUnestimated"]}
{"id": "C72", "title": "Incremental reconstruction ends in a consistent state and leaves no view untried", "statement": "Incremental reconstruction of a scene in which nothing is estimated never ends the program, whatever the numerical parts return. Names, groups, features and observations do not change; only views of the view graph are estimated; every estimated track has two estimated observers; the summary of a success lists exactly the estimated views and tracks, that of a failure nothing. The initial pair has more than a hundred matches, and all better pairs were tried and rejected before it; after it exactly its views are estimated, and more than a hundred tracks without outliers. A new view moves only the cameras of the last views added, unless the reconstruction has grown by the given percentage. The views tried next are exactly those left that see thirty estimated tracks, by decreasing score. On success every view left that sees thirty estimated tracks has failed to be localized against them; without failed bundle adjustments there is a failure only if every pair was rejected. Every run ends, listed views were localized, the initial pair has its relative pose, and an initialized reconstruction can be continued.", "quantifier": "all reachable reconstructions and view graphs, valid options, numerical results, iteration orders and schedules, numbers of passes", "why_tests_cant": "The claim is over every input of unbounded size; a unit test samples a handful of inputs.", "anchors": ["src/theia/sfm/incremental_reconstruction_estimator.cc: Estimate, ChooseInitialViewPair, OrderViewPairsByInitializationCriterion, FindViewsToLocalize, FullBundleAdjustment, PartialBundleAdjustment, SetUnderconstrainedAsUnestimated"]}
{"id": "C73", "title": "Global reconstruction keeps one consistent component and reports exactly what it estimates", "statement": "Global reconstruction of a scene in which nothing is estimated never ends the program as long as a pair of views is left when positions are estimated. The first filter keeps exactly the edges with enough matches in one largest connected component of them, the filter by rotations exactly the edges that agree with the orientations in one largest component of these, with the orientations of the views left. Afterwards the view graph holds only edges it had before, with enough matches, that connect all views with an edge, and on success agree with the orientations. Names, groups, features and observations do not change; exactly the views that got a position are estimated, with the orientation and position found; all other views keep their pose; later passes move only estimated cameras and the intrinsics they use, and the first adjusts positions only. Every estimated track has two estimated observers and, on success, is no outlier. The summary of a success lists exactly the estimated views and tracks; a failure lists nothing and happens only if no pair has enough matches or a numerical part fails. A success lists at least one view, and a pair of views is always left when positions are estimated.", "quantifier": "all reachable reconstructions and view graphs, options, numerical results, iteration orders and schedules", "why_tests_cant": "The claim is over every input of unbounded size; a unit test samples a handful of inputs.", "anchors": ["src/theia/sfm/global_reconstruction_estimator.cc: Estimate, FilterInitialViewGraph, FilterRotations, OptimizePairwiseTranslations, FilterRelativeTranslation, BundleAdjustment, BundleAdjustCameraPositionsAndPoints", "src/theia/sfm/filter_view_pairs_from_orientation.cc", "src/theia/sfm/extract_maximally_parallel_rigid_subgraph.cc"]}
{"id": "C74", "title": "The reconstruction builder uses the matches it is given and splits the scene into estimated parts", "statement": "After any sequence of calls that add images, matches or extracted matches, the view graph and the track builder of a reconstruction builder hold exactly the matches given, with relative poses from the smaller to the larger view id, except those of uncalibrated views if only calibrated views are wanted. BuildReconstruction gives the estimator tracks with at most one feature per view, no feature in two tracks, exactly the calibrated views if that is wanted, and a view graph without unknown views. With any estimator that changes only estimates, each reconstruction appended to the result is the estimated part of a successful estimation, with all its views and tracks estimated and every track seen by two of its views; no view or track is in two reconstructions, and each view is in one of them or remains; names, groups and observations are kept; at most one is built if only the largest component is wanted, otherwise it goes on until an estimation fails or fewer than three views remain. It returns true exactly if the result is not empty or there were fewer than two views. Incremental and global reconstruction are such estimators. The intrinsics of a reconstruction in the result stay what they were when it was estimated; the call always ends; true means that something was reconstructed; every connected component is reconstructed unless only the largest is wanted; no call crashes.", "quantifier": "all histories of calls, all reconstructions and view graphs, options, estimators and iteration orders", "why_tests_cant": "The claim is over every history of API calls; a unit test runs one short hand-written history.", "anchors": ["src/theia/sfm/reconstruction_builder.cc: AddImage, AddTwoViewMatch, ExtractAndMatchFeatures, BuildReconstruction, RemoveUncalibratedViews, CreateEstimatedSubreconstruction, RemoveEstimatedViewsAndTracks", "src/theia/sfm/reconstruction_estimator.cc", "src/theia/sfm/camera/camera.cc"]}
{"id": "C75", "title": "Two points and a known axis give all poses of the camera and no others", "statement": "For two world points and two unit rays that are not parallel, the two point pose solver for a camera whose rotation axis is known returns at most two poses. Every rotation about the axis with a translation that takes both points in front of the camera onto their rays is among them, unless both rays are nearly orthogonal to the axis. If there are points on the lines of the rays with the right distance and the right difference along the axis, in particular if the data comes from a real camera, every pose returned takes the points onto their rays, in front of the camera. If there is no such pose, none is returned; poses are also found for rays orthogonal to the axis; parallel rays do no harm.", "quantifier": "all points, rays and axes over the reals", "why_tests_cant": "The claim is over every input of unbounded size; a unit test samples a handful of inputs.", "anchors": ["src/theia/sfm/pose/two_point_pose_partial_rotation.cc: TwoPointPosePartialRotation, TwoPointPoseCore, AddPoseSolution"]}
{"id": "C76", "title": "The three point pose solver finds every pose up to listed degenerate views", "statement": "PoseFromThreePoints: if the three rays are not in a plane and the points are not nearly on a line, four candidates are written, each a pose or not a number; every pose from which the three points are seen at the three features is among them, unless the rays form a right angle at the first of them or the foot of the third point on the plane of the others and the camera lies on their circle. Every pose written is a rotation and a translation that puts the first two points on the lines of their rays, one of them not behind the camera; for a real root the third point is on its ray, or behind the camera on the mirror image of its ray, or in the plane of the others. If the points are nearly on a line, nothing is written. Every candidate is a pose from which the points are seen, and every such pose is found whenever the points are not on a line.", "quantifier": "all features and points, all root finders that return the real parts of all roots (exact arithmetic)", "why_tests_cant": "The claim is over every input of unbounded size; a unit test samples a handful of inputs.", "anchors": ["src/theia/sfm/pose/perspective_three_point.cc: PoseFromThreePoints, SolvePlaneRotation, Backsubstitute"]}
{"id": "C77", "title": "The seven point solver returns singular matrices that satisfy the constraints", "statement": "SevenPointFundamentalMatrix: for seven pairs of points, not all the same in an image, true is returned exactly if a matrix is returned; every matrix returned satisfies the epipolar constraint of all seven pairs; at most three are returned; if the matrices that satisfy the constraints are not a space of dimension two, false is returned. Other numbers of points end the program. Every matrix returned is singular, as a fundamental matrix has to be.", "quantifier": "all lists of points, all bases of null spaces and all root finders (exact arithmetic)", "why_tests_cant": "The claim is over every input of unbounded size; a unit test samples a handful of inputs.", "anchors": ["src/theia/sfm/pose/seven_point_fundamental_matrix.cc: SevenPointFundamentalMatrix"]}
{"id": "C78", "title": "The eight point solver returns the best fundamental matrix", "statement": "NormalizedEightPointFundamentalMatrix: for eight or more pairs of points, not all the same in an image, the matrix returned is singular, and in normalised coordinates it is a singular matrix nearest to one with the least sum of squared epipolar residuals among the matrices of its norm. If the matrices that satisfy all constraints are the multiples of one singular matrix, a multiple of it, not zero, is returned. False is returned exactly if there are eight pairs and the matrices that satisfy the constraints are not the multiples of one. Fewer points or lists of different lengths end the program.", "quantifier": "all lists of points, all results of the decompositions (exact arithmetic)", "why_tests_cant": "The claim is over every input of unbounded size; a unit test samples a handful of inputs.", "anchors": ["src/theia/sfm/pose/eight_point_fundamental_matrix.cc: NormalizedEightPointFundamentalMatrix"]}
{"id": "C79", "title": "The four point homography is the least squares solution and exact for exact data", "statement": "FourPointHomography: for four or more pairs of points, not all the same in an image, the result in normalised coordinates has the least algebraic transfer error among the matrices of norm one; if an invertible matrix sends all points of the first image to those of the second and four of them are in general position, the result is a multiple of it, not zero. Fewer points or lists of different lengths end the program. (Shown: success is reported also for points on a line, and then the result can be a singular matrix that sends all given points to zero.)", "quantifier": "all lists of points, all results of the decomposition (exact arithmetic)", "why_tests_cant": "The claim is over every input of unbounded size; a unit test samples a handful of inputs.", "anchors": ["src/theia/sfm/pose/four_point_homography.cc: FourPointHomography, CreateActionConstraint"]}
{"id": "C80", "title": "Two points determine a position when the rotations are known", "statement": "PositionFromTwoRays: nothing is found exactly if the two rays have the same direction; otherwise the position found has the least sum of squared offsets of the points from the rays, and it is the position of the camera if a camera sees the points in these directions. RelativePoseFromTwoPointsWithKnownRotation: nothing is found exactly if the two points do not give two different planes through the cameras; a direction found is a unit vector in both planes, and if two cameras see the points it is the direction between the cameras up to its sign. The direction is from the first camera to the second.", "quantifier": "all features, rays and points, all results of the decompositions (exact arithmetic)", "why_tests_cant": "The claim is over every input of unbounded size; a unit test samples a handful of inputs.", "anchors": ["src/theia/sfm/pose/position_from_two_rays.cc: PositionFromTwoRays", "src/theia/sfm/pose/relative_pose_from_two_points_with_known_rotation.cc: RelativePoseFromTwoPointsWithKnownRotation"]}
{"id": "C81", "title": "Hybrid reconstruction keeps its orientations and ends in a consistent state", "statement": "Hybrid reconstruction of a scene in which nothing is estimated never ends the program, whatever the numerical parts return, as long as every two views with more than a hundred matches have a track in common. Names, groups, features and observations do not change; every estimated track has two estimated observers; each view is queued or reconstructed, never both; the summary of a success lists exactly the estimated views and tracks, all of them reconstructed, that of a failure nothing. Every orientation at the end is the one estimated at the start, that of the input if there was none, or one a pose solver returned: bundle adjustment changes none. The initial pair has more than a hundred matches, and all better pairs (by the angle between the cameras, then by matches) were tried and rejected before it; only its second camera is moved, to where the known orientations or the two view geometry put it. On success every view left that sees thirty estimated tracks has failed to be localized against them with and without a known orientation. Every run ends, two views may have matches and no common track, the initial pair has its relative position, estimated views of the input are kept, and a known orientation is the estimated one.", "quantifier": "all reachable reconstructions and view graphs, valid options, numerical results, iteration orders and schedules, numbers of passes", "why_tests_cant": "The claim is over every input of unbounded size; a unit test samples a handful of inputs.", "anchors": ["src/theia/sfm/hybrid_reconstruction_estimator.cc: Estimate, EstimateCameraOrientations, OrderViewPairsByInitializationCriterion, InitializeCamerasWithKnownOrientation, InitializeCamerasFromTwoViewInfo, ChooseInitialViewPair, LocalizeView"]}
{"id": "C82", "title": "Calibration files give back what was written to them", "statement": "Writing the priors of any number of images, with any of their attributes set, in any order, and reading the file gives every image exactly the attributes that were set, its size and the type of its camera; numbers are the ones printed, which with six digits are within five millionths. Other entries of the container are untouched. A file is written exactly if there is something to write and it can be opened. Reading never removes an entry and changes nothing if it fails. Any name can be used, numbers are read back exactly, a malformed file is reported, an unknown camera type is skipped, and only complete attributes are taken as set.", "quantifier": "all lists of priors, names, values, number formats, texts", "why_tests_cant": "The claim is over every input of unbounded size; a unit test samples a handful of inputs.", "anchors": ["src/theia/io/write_calibration.cc: WriteCalibration, WritePrior", "src/theia/io/read_calibration.cc: ReadCalibration, ExtractCameraIntrinsicPriorsFromJson, ExtractCameraIntrinsicsPrior, ExtractPriorParameters", "libraries/cereal/include/cereal/external/rapidjson/reader.h: ParseValue, ParseNumber, ParseString, ParseObject, ParseArray"]}
{"id": "C83", "title": "Non-linear position estimation optimises the constraints it describes", "statement": "NonlinearPositionEstimator::EstimatePositions: positions are estimated exactly for the views with an orientation that are in a pair, one of them at the origin; false is returned if there are no pairs or orientations or the solver fails. What is optimised has one constraint of weight one for each pair of views with orientations, on the relative position rotated into the world, and, if points are used, one constraint for each observation of a chosen track in a view with a position. Every view with at least the minimal number of features gets at least that many; tracks are chosen for one view after the other, longest first, and no more than needed; the weights of the points add up to the weight of the options times the number of constraints between cameras. The estimation does not fail if every view with a position is in a pair of two views with orientations and, if points are used, some view has enough features. The rays of the points are those for the given orientations, and the program never ends otherwise.", "quantifier": "all reachable reconstructions, pairs, orientations, options, draws, iteration orders, results of the solver", "why_tests_cant": "The claim is over every input of unbounded size; a unit test samples a handful of inputs.", "anchors": ["src/theia/sfm/global_pose_estimation/nonlinear_position_estimator.cc: EstimatePositions, InitializeRandomPositions, AddCameraToCameraConstraints, AddPointToCameraConstraints, FindTracksForProblem, GetTracksSortedByNumViews, AddTrackToProblem"]}
{"id": "C84", "title": "The residuals of pairs of views measure angles, and vanish exactly for consistent poses", "statement": "PairwiseRotationError: the residual has the length of the weight times the angle between the rotation from the first to the second camera and the given one, vanishes exactly if they agree and does not depend on the choice of the world frame. PairwiseTranslationError: for a unit direction and positions at least 1e-12 apart the squared residual is 2 w^2 (1 - cos) of the angle to the direction, vanishes exactly if the second position is ahead of the first in this direction, and does not depend on origin and scale of the world; it is at most 2 w. PairwiseTranslationAndScaleError: the residual vanishes exactly if the second position is the first plus the scaled relative position rotated into the world. NonlinearRotationEstimator: exactly the pairs of two views with orientations are used, no orientation is added or removed, others are kept; the cost is zero exactly if all relative rotations hold, so they hold afterwards if the solver finds a minimum and they can. True is returned only if the solver succeeds.", "quantifier": "all orientations, positions, directions, weights, pairs, solvers (exact arithmetic)", "why_tests_cant": "The claim is over every input of unbounded size; a unit test samples a handful of inputs.", "anchors": ["src/theia/sfm/global_pose_estimation/pairwise_rotation_error.h: PairwiseRotationError", "src/theia/sfm/global_pose_estimation/pairwise_translation_error.h: PairwiseTranslationError", "src/theia/sfm/global_pose_estimation/pairwise_translation_and_scale_error.cc: PairwiseTranslationAndScaleError", "src/theia/sfm/global_pose_estimation/nonlinear_rotation_estimator.cc: EstimateRotations"]}
{"id": "C85", "title": "Features written to a file come back", "statement": "WriteKeypointsAndDescriptors and ReadKeypointsAndDescriptors: every list of keypoints and every list of descriptors, of any lengths, comes back bit for bit, whatever the byte orders of the machine that writes and the one that reads; a file cut short at any byte throws and is never read as features. WriteSiftKeyBinaryFile and ReadSiftKeyBinaryFile: on machines of one byte order, features whose descriptors have 128 entries between zero and one come back with position, scale and orientation to the precision of floats and entries at most one step of 1/255 below; writing what was read gives the same file; a file from a machine of the other byte order, or lists of different sizes, end the program. A descriptor that the SIFT file cannot hold and a SIFT file cut short are reported.", "quantifier": "all lists of features, all contents of files, both byte orders, all cut points", "why_tests_cant": "The claim is over every input of unbounded size; a unit test samples a handful of inputs.", "anchors": ["src/theia/io/write_keypoints_and_descriptors.cc: WriteKeypointsAndDescriptors", "src/theia/io/read_keypoints_and_descriptors.cc: ReadKeypointsAndDescriptors", "src/theia/io/eigen_serializable.h: save, load", "src/theia/io/sift_binary_file.cc: ReadSiftKeyBinaryFile, WriteSiftKeyBinaryFile", "libraries/cereal/include/cereal/archives/portable_binary.hpp: PortableBinaryOutputArchive, PortableBinaryInputArchive"]}
{"id": "C86", "title": "The colour of a track is the mean of the colours its views see", "statement": "ColorizeReconstruction: for images with three channels of 8 bits that contain all features, every track with at least one and less than 65536 views gets in each channel the mean, rounded down, of the bytes at the pixels in which its views see it, whatever the number of threads and the order in which they take the lock; in exact arithmetic the same holds for images of any depth. Nothing but the colours of tracks changes. Images with one channel give grey tracks, tracks without views are left alone, the result never depends on the schedule, and the directory may be given without a slash at its end.", "quantifier": "all reachable reconstructions, images, numbers of threads, schedules", "why_tests_cant": "The claim is over every input of unbounded size; a unit test samples a handful of inputs.", "anchors": ["src/theia/sfm/colorize_reconstruction.cc: ColorizeReconstruction, ExtractColorsFromImage", "src/theia/image/image.cc: FloatImage::GetXY"]}
{"id": "C87", "title": "The sequential test seldom rejects a good model", "statement": "SequentialProbabilityRatioTest, for at least one residual: it rejects the model exactly if the likelihood ratio of some first points exceeds the threshold, stops at the first such point, and returns the number of points seen and the ratio of inliers among them. If points are inliers independently with the probability of a good model, the model is rejected with a probability of at most one over the threshold, for any number of points. A model that explains all points another one does is accepted if the other one is. CalculateSPRTDecisionThreshold: what is returned is at most the solution A of A = a0 + log A, at least a0, solves the equation up to 1e-4, and the loop always converges before its limit.", "quantifier": "all lists of residuals, probabilities, thresholds, times, numbers of models (exact arithmetic)", "why_tests_cant": "The claim is over every input of unbounded size; a unit test samples a handful of inputs.", "anchors": ["src/theia/math/probability/sequential_probability_ratio.cc: SequentialProbabilityRatioTest, CalculateSPRTDecisionThreshold"]}
{"id": "C88", "title": "Geodetic coordinates are converted to the point they name, and back", "statement": "GPSConverter::LLAToECEF returns exactly the point that is reached from the point of the WGS-84 ellipsoid whose outward normal has the given latitude and longitude by going up by the altitude. Above a depth of 6335 km no two coordinates name the same point, except for the longitude at the poles. GPSConverter::ECEFToLLA: the longitude comes back exactly, latitude and altitude depend only on the distances from the axis and the equatorial plane, mirrored points have opposite latitudes, and on the equator and at the poles all coordinates come back. Everywhere else latitude and altitude come back to within the precision the header names; every point but the centre of the earth has coordinates.", "quantifier": "all coordinates and points (exact arithmetic)", "why_tests_cant": "The claim is over every input of unbounded size; a unit test samples a handful of inputs.", "anchors": ["src/theia/sfm/gps_converter.cc: GPSConverter::ECEFToLLA, GPSConverter::LLAToECEF"]}
{"id": "C89", "title": "The geometry of two views is the best of the samples drawn, and its inliers are the verified correspondences", "statement": "EstimateTwoViewInfo, with RANSAC or PROSAC: for two views with focal lengths the rotation and position are those of a pose computed from one of the samples drawn, the inliers are exactly the correspondences seen in front of both cameras with a squared Sampson distance below the product of the thresholds of the images over the product of the focal lengths, and they are counted. If a sample is drawn from which the five-point solver computes the essential matrix of a pose with the sample in front of both cameras, the pose returned costs no more than this one, so by default at least as many correspondences are verified. If a focal length is missing the same holds with the eight-point solver, the focal lengths computed from the fundamental matrix and the product of the thresholds in pixels. For cameras without distortion the features are the pixels relative to the principal point, over the focal length if both are known; the test is then one on the pixels, exactly for equal focal lengths, and up to the factor by which they differ otherwise. The visibility score is the one of the inliers; false is returned if no pose is found or there are too few correspondences, also with exhaustive sampling; the options are used for both kinds of views, for all camera models.", "quantifier": "all priors, correspondences, options, draws, results of the solvers (exact arithmetic)", "why_tests_cant": "The claim is over every input of unbounded size; a unit test samples a handful of inputs.", "anchors": ["src/theia/sfm/estimate_twoview_info.cc: EstimateTwoViewInfo, EstimateTwoViewInfoCalibrated, EstimateTwoViewInfoUncalibrated, NormalizeFeatures, ComputeVisibilityScoreOfInliers", "src/theia/sfm/estimators/estimate_relative_pose.cc: EstimateRelativePose, RelativePoseEstimator", "src/theia/sfm/estimators/estimate_uncalibrated_relative_pose.cc: EstimateUncalibratedRelativePose, UncalibratedRelativePoseEstimator", "src/theia/sfm/create_and_initialize_ransac_variant.h: CreateAndInitializeRansacVariant"]}
{"id": "C90", "title": "Robust estimators of planes, homographies, fundamental and essential matrices and relative positions", "statement": "For RANSAC and PROSAC, with valid options and enough data, EstimateDominantPlaneFromPoints, EstimateHomography, EstimateFundamentalMatrix, EstimateEssentialMatrix and EstimateRelativePoseWithKnownOrientation return a model computed from one of the samples drawn, whose cost is at most that of every model that a drawn sample determines exactly, with exactly the data closer to it than the threshold as inliers; if the data are exact and a sample that determines the model was drawn, it is found and all data are inliers. The number of iterations is between the bounds given.", "quantifier": "all data, thresholds, options, samples drawn, and solvers that meet their specification", "why_tests_cant": "The claim is over every input of unbounded size; a unit test samples a handful of inputs.", "anchors": ["src/theia/sfm/estimators/estimate_dominant_plane_from_points.cc: EstimateDominantPlaneFromPoints", "src/theia/sfm/estimators/estimate_homography.cc: EstimateHomography", "src/theia/sfm/estimators/estimate_fundamental_matrix.cc: EstimateFundamentalMatrix", "src/theia/sfm/estimators/estimate_essential_matrix.cc: EstimateEssentialMatrix", "src/theia/sfm/estimators/estimate_relative_pose_with_known_orientation.cc: EstimateRelativePoseWithKnownOrientation"]}
{"id": "C91", "title": "Robust estimators of absolute poses", "statement": "For RANSAC and PROSAC, with valid options and enough correspondences, EstimateAbsolutePoseWithKnownOrientation, EstimateCalibratedAbsolutePose and EstimateUncalibratedAbsolutePose return a pose computed from one of the samples drawn, whose cost is at most that of every pose from which the points of a drawn sample are seen at their features; the inliers are exactly the correspondences whose points are in front of the camera and project closer to the feature than the threshold. For an uncalibrated camera the pose and focal length are those of the projection matrix found. The number of iterations is between the bounds given.", "quantifier": "all correspondences, orientations, thresholds, options, samples drawn, and solvers that meet their specification", "why_tests_cant": "The claim is over every input of unbounded size; a unit test samples a handful of inputs.", "anchors": ["src/theia/sfm/estimators/estimate_absolute_pose_with_known_orientation.cc: EstimateAbsolutePoseWithKnownOrientation", "src/theia/sfm/estimators/estimate_calibrated_absolute_pose.cc: EstimateCalibratedAbsolutePose", "src/theia/sfm/estimators/estimate_uncalibrated_absolute_pose.cc: EstimateUncalibratedAbsolutePose"]}
{"id": "C92", "title": "Robust triangulation of points", "statement": "EstimateTriangulation returns false for fewer than two cameras. For at most fifteen cameras it triangulates every pair of observations, and for more the pairs drawn; the point returned is that of a pair, in front of both cameras, and no such point of a pair has a lower cost; the inliers are exactly the observations for which the point is in front of the camera and its squared reprojection error is below the threshold. If the features are exact, the point is found and all observations are inliers; if no pair can be triangulated, failure is reported.", "quantifier": "all cameras, features, thresholds, options, pairs drawn, and decompositions that meet their specification", "why_tests_cant": "The claim is over every input of unbounded size; a unit test samples a handful of inputs.", "anchors": ["src/theia/sfm/estimators/estimate_triangulation.cc: EstimateTriangulation, TriangulationEstimator"]}
{"id": "C93", "title": "Priors from EXIF data", "statement": "For every image, ExtractEXIFMetadata sets the size of the prior to that of the image and the principal point to its centre. It sets the focal length of a prior that has none exactly if it follows from the resolution of the sensor in the EXIF data, or else from the sensor width that the database has for the camera, and then to that value in pixels of this image, never to anything that is not a positive finite number. The database of sensor widths finds a camera by its maker and model, ignoring case. GPS latitude, longitude and altitude are set exactly if the image has them, with the signs for south, west and below the sea level.", "quantifier": "all images with any combination of attributes, all priors, all databases", "why_tests_cant": "The claim is over every input of unbounded size; a unit test samples a handful of inputs.", "anchors": ["src/theia/sfm/exif_reader.cc: ExifReader::ExtractEXIFMetadata, SetFocalLengthFromExif, SetFocalLengthFromSensorDatabase, LoadSensorWidthDatabase"]}
{"id": "C94", "title": "The relative position of two views with known rotations", "statement": "OptimizeRelativePositionWithKnownRotation returns a unit vector for every list of matches, and the opposite vector never puts a majority of the matches in front of both cameras. If all matches are exact (points at infinity included), more than half of them are of points at a finite distance in front of both cameras and off the baseline, and two of these lie in different epipolar planes, the returned vector is the direction from the first camera centre to the second, in the frame of the first camera. If at most half of the matches are of finite points, the sign is not determined: a correct singular value decomposition leads to the opposite of the true direction.", "quantifier": "every list of matches, every pair of rotations and camera centres, every start of the search, every correct singular value decomposition", "why_tests_cant": "The claim is over every input of unbounded size; a unit test samples a handful of inputs.", "anchors": ["src/theia/sfm/bundle_adjustment/optimize_relative_position_with_known_rotation.cc: OptimizeRelativePositionWithKnownRotation", "src/theia/sfm/bundle_adjustment/optimize_relative_position_with_known_rotation.cc: CreateConstraintMatrix", "src/theia/sfm/bundle_adjustment/optimize_relative_position_with_known_rotation.cc: MajorityOfPointsInFrontOfCameras"]}
{"id": "C95", "title": "Undistorting a camera, an image or a reconstruction removes the lens distortion and nothing else", "statement": "UndistortCamera yields a perspective camera with the same pose, focal length, aspect ratio and skew and an image no larger than the old one. UndistortImage gives a pixel the colour at which the distorted camera sees the same scene point. UndistortReconstruction does this for every estimated view, moves the features accordingly, and removes exactly the observations outside the new images, keeping views and tracks in agreement. The distorted camera passed in is not changed.", "quantifier": "all camera models and parameters, image sizes, sampling functions, reconstructions with any sharing of intrinsics, and iteration orders", "why_tests_cant": "The claim is over every input of unbounded size; a unit test samples a handful of inputs.", "anchors": ["src/theia/sfm/undistort_image.cc: UndistortCamera, UndistortImage, UndistortReconstruction, SetLensDistortionToZero, FindUndistortedImageBoundary, RemoveImageLensDistortion", "src/theia/sfm/camera/camera.cc: Camera::Camera, Camera::operator="]}
{"id": "C96", "title": "The five point solver finds the essential matrix of the motion", "statement": "FivePointRelativePose aborts exactly when the two lists of points differ in length or hold fewer than five points. Otherwise it appends at most ten essential matrices to the output and returns whether some were found. All of them satisfy the epipolar constraint for the given five points, and if two calibrated cameras see the same points, the essential matrix of their relative motion is among them up to scale, for five points and for more.", "quantifier": "all numbers and positions of points, all motions, all previous contents of the output", "why_tests_cant": "The claim is over every input of unbounded size; a unit test samples a handful of inputs.", "anchors": ["src/theia/sfm/pose/five_point_relative_pose.cc: FivePointRelativePose, BuildConstraintMatrix, GetTraceConstraint, GetDeterminantConstraint, MultiplyDegOnePoly, MultiplyDegTwoDegOnePoly, EETranspose"]}
{"id": "C97", "title": "Aligning a set of orientations turns the whole set, towards the given orientations", "statement": "AlignRotations aborts exactly when the two lists differ in length. Otherwise it turns all orientations by one common rotation, so the relative rotation of any two is unchanged, and the result is as close to the given orientations as one turn can bring it. If the given orientations are the others after a turn, exactly they are written.", "quantifier": "all numbers and values of orientations, all behaviour of the nonlinear solver", "why_tests_cant": "The claim is over every input of unbounded size; a unit test samples a handful of inputs.", "anchors": ["src/theia/sfm/transformation/align_rotations.cc: AlignRotations, RotationAlignmentError, ApplyRotationTransformation"]}
{"id": "C98", "title": "Adjusting two views moves only what may move and does not make the errors larger", "statement": "BundleAdjustTwoViews aborts exactly when the number of points differs from the number of correspondences. Otherwise it changes only the pose of the second camera, the points and the focal lengths of cameras whose intrinsics are not held, and the reprojection errors do not grow. BundleAdjustTwoViewsAngular keeps the position of length one and does not increase the angular epipolar error, which is zero exactly for the motions that explain the correspondences, so the true motion is an optimum.", "quantifier": "all correspondences, cameras with separate or common intrinsics, points, poses, and sequences of steps the solver proposes", "why_tests_cant": "The claim is over every input of unbounded size; a unit test samples a handful of inputs.", "anchors": ["src/theia/sfm/bundle_adjustment/bundle_adjust_two_views.cc: BundleAdjustTwoViews, BundleAdjustTwoViewsAngular, AddCameraParametersToProblem", "src/theia/sfm/bundle_adjustment/angular_epipolar_error.h: AngularEpipolarError", "src/theia/sfm/bundle_adjustment/unit_norm_three_vector_parameterization.h: UnitNormThreeVectorParameterization"]}
{"id": "C99", "title": "The solvers for poses with a known axis of rotation find the true pose and turn about the axis only", "statement": "ThreePointRelativePosePartialRotation, FourPointRelativePosePartialRotation and SimTransformPartialRotation abort exactly when the axis does not have length one. All rotations they return are about the axis. If a turn about the axis with a translation (and for the similarity a scale) explains the rays, it is among the results: up to scale for three points, exactly otherwise. All results explain the rays, and for the similarity there is one scale for each rotation, which is not negative.", "quantifier": "all axes, rays, poses about the axis, eigenvectors and null vectors the linear algebra may choose, and earlier contents of the results", "why_tests_cant": "The claim is over every input of unbounded size; a unit test samples a handful of inputs.", "anchors": ["src/theia/sfm/pose/three_point_relative_pose_partial_rotation.cc: ThreePointRelativePosePartialRotation", "src/theia/sfm/pose/four_point_relative_pose_partial_rotation.cc: FourPointRelativePosePartialRotation", "src/theia/sfm/pose/sim_transform_partial_rotation.cc: SimTransformPartialRotation"]}
{"id": "C100", "title": "Bundle adjustment minimises the distances between features and the pixels at which cameras see the points", "statement": "For each camera model the residual of an observation is the pixel given by the model's equations for the point in camera coordinates, minus the feature; it is the error of Camera::ProjectPoint. Evaluating it fails only near the camera centre. It depends neither on the scale of the homogeneous coordinates nor on the coordinate system of the scene. With any loss function of positive width the cost of a whole reconstruction is half the sum of the losses over all observations of estimated tracks by estimated views; it is zero exactly when each point is seen at its feature.", "quantifier": "all camera models and parameters, poses, homogeneous points, features, loss functions and widths, reachable reconstructions and values of the parameter blocks", "why_tests_cant": "The claim is over every input of unbounded size; a unit test samples a handful of inputs.", "anchors": ["src/theia/sfm/camera/reprojection_error.h: ReprojectionError", "src/theia/sfm/camera/create_reprojection_error_cost_function.h: CreateReprojectionErrorCostFunction", "src/theia/sfm/bundle_adjustment/create_loss_function.cc: CreateLossFunction", "src/theia/sfm/bundle_adjustment/bundle_adjuster.cc: AddReprojectionErrorResidual", "src/theia/sfm/camera/camera_intrinsics_model.cc: CameraToImageCoordinates"]}
{"id": "C101", "title": "A normalized graph cut divides the nodes and reports what the division costs", "statement": "For a new object and empty output sets, a call that returns true puts each node of the graph into exactly one of the two subgraphs and nothing else into them. The subgraphs are separated by a threshold on the second generalised eigenvector of the graph, and the reported cost is the normalized cut of Shi and Malik between them: the weight across, divided by the weight of either side, added. It is the smallest among ten thresholds between the quartiles. If the eigensolver is right no division of the nodes has a cost below the eigenvalue.", "quantifier": "all weighted graphs and orders of iteration of the hash maps, all solvers, all divisions of the nodes into two sets", "why_tests_cant": "The claim is over every input of unbounded size; a unit test samples a handful of inputs.", "anchors": ["src/theia/math/graph/normalized_graph_cut.h: NormalizedGraphCut::ComputeCut", "src/theia/math/graph/normalized_graph_cut.h: ComputeCostForCut", "src/theia/math/graph/normalized_graph_cut.h: FindOptimalCut", "src/theia/math/graph/normalized_graph_cut.h: ComputeFirstAndThirdQuantiles"]}
{"id": "C102", "title": "EVSAC samples different correspondences that its predictor takes for correct", "statement": "Each sample consists of the requested number of different correspondences that the Rayleigh predictor takes for correct. The predictor compares the square of the smallest distance with the mean square of the others times the logarithm of the inverse threshold, whatever the unit. The estimated inlier ratio is at most the fraction of correspondences taken for correct and gives the mixture closest, in the least squares sense, to the empirical distribution of the smallest distances. Probabilities are between 0 and 1, and a correspondence is drawn with its probability as weight, or weight 0 if it is not taken for correct. Drawing ends exactly when enough different correspondences have come up.", "quantifier": "all matrices of sorted distances, thresholds, sample sizes, fitted parameters, right solvers of quadratic programs and sequences of random numbers", "why_tests_cant": "The claim is over every input of unbounded size; a unit test samples a handful of inputs.", "anchors": ["src/theia/solvers/evsac_sampler.h: EvsacSampler::Initialize", "src/theia/solvers/evsac_sampler.h: EvsacSampler::Sample", "src/theia/solvers/evsac_sampler.h: MRRayleigh", "src/theia/solvers/evsac_sampler.h: CalculateMixtureModel", "src/theia/solvers/evsac.h: Evsac"]}
{"id": "C103", "title": "The six point solver finds homographies between images with radial distortion", "statement": "The solver appends at most two results to those passed in, none if it returns false, all with both lens parameters in the given range. Each maps every right point to the line through the centre of the left image and its left point, and its last row and left lens parameter fit the six pairs best. If the pairs come from a homography and two lenses in the range, and determine them, these are among the results up to scale. The symmetric error of a pair in pixels is never negative, and zero exactly if the homography and the lenses map the right point to the left one.", "quantifier": "all point pairs, homographies, lens parameters, ranges, focal lengths, results passed in and right singular value decompositions", "why_tests_cant": "The claim is over every input of unbounded size; a unit test samples a handful of inputs.", "anchors": ["src/theia/sfm/pose/six_point_radial_distortion_homography.cc: SixPointRadialDistortionHomography", "src/theia/sfm/pose/six_point_radial_distortion_homography.cc: CheckRadialSymmetricError", "src/theia/sfm/pose/six_point_radial_distortion_homography.cc: DistortPoint", "src/theia/sfm/pose/six_point_radial_distortion_homography.cc: UndistortPoint", "src/theia/sfm/estimators/estimate_radial_distortion_homography.cc: RadialHomographyMatrixEstimator"]}
{"id": "C104", "title": "Reading a 1DSfM dataset gives the views, tracks and pairs that its files describe", "statement": "Read1DSFM into an empty reconstruction: the views are exactly the images of the component, each under its position in list.txt and with its file name; the calibration priors are the focal length of the list and the principal point and image size of coords.txt; track i is line i of tracks.txt, with the listed views, the points of the listed keys and their mean colour; two views are joined exactly if EGs.txt has a record of them, with a relative rotation and position that describe the same two cameras as the record in the other axis convention, and the number of shared tracks as the number of matches. A well-formed dataset is read completely, and false is returned exactly if a file cannot be opened.", "quantifier": "all contents of the five files, of any length, with any of them missing, and all values that unassigned variables may hold", "why_tests_cant": "The claim is over every input of unbounded size; a unit test samples a handful of inputs.", "anchors": ["src/theia/io/read_1dsfm.cc: Read1DSFM", "src/theia/io/read_1dsfm.cc: Input1DSFM::ReadCC", "src/theia/io/read_1dsfm.cc: Input1DSFM::ReadListsFile", "src/theia/io/read_1dsfm.cc: Input1DSFM::ReadCoords", "src/theia/io/read_1dsfm.cc: Input1DSFM::ReadTracks", "src/theia/io/read_1dsfm.cc: Input1DSFM::ReadEGs", "src/theia/io/read_1dsfm.h: Read1DSFM", "src/theia/sfm/reconstruction.cc: Reconstruction::AddView", "src/theia/sfm/reconstruction.cc: Reconstruction::RemoveView", "src/theia/sfm/reconstruction.cc: Reconstruction::AddTrack"]}
{"id": "C105", "title": "Extracting the features of many images gives every image its own features, whatever the threads do", "statement": "FeatureExtractor::Extract: once the call returns, the two output vectors have one entry per image, in the order of the images; the entry of an image holds the features the detector found in it, at most max_num_features of them and the first ones, and as many descriptors as keypoints; the result does not depend on the number of threads or on how they are scheduled, and no file is written. ExtractToDisk: the file output_directory/<image name>.features holds the features of that image, no other file changes, and nothing stays in memory. If every image can be read and every file written, no schedule ends the program or keeps the call from returning.", "quantifier": "all lists of images, all numbers of threads, all schedules of the jobs, all detectors, all contents of the vectors passed in and of the disk", "why_tests_cant": "The claim is over every input of unbounded size; a unit test samples a handful of inputs.", "anchors": ["src/theia/sfm/feature_extractor.cc: FeatureExtractor::Extract, FeatureExtractor::ExtractToDisk, FeatureExtractor::ExtractFeatures, FeatureExtractor::ExtractFeaturesFromImage", "src/theia/sfm/feature_extractor.h: FeatureExtractor", "src/theia/util/threadpool.cc: ThreadPool::~ThreadPool"]}
{"id": "C106", "title": "Reading a Strecha dataset gives the cameras of its files, and image sizes are set for all views or for none", "statement": "ReadStrechaDataset: there is one new estimated view per camera file, in the order of the files, named like the image, whose camera has the size and position of the file and projects every point of space to the same pixel as the camera of the file; other views and tracks are unchanged. PopulateImageSizesAndPrincipalPoints: it returns false exactly if the image of a view does not exist, and then changes nothing; when it returns true, every view has the size of its image and a principal point in the centre of that image, and nothing else has changed.", "quantifier": "all datasets with any number of files and any contents, all reconstructions that calls can produce, all image sizes, all orders in which views are visited", "why_tests_cant": "The claim is over every input of unbounded size; a unit test samples a handful of inputs.", "anchors": ["src/theia/io/read_strecha_dataset.cc: ReadStrechaDataset", "src/theia/io/read_strecha_dataset.cc: AddCameraToReconstruction", "src/theia/io/populate_image_sizes.cc: PopulateImageSizesAndPrincipalPoints", "src/theia/sfm/camera/projection_matrix_utils.cc: CalibrationMatrixToIntrinsics", "src/theia/sfm/reconstruction.cc: Reconstruction::AddView"]}
{"id": "C107", "title": "Descriptor extractors describe the image they are given, with any history of the extractor", "statement": "DetectAndExtractDescriptors with SIFT: after any calls on other images the extractor adds to the two vectors exactly the features of this image under its parameters, octave by octave, one descriptor per keypoint in the same order, only the first angle if upright features are asked for. ComputeDescriptor and ComputeDescriptors: for keypoints with scale and orientation, the descriptors of this image at these keypoints, in their order, without those that cannot be described; a keypoint without scale or orientation ends the program. The first octave is the lowest one in which the longer side of the image has fewer than 3600 pixels. CreateDescriptorExtractor: asking for denser features never excludes a feature.", "quantifier": "all images, parameters and histories of calls on one extractor, all lists of keypoints, all results that VLFeat's numerical parts can have", "why_tests_cant": "The claim is over every input of unbounded size; a unit test samples a handful of inputs.", "anchors": ["src/theia/src/theia/image/descriptor/sift_descriptor.cc: ComputeDescriptor, ComputeDescriptors, DetectAndExtractDescriptors, GetValidFirstOctave", "src/theia/src/theia/image/descriptor/descriptor_extractor.cc: DescriptorExtractor::ComputeDescriptors", "src/theia/src/theia/image/descriptor/akaze_descriptor.cc: AkazeDescriptorExtractor::ComputeDescriptor", "src/theia/src/theia/image/descriptor/create_descriptor_extractor.cc: CreateDescriptorExtractor", "src/theia/libraries/vlfeat/vl/sift.c: vl_sift_new, vl_sift_process_first_octave, vl_sift_process_next_octave, update_gradient, vl_sift_keypoint_init"]}
{"id": "C108", "title": "Reading a SIFT key file gives the features in it, or says that it could not", "statement": "ReadSiftKeyTextFile: a file with any number of features in the layout of Lowe's program (number and dimension, then for each feature row, column, scale and orientation and 128 numbers) is read completely: the call returns true, the keypoints have x from the column and y from the row, and the descriptors are the numbers divided by 255, in the order of the file. True is returned only with as many keypoints and descriptors as the file announces. A file that ends early is not taken for a complete one: the call returns false or the program ends. The keypoint vector may be null, as documented.", "quantifier": "all lists of features, all files, all places at which a file is cut, all contents of memory before the call", "why_tests_cant": "The claim is over every input of unbounded size; a unit test samples a handful of inputs.", "anchors": ["src/theia/src/theia/io/sift_text_file.cc: ReadSiftKeyTextFile", "src/theia/src/theia/io/sift_text_file.h: ReadSiftKeyTextFile"]}
{"id": "C109", "title": "Aligning cameras with points finds the transformation under which the cameras see the points", "statement": "EstimateSimilarityTransformation2D3D and EstimateRigidTransformation2D3D: the result is the initial value or a solution of the minimal solver for four of the correspondences, in the documented form (the similarity carries the cameras to the points, the rigid transformation the points to the cameras); no solution for a drawn sample has a lower cost; the inliers are exactly the correspondences whose point is not behind the camera and whose squared reprojection error is below the threshold. A correspondence whose point is exactly on the ray of its observation, in front of the camera, has the error zero. The two functions give a rigid transformation and its inverse with scale one the same errors. With normalized features of one camera the errors are those of the moved points. The alignment is a similarity with a positive scale, and all offered variants of the consensus can be used.", "quantifier": "all cameras with any intrinsics, all correspondences, all settings and samples, all results that the minimal solvers can have", "why_tests_cant": "The claim is over every input of unbounded size; a unit test samples a handful of inputs.", "anchors": ["src/theia/src/theia/sfm/estimators/estimate_similarity_transformation_2d_3d.cc: EstimateSimilarityTransformation2D3D, TransformCamera", "src/theia/src/theia/sfm/estimators/estimate_rigid_transformation_2d_3d.cc: EstimateRigidTransformation2D3D", "src/theia/src/theia/sfm/camera/camera.cc: ProjectPoint, PixelToUnitDepthRay"]}
{"id": "C110", "title": "A Fisher vector comes from the mixture fitted at the last training to a sample of the features added before it", "statement": "FisherVectorExtractor: after any sequence of AddFeaturesForTraining and Train, the mixture is the one fitted at the last Train to a sample of the features added before it, of size min(max_num_features_for_training, number added), and to all of them in order if there are no more than that; features added later do not change the descriptors. ExtractGlobalDescriptor returns the encoding by this mixture, with 2 * dimension * clusters entries, and refuses images before the first training and features of another dimension than those of the training. Features with entries that are not numbers, training without features and images without features end the program; all other uses with features of one dimension return, and Train returns true.", "quantifier": "all sequences of calls, all features, all settings, all random numbers of the sampler, all results of VLFeat", "why_tests_cant": "The claim is over every input of unbounded size; a unit test samples a handful of inputs.", "anchors": ["src/theia/src/theia/matching/fisher_vector_extractor.cc: AddFeaturesForTraining, Train, ExtractGlobalDescriptor, GaussianMixtureModel::Compute", "src/theia/src/theia/math/reservoir_sampler.h: ReservoirSampler"]}
{"id": "C111", "title": "The statistics of pose errors are those of all errors added", "statement": "PoseError: after any sequence of AddError and PrintMeanMedianHistogram, printing shows for rotations and positions the mean of all errors added, their median (the upper of the two middle ones for an even number) and, for each range of the histogram, the number of errors in it; together the lines show every error. Without errors the message says so. The message does not depend on the order in which errors were added, on how rotation and position errors were paired, or on how often it was printed before.", "quantifier": "all sequences of calls, all errors, all increasing boundaries of the histograms", "why_tests_cant": "The claim is over every input of unbounded size; a unit test samples a handful of inputs.", "anchors": ["src/theia/src/theia/sfm/pose_error.h: PoseError::AddError, PoseError::PrintMeanMedianHistogram", "src/theia/src/theia/math/histogram.h: Histogram", "src/theia/applications/compare_reconstructions.cc: AngularDifference, EvaluateAlignedPoseError"]}
{"id": "C112", "title": "The cache of images returns the images in the files and reads no more than it must", "statement": "ImageCache::FetchImage: while the files do not change, every call returns the image in the named file of the directory. In general a name among the last max_num_images_in_cache different names asked for gives the image of the last time without reading a file; any other name reads its file exactly once and gives the image that is in it now, or a null pointer if there is no such file. There are never more than max_num_images_in_cache images in the cache, and if no more than that many different names are asked for no file is read twice.", "quantifier": "all sequences of calls, all directories, all changes of the files between the calls, all sizes of the cache", "why_tests_cant": "The claim is over every input of unbounded size; a unit test samples a handful of inputs.", "anchors": ["src/theia/src/theia/image/image_cache.cc: ImageCache, FetchImage, FetchImagesFromDisk", "src/theia/src/theia/util/lru_cache.h: LRUCache"]}
{"id": "C113", "title": "The normal and the uniform distribution are probability densities", "statement": "NormalDistribution(mean, sigma): Eval is positive, has integral one, mean `mean` and variance sigma squared, is symmetric about the mean and strictly decreases with the distance from it. UniformDistribution(left, right): Eval is nonnegative, has integral one, is zero outside [left, right], and gives an interval inside the probability of its share of the length. The constructors end the program exactly for sigma <= 0 and for right <= left.", "quantifier": "all means, deviations, ends and arguments", "why_tests_cant": "The claim is over every input of unbounded size; a unit test samples a handful of inputs.", "anchors": ["src/theia/src/theia/math/distribution.h: NormalDistribution, UniformDistribution"]}
{"id": "C114", "title": "Formatted strings come back whole, whatever their length", "statement": "StringPrintf returns the whole text that the format and its arguments make, and StringAppendV appends it to what was there, also if it is longer than the internal buffer of 1024 characters or contains zero characters; if the text cannot be made nothing is appended.", "quantifier": "all texts of all lengths", "why_tests_cant": "The claim is over every input of unbounded size; a unit test samples a handful of inputs.", "anchors": ["src/theia/src/theia/util/stringprintf.cc: StringAppendV, StringPrintf"]}
{"id": "C115", "title": "Equal pairs and matrices have equal hashes, and keys that differ in one place do not collide", "statement": "The hash functions for pairs and for matrices give equal keys equal hashes, where equality is that of the components (so 0 and -0 are equal), as hash containers need; and two keys that differ in one component only, with different hashes of that component, have different hashes.", "quantifier": "all pairs and matrices, all sizes, all hash functions of the components that respect equality", "why_tests_cant": "The claim is over every input of unbounded size; a unit test samples a handful of inputs.", "anchors": ["src/theia/src/theia/util/hash.h: HashCombine, hash<std::pair>, hash<Eigen::Matrix>"]}
