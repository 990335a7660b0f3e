import Verif.Base.Outcome
import Verif.Base.AMap
import Verif.Model.Reconstruction
import Verif.Proof.Reconstruction
import Verif.Proof.ReconstructionSub
import Verif.Proof.ReconstructionRuns
import Verif.Props.Reconstruction
import Verif.Props.ConnectedComponents
import Verif.Props.ViewGraph
import Verif.Props.MinimumSpanningTree
import Verif.Props.TripletExtractor
import Verif.Props.TrackBuilder
import Verif.Props.LRUCache
import Verif.Props.PriorityQueue
import Verif.Props.ThreadPool
import Verif.Props.EstimateTrack
import Verif.Props.Ransac
import Verif.Props.Samplers
import Verif.Props.Quality
import Verif.Props.Reservoir
import Verif.Props.VisibilityPyramid
import Verif.Props.SelectTracks
import Verif.Props.Cleanup
import Verif.Props.BundleAdjuster
import Verif.Props.MatchDB
import Verif.Props.FeatureMatcher
import Verif.Props.CascadeHasher
import Verif.Props.GuidedMatcher
import Verif.Props.ImagePairs
import Verif.Props.GeometricVerification
import Verif.Props.Polynomial
import Verif.Props.RootSolvers
import Verif.Props.GaussJordan
import Verif.Props.Transform
import Verif.Props.TwoViewInfo
import Verif.Props.RotationFilters
import Verif.Props.TranslationFilter
import Verif.Props.TreeOrientations
import Verif.Props.CameraPriors
import Verif.Props.IntrinsicsGroups
import Verif.Props.CameraModels
import Verif.Props.Localize
import Verif.Props.Triangulation
import Verif.Props.EssentialMatrix
import Verif.Props.FundamentalMatrix
import Verif.Props.ProjectionMatrix
import Verif.Props.PoseUtil
import Verif.Props.EstimatedPart
import Verif.Props.Bundler
import Verif.Props.Export
import Verif.Props.LinearRotation
import Verif.Props.AlignPoints
import Verif.Props.LinearPosition
import Verif.Props.CompanionRoots
import Verif.Props.L1Solver
import Verif.Props.ConstrainedL1Solver
import Verif.Props.QpSolver
import Verif.Props.RobustRotation
import Verif.Props.LeastDeviations
import Verif.Props.EstimatorUtils
import Verif.Props.Incremental
import Verif.Props.IncrementalRuns
import Verif.Props.IncrementalLivelock
import Verif.Props.Global
import Verif.Props.GlobalRuns
import Verif.Props.Builder
import Verif.Props.BuilderRuns
import Verif.Props.TwoPointPose
import Verif.Props.ThreePointPose
import Verif.Props.SevenPoint
import Verif.Props.EightPoint
import Verif.Props.Homography
import Verif.Props.KnownRotation
import Verif.Props.Hybrid
import Verif.Props.HybridRuns
import Verif.Props.Calibration
import Verif.Props.NonlinearPosition
import Verif.Props.PairwiseErrors
import Verif.Props.FeatureFiles
import Verif.Props.Colorize
import Verif.Props.Sprt
import Verif.Props.Gps
import Verif.Props.TwoViewEstimation
import Verif.Props.RobustEstimators
import Verif.Props.AbsolutePoseEstimators
import Verif.Props.TriangulationEstimator
import Verif.Props.Exif
import Verif.Props.RelativePosition
import Verif.Props.Undistort
import Verif.Props.FivePoint
import Verif.Props.AlignRotations
import Verif.Props.TwoViewAdjustment
import Verif.Props.PartialRotation
import Verif.Props.ReprojectionError
import Verif.Props.GraphCut
import Verif.Props.Evsac
import Verif.Props.RadialHomography
import Verif.Props.OneDSfM
import Verif.Props.Extraction
import Verif.Props.ImageSizes
import Verif.Props.Descriptors
import Verif.Props.SiftText
import Verif.Props.AlignCameras
import Verif.Props.Fisher
import Verif.Props.PoseError
import Verif.Props.ImageCache
import Verif.Props.Distribution
import Verif.Props.StringPrintf
import Verif.Props.Hash
