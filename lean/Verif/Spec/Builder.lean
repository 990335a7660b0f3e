import Verif.Model.Builder
import Verif.Spec.EstimatedPart
import Verif.Spec.Global

/-!
# What building reconstructions needs and gives
-/

namespace Theia.Spec

variable {F P M O X I : Type}

/-- `p` has some of the views and tracks of `r`, with the same names, intrinsics objects, groups, and with exactly those
observations of `r` that are between its views and its tracks. -/
structure IsPart (r p : Reconstruction F P) : Prop where
  reach : p.Reachable
  view : ∀ v V', p.view v = some V' → ∃ V, r.view v = some V ∧ V'.name = V.name ∧ V'.intrinsics = V.intrinsics ∧
    ∀ t f, V'.getFeature t = some f ↔ V.getFeature t = some f ∧ ∃ T, p.track t = some T
  track : ∀ t T', p.track t = some T' → ∃ T, r.track t = some T ∧ ∀ v, v ∈ T'.views ↔ v ∈ T.views ∧ ∃ V, p.view v = some V
  names : ∀ n v, p.viewIdFromName n = some v ↔ r.viewIdFromName n = some v ∧ ∃ V, p.view v = some V
  groups : ∀ v g, p.groupOf v = some g ↔ r.groupOf v = some g ∧ ∃ V, p.view v = some V

/-- No view and no track is in both. -/
def Apart (p q : Reconstruction F P) : Prop :=
  (∀ v V, p.view v = some V → q.view v = none) ∧ ∀ t T, p.track t = some T → q.track t = none

/-- Everything is estimated, and tracks are seen by two views or more. -/
def AllEstimated (p : Reconstruction F P) : Prop :=
  (∀ v V, p.view v = some V → V.estimated = true) ∧
    ∀ t T, p.track t = some T → T.estimated = true ∧ 2 ≤ T.views.length

/-- What an estimator is given: a view graph obtained with its interface, with views of the reconstruction, in which nothing
is estimated. -/
structure Fresh (g : ViewGraph I) (r : Reconstruction F P) : Prop where
  graph : ∃ ops, g = ViewGraph.run ops
  ids : ValidIds g
  reach : r.Reachable
  new : NothingEstimated r
  views : GraphViews g r

/-- What is required of an estimator when it returns: it changes only estimates, its tracks are seen by two estimated views,
and the view graph gets no new views. -/
def SoundEstimator (est : Builder.Estimator F P M O X I) : Prop :=
  ∀ k g scene b g' scene', Fresh g scene.recon → est k g scene = .ok (b, g', scene') →
    (∃ ops, g' = ViewGraph.run ops) ∧ (∀ v, g'.hasView v = true → g.hasView v = true) ∧ scene'.recon.Reachable ∧
      SameStructure scene.recon scene'.recon ∧ TracksConstrained scene'.recon

/-- The estimator returns whenever it is called. -/
def ReturningEstimator (est : Builder.Estimator F P M O X I) : Prop :=
  ∀ k g scene, Fresh g scene.recon → ∃ x, est k g scene = .ok x

/-- The estimator changes only intrinsics objects used by views of the reconstruction given. -/
def ConfinedEstimator (est : Builder.Estimator F P M O X I) : Prop :=
  ∀ k g scene b g' scene', est k g scene = .ok (b, g', scene') → ∀ i,
    (∀ v V, scene.recon.view v = some V → V.intrinsics ≠ i) → scene'.heap i = scene.heap i

/-- A successful estimation estimates some view. -/
def ProductiveEstimator (est : Builder.Estimator F P M O X I) : Prop :=
  ∀ k g scene g' scene', Fresh g scene.recon → est k g scene = .ok (true, g', scene') → ∃ v, ViewEstimated scene'.recon v

/-- The reconstruction is the estimated part of what a successful estimation gave, with its poses and intrinsics. -/
def ComesFrom (est : Builder.Estimator F P M O X I) (x : Builder.Output F P M O X) : Prop :=
  ∃ k g scene g' scene', Fresh g scene.recon ∧ est k g scene = .ok (true, g', scene') ∧
    IsEstimatedPart scene'.recon x.recon ∧ x.orientation = scene'.orientation ∧ x.position = scene'.position ∧
    x.intrinsics = scene'.heap

/-- A match between two images: their names, the relative pose, and the features. -/
abbrev Matched (F I : Type) := String × String × I × List (F × F)

/-- The matches a history of calls passes to the builder. -/
def matchesOf : List (Builder.Op F I) → List (Matched F I)
  | [] => []
  | .image _ _ _ :: ops => matchesOf ops
  | .matched n1 n2 i fs :: ops => (n1, n2, i, fs) :: matchesOf ops
  | .extract _ found :: ops => found ++ matchesOf ops

/-- The views of a match. -/
def MatchedViews (r : Reconstruction F P) (m : Matched F I) (a b : ViewId) : Prop :=
  r.viewIdFromName m.1 = some a ∧ r.viewIdFromName m.2.1 = some b

/-- The pairs of features of a match. -/
def correspondencesOf (r : Reconstruction F P) (m : Matched F I) : List ((ViewId × F) × (ViewId × F)) :=
  match r.viewIdFromName m.1, r.viewIdFromName m.2.1 with
  | some a, some b => m.2.2.2.map fun f => ((a, f.1), (b, f.2))
  | _, _ => []

/-- The edge of a match: from the view with the smaller id to the other, which may need the relative pose of the reversed
pair. -/
def EdgeOf (swap : I → Outcome I) (r : Reconstruction F P) (m : Matched F I) (e : ViewId × ViewId × I) : Prop :=
  MatchedViews r m e.1 e.2.1 ∧ if e.2.1 < e.1 then swap m.2.2.1 = .ok e.2.2 else e.2.2 = m.2.2.1

/-- What the builder has after a history of calls: reconstruction without tracks, in which nothing is estimated, the matches
that were used, the view graph of those matches, and the track builder that was given their correspondences. -/
structure HasMatches [DecidableEq F] (swap : I → Outcome I) (o : Builder.Options) (minLength maxLength : Nat)
    (seen used : List (Matched F I)) (s : Builder.State F P M O X I) : Prop where
  reach : s.scene.recon.Reachable
  new : NothingEstimated s.scene.recon
  noTracks : ∀ t, s.scene.recon.track t = none
  sub : used.Sublist seen
  all : o.onlyCalibrated = false → used = seen
  names : ∀ m ∈ used, ∃ a b, MatchedViews s.scene.recon m a b ∧ (m.2.2.2 ≠ [] → a ≠ b) ∧
    (a ≠ b → o.onlyCalibrated = true → s.calibrated a = true ∧ s.calibrated b = true)
  graph : ∃ es, List.Forall₂ (EdgeOf swap s.scene.recon) used es ∧
    s.graph = ViewGraph.run (es.map fun e => .addEdge e.1 e.2.1 e.2.2)
  tracks : ∃ b0 b, TrackBuilder.create minLength maxLength = .ok b0 ∧
    b0.addAll (used.flatMap (correspondencesOf s.scene.recon)) = .ok b ∧ s.tracks = some b

end Theia.Spec
