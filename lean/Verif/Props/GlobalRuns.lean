import Verif.Props.Global
import Verif.Props.IncrementalRuns

/-!
# C73: runs of global reconstruction
-/

namespace Theia

open Spec Global
open Incremental (TwoView)

namespace GlobalRuns

open IncrementalRuns (numerics numerics_wellBehaved scene recon recon_reachable seenBy edge nothingEstimated_spec)

/-- The views that have an edge. -/
def nodes (g : ViewGraph (TwoView Nat Unit Unit)) : List ViewId := ((pairsOf g).flatMap fun e => [e.1, e.2]).dedup

theorem mem_nodes {g : ViewGraph (TwoView Nat Unit Unit)} {v : ViewId} : v ∈ nodes g → IsNode (pairsOf g) v := by
  unfold nodes IsNode
  rw [List.mem_dedup, List.mem_flatMap]
  rintro ⟨e, he, hv⟩
  refine ⟨e, he, ?_⟩
  simp only [List.mem_cons, List.not_mem_nil, or_false] at hv
  rcases hv with rfl | rfl
  · exact Or.inl rfl
  · exact Or.inr rfl

/-- Numerical parts with view `v` oriented by the number `v`: a relative rotation is acceptable if it is the difference. Points
do not project well into `bad` views. Positions need a pair of views, as in `LeastDeviations`. -/
def num (bad : ViewId → Bool) : Global.Numerics Unit Unit Unit Nat Unit Unit Unit Unit Unit Unit Unit where
  common := numerics 7 bad true
  pairs _ l := l
  rotations g := .ok (true, ⟨g.viewIds.map fun v => (v, v)⟩)
  acceptable o1 o2 r := o1 + r == o2
  normalize _ _ _ := ()
  optimize _ _ _ x := x
  tasks l := l
  rigid _ g := g.viewIds
  contradicted _ _ := []
  positions _ g _ := if pairsOf g = [] then .ub else .ok (true, ⟨(nodes g).map fun v => (v, ())⟩)
  adjustPositions _ s _ _ := ⟨true, s.heap, s.orientation, s.position, fun _ => ()⟩

theorem keys_map {X : Type} (l : List ViewId) (f : ViewId → X) : (⟨l.map fun v => (v, f v)⟩ : AMap ViewId X).keys = l := by
  unfold AMap.keys
  rw [List.map_map]
  exact List.map_id' l

theorem num_wellBehaved (bad : ViewId → Bool) : GlobalWellBehaved (num bad) where
  common := numerics_wellBehaved _ _ _
  pairs _ _ := .refl _
  tasks _ := .refl _
  rotations g _ _ := ⟨_, _, rfl, fun v hv => by rw [keys_map] at hv; exact AMap.contains_iff.2 hv⟩
  contradicted _ _ p hp := by cases hp
  positions _ g _ hne _ _ := ⟨_, _, if_neg hne⟩
  positioned _ g _ b ps h := by
    unfold num at h
    simp only at h
    split at h
    · cases h
    · cases h
      refine ⟨?_, fun v hv => ?_⟩
      · unfold AMap.WF
        rw [keys_map]
        exact List.nodup_dedup _
      · rw [keys_map] at hv
        exact mem_nodes hv

def options : Global.Options := ⟨30, 5, true, true, true, true, 1, 1, true, 4, false, 10, 100⟩

/-- Five views: views 0, 1 and 2 see five tracks, views 3 and 4 see three. -/
def fiveViews : Reconstruction Unit Unit :=
  recon ([.addView "a", .addView "b", .addView "c", .addView "d", .addView "e"] ++ seenBy 5 [0, 1, 2] ++ seenBy 3 [3, 4])

/-- The pair (0, 2) has a wrong relative rotation, the pair (2, 3) too few matches. -/
def fiveGraph : List (ViewGraph.Op (TwoView Nat Unit Unit)) :=
  [edge 0 1 200 0 1, edge 1 2 200 0 1, edge 0 2 200 0 5, edge 2 3 10 0 1, edge 3 4 200 0 1]

/-- What is shown of a run. -/
def show' : Outcome (Incremental.Summary × Global.State Unit Unit Unit Nat Unit Unit) →
    Option (Bool × List ViewId × Nat × List (Nat × Nat) × List Nat)
  | .ok (m, s) => some (m.success, m.views, m.tracks.length, pairsOf s.graph, s.orientations.keys)
  | _ => none

theorem fiveViews_new : NothingEstimated fiveViews := nothingEstimated_spec (by decide +kernel)

theorem graphViews {ops : List (ViewGraph.Op (TwoView Nat Unit Unit))}
    (h : ∀ v ∈ (ViewGraph.run ops).viewIds, (fiveViews.view v).isSome = true) :
    GraphViews (ViewGraph.run ops) fiveViews := fun v hv => Option.isSome_iff_exists.1 (h v hv)

theorem validIds {ops : List (ViewGraph.Op (TwoView Nat Unit Unit))}
    (h : ∀ v ∈ (ViewGraph.run ops).viewIds, v < 100) : ValidIds (ViewGraph.run ops) := by
  intro v hv
  have := h v (AMap.contains_iff.1 hv)
  have h2 : 100 < ViewGraph.maxViewId := by decide
  exact lt_trans this h2

/-- The hypotheses of the theorems of C73 hold for a scene of five views, three of which are reconstructed. -/
example : GlobalWellBehaved (num fun _ => false) ∧ 0 ≤ options.rotationTolerance ∧ 1 ≤ options.numThreads ∧
    ValidIds (ViewGraph.run fiveGraph) ∧ fiveViews.Reachable ∧ NothingEstimated fiveViews ∧
    GraphViews (ViewGraph.run fiveGraph) fiveViews ∧
    strongPairs options.minMatches (ViewGraph.run fiveGraph) = [(0, 1), (1, 2), (0, 2), (3, 4)] ∧
    show' (Global.estimate (num fun _ => false) options (ViewGraph.run fiveGraph) (scene 0 fiveViews)) =
      some (true, [0, 1, 2], 5, [(0, 1), (1, 2)], [0, 1, 2]) :=
  ⟨num_wellBehaved _, by decide +kernel, by decide, validIds (by decide +kernel), recon_reachable _, fiveViews_new,
    graphViews (by decide +kernel), by decide +kernel, by kernel_rfl⟩

/-- The hypotheses of `C73_rotation_filter` hold for these views, with three pairs that agree. -/
example : (∀ v ∈ (⟨[(0, 0), (1, 1), (2, 2), (3, 3), (4, 4)]⟩ : AMap ViewId Nat).keys,
      (ViewGraph.run fiveGraph).hasView v = true) ∧
    agreeingPairs (num fun _ => false) ⟨[(0, 0), (1, 1), (2, 2), (3, 3), (4, 4)]⟩ (ViewGraph.run fiveGraph) =
      [(0, 1), (1, 2), (2, 3), (3, 4)] := by
  constructor
  · decide +kernel
  · decide +kernel

/-- The hypotheses of `C73_round` and `C73_positions_only` hold for these views with two of them estimated. -/
example : ∃ r : Reconstruction Unit Unit, r.Reachable ∧ TracksConstrained r ∧ IsEstimated r 0 ∧ ¬ IsEstimated r 2 := by
  refine ⟨recon ([.addView "a", .addView "b", .addView "c"] ++ seenBy 2 [0, 1, 2] ++
    [.setViewEstimated 0 true, .setViewEstimated 1 true]), recon_reachable _, ?_, ?_, ?_⟩
  · have h : ∀ e ∈ (recon ([.addView "a", .addView "b", .addView "c"] ++ seenBy 2 [0, 1, 2] ++
        [.setViewEstimated 0 true, .setViewEstimated 1 true])).tracks.entries, e.2.estimated = false := by decide +kernel
    intro t T hT he
    rw [h _ (AMap.mem_entries_of_get hT)] at he
    cases he
  · have h : ((recon ([.addView "a", .addView "b", .addView "c"] ++ seenBy 2 [0, 1, 2] ++
        [.setViewEstimated 0 true, .setViewEstimated 1 true])).view 0).map (·.estimated) = some true := by decide +kernel
    exact Option.map_eq_some_iff.1 h
  · rintro ⟨V, hV, he⟩
    have h : ((recon ([.addView "a", .addView "b", .addView "c"] ++ seenBy 2 [0, 1, 2] ++
        [.setViewEstimated 0 true, .setViewEstimated 1 true])).view 2).map (·.estimated) = some false := by decide +kernel
    rw [hV] at h
    cases h.symm.trans (congrArg some he)

/-! ### Findings -/

/-- C73: success does not mean that anything is reconstructed. Here no track can be triangulated, so all views are set to
unestimated again, and success is reported with no view and no track. -/
theorem C73_empty_success_counterexample :
    GlobalWellBehaved (num fun _ => true) ∧ NothingEstimated fiveViews ∧
    GraphViews (ViewGraph.run fiveGraph) fiveViews ∧
    show' (Global.estimate (num fun _ => true) options (ViewGraph.run fiveGraph) (scene 0 fiveViews)) =
      some (true, [], 0, [(0, 1), (1, 2)], [0, 1, 2]) :=
  ⟨num_wellBehaved _, fiveViews_new, graphViews (by decide +kernel), by kernel_rfl⟩

/-- C73: after the filter by rotations it is not checked that pairs of views are left. Here the only pair disagrees with the
orientations; the estimation of positions is called without any pair, which is out of bounds for the estimator by least
unsquared deviations. -/
theorem C73_no_pairs_counterexample :
    GlobalWellBehaved (num fun _ => false) ∧ NothingEstimated fiveViews ∧
    GraphViews (ViewGraph.run [edge 0 1 200 0 5]) fiveViews ∧
    strongPairs options.minMatches (ViewGraph.run [edge 0 1 200 0 5]) = [(0, 1)] ∧
    Global.estimate (num fun _ => false) options (ViewGraph.run [edge 0 1 200 0 5]) (scene 0 fiveViews) = .ub :=
  ⟨num_wellBehaved _, fiveViews_new, graphViews (by decide +kernel), by decide +kernel, by kernel_rfl⟩

end GlobalRuns

end Theia
