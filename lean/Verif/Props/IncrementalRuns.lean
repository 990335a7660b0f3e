import Verif.Props.Incremental

/-!
# C72: runs of incremental reconstruction
-/

namespace Theia

open Spec Incremental

namespace IncrementalRuns

open Lean Elab Tactic Meta in
/-- Closes `a = b` by `Eq.refl a`; the kernel checks that both sides compute to the same. -/
elab "kernel_rfl" : tactic => do
  let g ← getMainGoal
  let t ← instantiateMVars (← g.getType)
  match t.eq? with
  | some (α, a, _) => g.assign (mkApp2 (mkConst ``Eq.refl [← getLevel α]) α a)
  | none => throwError "not an equation"

/-- Numerical parts that always succeed, except that points do not project well into `bad` views. Localized views get
orientation `q`; the bundle adjustment of a localized view succeeds if `adjustOk`. -/
def numerics {O : Type} (q : O) (bad : ViewId → Bool) (adjustOk : Bool) :
    Incremental.Numerics Unit Unit Unit O Unit Unit Unit Unit Unit Unit where
  order _ l := l
  schedule _ l := l
  calibrate _ := .ok fun _ => ()
  localization _ := ⟨fun _ => true, fun _ _ => (), fun _ _ => (), fun _ => (), fun _ _ => ⟨none, []⟩,
    fun ms => ⟨some (q, ()), List.range ms.length⟩, fun _ => ⟨none, []⟩, fun _ _ => .ok (),
    fun s v => (adjustOk, s.orientation v, (), ())⟩
  geometry _ _ := ⟨fun _ => true, fun _ _ => (true, ()), fun _ _ => (true, ()), fun obs _ => obs.all fun x => !bad x.1⟩
  outliers _ := ⟨fun _ _ => 1, fun v _ _ => if bad v then 1000 else 0, fun _ _ => (), fun _ _ => true⟩
  error _ _ _ := 0
  cell _ := ()
  score _ fs := fs.length
  adjust _ s _ _ := ⟨true, s.heap, s.orientation, s.position, fun _ => ()⟩

theorem numerics_wellBehaved {O : Type} (q : O) (bad : ViewId → Bool) (adjustOk : Bool) :
    WellBehaved (numerics q bad adjustOk) :=
  ⟨fun _ _ => .refl _, fun _ _ => .refl _, fun _ => ⟨_, rfl⟩, fun _ _ _ => ⟨_, rfl⟩, fun _ _ _ => rfl⟩

def options : Incremental.Options := ⟨1/2, 5, 20, 30, 1, true, 4, 4, false, 10, 100⟩

theorem options_valid : ValidOptions options := ⟨⟨by decide +kernel, by decide +kernel⟩, by decide +kernel, by decide, by decide⟩

/-- `n` tracks seen by the views `vs`. -/
def seenBy (n : Nat) (vs : List ViewId) : List (Reconstruction.Op Unit Unit) :=
  List.replicate n (.addTrack () (vs.map fun v => (v, ())))

def recon (ops : List (Reconstruction.Op Unit Unit)) : Reconstruction Unit Unit :=
  match Reconstruction.run Reconstruction.empty ops with
  | .ok (_, r) => r
  | _ => Reconstruction.empty

theorem recon_reachable (ops : List (Reconstruction.Op Unit Unit)) : (recon ops).Reachable := by
  unfold recon
  split
  · next as r h => exact ⟨ops, as, h⟩
  · exact ⟨[], [], rfl⟩

def scene {O : Type} (q : O) (r : Reconstruction Unit Unit) : Localize.Scene Unit Unit Unit O Unit :=
  ⟨r, fun _ => (), fun _ => q, fun _ => ()⟩

def nothingEstimated (r : Reconstruction Unit Unit) : Bool :=
  r.views.entries.all (fun x => !x.2.estimated) && r.tracks.entries.all fun x => !x.2.estimated

theorem nothingEstimated_spec {r : Reconstruction Unit Unit} (h : nothingEstimated r = true) : NothingEstimated r := by
  unfold nothingEstimated at h
  rw [Bool.and_eq_true, List.all_eq_true, List.all_eq_true] at h
  refine ⟨fun v V hV => ?_, fun t T hT => ?_⟩
  · have := h.1 _ (AMap.mem_entries_of_get hV)
    simpa using this
  · have := h.2 _ (AMap.mem_entries_of_get hT)
    simpa using this

/-- An edge between two views with the number of matches, of homography inliers and the relative orientation. -/
def edge {O : Type} (a b : Nat) (n h : Int) (q : O) : ViewGraph.Op (TwoView O Unit Unit) := .addEdge a b ⟨n, h, (), (), q, ()⟩

/-- What is shown of a run. -/
def show' {O : Type} : Outcome (Option (Summary × State Unit Unit Unit O Unit)) →
    Option (Bool × List ViewId × Nat × List ViewId × List ViewId × List O)
  | .ok (some (m, s)) => some (m.success, m.views, m.tracks.length, s.unlocalized, s.reconstructed,
      [s.scene.orientation 0, s.scene.orientation 1, s.scene.orientation 2])
  | _ => none

/-! ### A successful run -/

def threeViews : Reconstruction Unit Unit :=
  recon ([.addView "a", .addView "b", .addView "c"] ++ seenBy 101 [0, 1, 2])

def threeGraph : List (ViewGraph.Op (TwoView Nat Unit Unit)) := [edge 0 1 200 0 5, edge 1 2 200 1 6]

theorem threeViews_new : NothingEstimated threeViews := nothingEstimated_spec (by decide +kernel)

theorem threeGraph_views : GraphViews (ViewGraph.run threeGraph) threeViews := by
  have h : ∀ v ∈ (ViewGraph.run threeGraph).viewIds, (threeViews.view v).isSome = true := by decide +kernel
  exact fun v hv => Option.isSome_iff_exists.1 (h v hv)

/-- The hypotheses of the theorems of C72 hold for a scene of three views, which is reconstructed: views 0 and 1 are the
initial pair, view 2 is localized. -/
example : WellBehaved (numerics 7 (fun _ => false) true) ∧ ValidOptions options ∧ threeViews.Reachable ∧
    NothingEstimated threeViews ∧ GraphViews (ViewGraph.run threeGraph) threeViews ∧
    show' (estimate (numerics 7 (fun _ => false) true) options (ViewGraph.run threeGraph) 2 (scene 0 threeViews)) =
      some (true, [0, 1, 2], 101, [], [0, 1, 2], [0, 5, 7]) :=
  ⟨numerics_wellBehaved _ _ _, options_valid, recon_reachable _, threeViews_new, threeGraph_views, by kernel_rfl⟩

/-- The hypotheses of `C72_growth` hold for a state with two views, both for a small and for a large growth. -/
example : TracksConstrained threeViews ∧
    (∀ w ∈ [0, 1], ∃ V, (⟨scene 0 threeViews, [2], [0, 1], 2, 5⟩ : State Unit Unit Unit Nat Unit).scene.recon.view w = some V) ∧
    100 * (((2 : Nat) : ℚ) - ((2 : Int) : ℚ)) < options.growthPercent * ((2 : Int) : ℚ) ∧
    options.growthPercent * ((1 : Int) : ℚ) ≤ 100 * (((2 : Nat) : ℚ) - ((1 : Int) : ℚ)) := by
  have h : ∀ v ∈ [0, 1], (threeViews.view v).isSome = true := by decide +kernel
  refine ⟨fun t T hT he => ?_, fun w hw => Option.isSome_iff_exists.1 (h w hw), by decide +kernel, by decide +kernel⟩
  rw [threeViews_new.2 t T hT] at he
  cases he

/-! ### Findings -/

/-- C72: a view whose localization failed can be listed as estimated. Here the pose of view 2 is found, but the bundle
adjustment of the view fails: the view stays in the queue of views that are not localized, and in the summary. -/
theorem C72_failed_view_counterexample :
    NothingEstimated threeViews ∧ GraphViews (ViewGraph.run threeGraph) threeViews ∧
    show' (estimate (numerics 7 (fun _ => false) false) options (ViewGraph.run threeGraph) 2 (scene 0 threeViews)) =
      some (true, [0, 1, 2], 101, [2], [0, 1], [0, 5, 7]) :=
  ⟨threeViews_new, threeGraph_views, by kernel_rfl⟩

/-- 101 tracks seen by views 1 and 2. -/
def secondPair : Reconstruction Unit Unit := recon ([.addView "a", .addView "b", .addView "c"] ++ seenBy 101 [1, 2])

/-- C72: the pose of the first camera is not reset when a pair of views is rejected. Here the pair (0, 1) with relative
orientation 5 is tried first and rejected. Then the pair (1, 2) with relative orientation 6 is accepted, where view 1 keeps
the orientation 5 of the rejected pair and view 2 gets the orientation 6: the relative orientation is 1 rather than 6. -/
theorem C72_pose_counterexample :
    NothingEstimated secondPair ∧ GraphViews (ViewGraph.run threeGraph) secondPair ∧
    (ViewGraph.run threeGraph).getEdge 1 2 = some ⟨200, 1, (), (), 6, ()⟩ ∧
    show' (estimate (numerics 7 (fun _ => false) true) options (ViewGraph.run threeGraph) 2 (scene 0 secondPair)) =
      some (true, [1, 2], 101, [0], [1, 2], [0, 5, 6]) := by
  have h : ∀ v ∈ (ViewGraph.run threeGraph).viewIds, (secondPair.view v).isSome = true := by decide +kernel
  exact ⟨nothingEstimated_spec (by decide +kernel), fun v hv => Option.isSome_iff_exists.1 (h v hv), rfl, by kernel_rfl⟩

/-- Views 0 and 1 and the thirty tracks they share with view 2 are estimated, and so is view 3, which sees nothing. -/
def initialized : Reconstruction Unit Unit :=
  recon ([.addView "a", .addView "b", .addView "c", .addView "d"] ++ seenBy 30 [0, 1, 2] ++
    [.setViewEstimated 0 true, .setViewEstimated 1 true, .setViewEstimated 3 true] ++
    (List.range 30).map fun t => .setTrackEstimated t true ())

/-- C72: a reconstruction that is already initialized, as the documentation allows, can crash the program: its estimated
views are in neither container, and the clean-up after the first added view erases the end of the list. -/
theorem C72_initialized_counterexample :
    initialized.Reachable ∧ estimate (numerics 7 (fun _ => false) true) options
      (ViewGraph.run [edge 0 1 30 0 5, edge 1 2 30 0 6, edge 0 3 30 0 6]) 2 (scene 0 initialized) = .ub :=
  ⟨recon_reachable _, by kernel_rfl⟩

end IncrementalRuns

end Theia
