import Verif.Props.Builder
import Verif.Props.GlobalRuns

/-!
# C74: runs of the reconstruction builder
-/

namespace Theia

open Spec Builder
open Incremental (TwoView)

namespace BuilderRuns

open IncrementalRuns (recon recon_reachable seenBy edge nothingEstimated_spec)

/-! ### An estimator -/

/-- Sets views to estimated. -/
def mark {F P : Type} : List ViewId → Reconstruction F P → Reconstruction F P
  | [], r => r
  | v :: vs, r =>
    match r.setViewEstimated v true with
    | .ok r => mark vs r
    | _ => mark vs r

/-- Call `k` estimates those of the views `3 * k`, `3 * k + 1` and `3 * k + 2` that exist, and stores `k + 1` in their
intrinsics. It succeeds if one of them exists. -/
def toy : Estimator Unit Unit Nat Unit Unit Unit := fun k g s =>
  let vs := [3 * k, 3 * k + 1, 3 * k + 2].filter fun v => (s.recon.view v).isSome
  .ok (!vs.isEmpty, g, { s with
    recon := mark vs s.recon
    heap := fun i => if vs.any fun v => (s.recon.view v).map (·.intrinsics) == some i then k + 1 else s.heap i })

section
variable {F P : Type}

theorem mark_ok (vs : List ViewId) : ∀ {r : Reconstruction F P}, r.Reachable →
    (mark vs r).Reachable ∧ SameStructure r (mark vs r) ∧ (∀ t, (mark vs r).track t = r.track t) ∧
      ∀ v, (v ∈ vs ∧ (∃ V, r.view v = some V)) ∨ ViewEstimated r v → ViewEstimated (mark vs r) v := by
  induction vs with
  | nil =>
    intro r h
    exact ⟨h, .refl r, fun _ => rfl, fun v hv => hv.elim (fun x => absurd x.1 List.not_mem_nil) id⟩
  | cons w vs ih =>
    intro r h
    unfold mark
    cases hW : r.view w with
    | none =>
      have : r.setViewEstimated w true = .ub := by
        unfold Reconstruction.setViewEstimated
        have : r.views.get w = none := hW
        rw [this]
      rw [this]
      obtain ⟨a, b, c, d⟩ := ih h
      refine ⟨a, b, c, fun v hv => d v ?_⟩
      rcases hv with ⟨hv, V, hV⟩ | hv
      · rcases List.mem_cons.1 hv with rfl | hv
        · rw [hW] at hV
          cases hV
        · exact Or.inl ⟨hv, V, hV⟩
      · exact Or.inr hv
    | some W =>
      have e := EstimatorUtils.setViewEstimated_eq hW true
      rw [e]
      have hr := Reconstruction.reachable_setViewEstimated h e
      obtain ⟨a, b, c, d⟩ := ih hr
      have hs := EstimatorUtils.same_setView e
      refine ⟨a, hs.trans b, c, fun v hv => d v ?_⟩
      have hw : ViewEstimated { r with views := r.views.insert w { W with estimated := true } } w :=
        ⟨_, AMap.get_insert_self _ _ _, rfl⟩
      by_cases hvw : v = w
      · subst hvw
        exact Or.inr hw
      · rcases hv with ⟨hv, V, hV⟩ | ⟨V, hV, he⟩
        · rcases List.mem_cons.1 hv with hv | hv
          · exact absurd hv hvw
          · obtain ⟨x, hx⟩ := hs.views v V hV
            exact Or.inl ⟨hv, _, hx⟩
        · exact Or.inr ⟨V, (AMap.get_insert_ne _ _ hvw).trans hV, he⟩

end

theorem toy_sound : SoundEstimator toy := by
  intro k g s b g' s' hf h
  cases h
  obtain ⟨a, b, c, -⟩ := mark_ok ([3 * k, 3 * k + 1, 3 * k + 2].filter fun v => (s.recon.view v).isSome) hf.reach
  refine ⟨hf.graph, fun _ => id, a, b, fun t T hT he => ?_⟩
  rw [hf.new.2 t T ((c t).symm.trans hT)] at he
  cases he

theorem toy_returns : ReturningEstimator toy := fun _ _ _ _ => ⟨_, rfl⟩

theorem toy_productive : ProductiveEstimator toy := by
  intro k g s g' s' hf h
  have h := Outcome.ok.inj h
  have hne : ([3 * k, 3 * k + 1, 3 * k + 2].filter fun v => (s.recon.view v).isSome) ≠ [] := by
    have := congrArg Prod.fst h
    intro e
    simp only [e] at this
    cases this
  obtain ⟨v, hv⟩ := List.exists_mem_of_ne_nil _ hne
  obtain ⟨-, -, -, d⟩ := mark_ok ([3 * k, 3 * k + 1, 3 * k + 2].filter fun v => (s.recon.view v).isSome) hf.reach
  have hV := (List.mem_filter.1 hv).2
  refine ⟨v, ?_⟩
  have e : _ = s' := congrArg (fun x => x.2.2) h
  rw [← e]
  exact d v (Or.inl ⟨hv, Option.isSome_iff_exists.1 hV⟩)

theorem toy_confined : ConfinedEstimator toy := by
  intro k g s b g' s' h i hi
  cases h
  change (if _ then _ else _) = _
  rw [if_neg]
  intro h
  obtain ⟨v, -, hv⟩ := List.any_eq_true.1 h
  obtain ⟨V, hV, e⟩ := Option.map_eq_some_iff.1 (beq_iff_eq.1 hv)
  exact hi v V hV e

/-! ### A history of calls and what is built from it -/

/-- Six images with two groups of shared intrinsics, views 0 to 2 and views 3 to 5. -/
def sixImages (group : Nat → Option GroupId) : List (Builder.Op Unit Unit) :=
  (List.range 6).map fun i => .image (some (toString i)) (group i) (some (decide (i ≠ 5)))

/-- Matches between images that follow each other, except 2 and 3. -/
def sixMatches : List (Builder.Op Unit Unit) :=
  [.matched "1" "0" () [((), ())], .matched "1" "2" () [((), ())], .matched "3" "4" () [((), ())],
    .matched "4" "5" () [((), ())]]

/-- The builder after the calls. -/
def filled (o : Builder.Options) (ops : List (Builder.Op Unit Unit)) : Outcome (State Unit Unit Nat Unit Unit Unit) := do
  let s ← create (fun _ => 0) (fun _ => ()) (fun _ => ()) 2 10
  fill .ok o ops s

/-- Reconstruction with the toy estimator. -/
def built (o : Builder.Options) (ops : List (Builder.Op Unit Unit)) (given : List (Output Unit Unit Nat Unit Unit)) :
    Outcome (Option (Bool × List (Output Unit Unit Nat Unit Unit) × State Unit Unit Nat Unit Unit Unit)) := do
  let s ← filled o ops
  Builder.build (fun l => l) toy o () 10 s given

/-- What is shown of a run: the result, the views of the reconstructions, those that remain, the contents of two intrinsics
objects for each reconstruction, and at the end. -/
def show' : Outcome (Option (Bool × List (Output Unit Unit Nat Unit Unit) × State Unit Unit Nat Unit Unit Unit)) →
    Option (Bool × List (List ViewId) × List ViewId × List (List Nat) × List Nat)
  | .ok (some (b, xs, s)) => some (b, xs.map fun x => x.recon.viewIds, s.scene.recon.viewIds,
      xs.map fun x => [0, 3].map x.intrinsics, [0, 3].map s.scene.heap)
  | _ => none


def groups : Nat → Option GroupId := fun i => some (i / 3)

/-- The state, or an empty one. -/
def stateOf (x : Outcome (State Unit Unit Nat Unit Unit Unit)) : State Unit Unit Nat Unit Unit Unit :=
  match x with
  | .ok s => s
  | _ => createFrom ⟨.empty, fun _ => 0, fun _ => (), fun _ => ()⟩ ⟨.empty, .empty⟩ fun _ => false

def isOk {α : Type} : Outcome α → Bool
  | .ok _ => true
  | _ => false

theorem stateOf_eq {x : Outcome (State Unit Unit Nat Unit Unit Unit)} (h : isOk x = true) : x = .ok (stateOf x) := by
  cases x with
  | ok s => rfl
  | ub => cases h
  | abort => cases h

/-- All hypotheses of `C74_matches` and `C74_prepare` hold for these calls, with and without `only_calibrated_views`; three
matches are used if image 5 must not be, as it is not calibrated. -/
theorem history (b : Bool) :
    let s := stateOf (filled ⟨b, false⟩ (sixImages groups ++ sixMatches))
    (∃ s0 : State Unit Unit Nat Unit Unit Unit, create (fun _ => 0) (fun _ => ()) (fun _ => ()) 2 10 = .ok s0 ∧
      fill .ok ⟨b, false⟩ (sixImages groups ++ sixMatches) s0 = .ok s) ∧
    ValidIds s.graph ∧ 2 ≤ s.graph.numViews ∧ s.scene.recon.numViews = 6 ∧
    s.graph.edges.keys = if b then [(0, 1), (1, 2), (3, 4)] else [(0, 1), (1, 2), (3, 4), (4, 5)] := by
  intro s
  have hok : isOk (filled ⟨b, false⟩ (sixImages groups ++ sixMatches)) = true := by cases b <;> kernel_rfl
  have h := stateOf_eq hok
  refine ⟨?_, ?_, ?_, ?_, ?_⟩
  · obtain ⟨s0, h0, h1⟩ := Outcome.bind_eq_ok.1 h
    exact ⟨s0, h0, h1⟩
  · have : ∀ v ∈ s.graph.viewIds, v < 100 := by cases b <;> decide +kernel
    intro v hv
    have h2 : 100 < ViewGraph.maxViewId := by decide
    exact lt_trans (this v (AMap.contains_iff.1 hv)) h2
  · cases b <;> decide +kernel
  · cases b <;> decide +kernel
  · cases b <;> decide +kernel

def prepared (b : Bool) : State Unit Unit Nat Unit Unit Unit :=
  stateOf (prepare (fun l => l) ⟨b, false⟩ () (stateOf (filled ⟨b, false⟩ (sixImages groups ++ sixMatches))))

theorem prepared_fresh (b : Bool) : Fresh (prepared b).graph (prepared b).scene.recon := by
  obtain ⟨⟨s0, h0, h1⟩, hv, h2, -⟩ := history b
  obtain ⟨used, hu⟩ := C74_matches _ _ _ _ _ _ _ _ s0 _ h0 h1
  obtain ⟨s1, -, -, e, -, -, -, -, -, -, -, -, -, hf, -⟩ :=
    C74_prepare (fun l => l) (fun _ => .refl _) _ _ _ _ (by decide) (by decide) _ _ _ hu hv h2 ()
  unfold prepared
  rw [e]
  exact hf

/-- The hypotheses of `C74_build`, `C74_returns` and `C74_intrinsics_partial` hold for these calls: two reconstructions are
built, or one and two views remain, if image 5 must not be used. -/
example : SoundEstimator toy ∧ ReturningEstimator toy ∧ ProductiveEstimator toy ∧ ConfinedEstimator toy ∧
    (∀ b, Fresh (prepared b).graph (prepared b).scene.recon) ∧
    show' (loop (fun l => l) toy ⟨false, false⟩ 7 0 (prepared false) []) =
      some (true, [[0, 1, 2], [3, 4, 5]], [], [[1, 0], [1, 2]], [1, 2]) ∧
    show' (loop (fun l => l) toy ⟨false, true⟩ 7 0 (prepared false) []) =
      some (true, [[0, 1, 2]], [3, 4, 5], [[1, 0]], [1, 0]) ∧
    show' (loop (fun l => l) toy ⟨true, false⟩ 7 0 (prepared true) []) =
      some (true, [[0, 1, 2]], [3, 4], [[1, 0]], [1, 0]) :=
  ⟨toy_sound, toy_returns, toy_productive, toy_confined, prepared_fresh, by kernel_rfl, by kernel_rfl, by kernel_rfl⟩

/-- What the estimator is given has tracks: one for each group of images that match. -/
example : (prepared false).scene.recon.tracks.entries.map (fun x => x.2.views) = [[1, 0, 2], [3, 4, 5]] ∧
    (prepared true).scene.recon.tracks.entries.map (fun x => x.2.views) = [[1, 0, 2], [3, 4]] := by decide +kernel

/-- The hypotheses of `C74_prepare_given` hold for what was prepared, and `C74_few_views` for a builder without images. -/
example : Fresh (prepared false).graph (prepared false).scene.recon ∧ 2 ≤ (prepared false).graph.numViews ∧
    (prepared false).scene.recon.numTracks ≠ 0 ∧ (stateOf (filled ⟨false, false⟩ [])).graph.numViews < 2 :=
  ⟨prepared_fresh _, by decide +kernel, by decide +kernel, by decide +kernel⟩

/-! ### Other estimators -/

def sixViews : Reconstruction Unit Unit :=
  recon ([.addView "a", .addView "b", .addView "c", .addView "d", .addView "e", .addView "f"] ++ seenBy 5 [0, 1, 2] ++
    seenBy 5 [3, 4, 5])

def sixGraph : List (ViewGraph.Op (TwoView Nat Unit Unit)) :=
  [edge 0 1 200 0 1, edge 1 2 200 0 1, edge 3 4 200 0 1, edge 4 5 200 0 1]

def six : State Unit Unit Unit Nat Unit (TwoView Nat Unit Unit) :=
  createFrom (IncrementalRuns.scene 0 sixViews) (ViewGraph.run sixGraph) fun _ => true

theorem sixViews_fresh : Fresh (ViewGraph.run sixGraph) sixViews where
  graph := ⟨sixGraph, rfl⟩
  ids := GlobalRuns.validIds (by decide +kernel)
  reach := recon_reachable _
  new := nothingEstimated_spec (by decide +kernel)
  views := by
    have h : ∀ v ∈ (ViewGraph.run sixGraph).viewIds, (sixViews.view v).isSome = true := by decide +kernel
    exact fun v hv => Option.isSome_iff_exists.1 (h v hv)

theorem six_fresh : Fresh six.graph six.scene.recon := by
  simp only [six, createFrom, IncrementalRuns.scene]
  exact sixViews_fresh

/-- What is shown of a run with other types: the result, the views and the number of tracks of each reconstruction, and the views
that remain. -/
def shown {M O : Type} : Outcome (Option (Bool × List (Output Unit Unit M O Unit) × State Unit Unit M O Unit (TwoView O Unit Unit))) →
    Option (Bool × List (List ViewId × Nat) × List ViewId)
  | .ok (some (b, xs, s)) => some (b, xs.map fun x => (x.recon.viewIds, x.recon.numTracks), s.scene.recon.viewIds)
  | _ => none

def incrementalNumerics : Nat → Incremental.Numerics Unit Unit Unit Nat Unit Unit Unit Unit Unit Unit :=
  fun _ => IncrementalRuns.numerics 7 (fun _ => false) true

/-- The hypotheses of `C74_estimators` hold for incremental reconstruction, with a scene that is reconstructed. -/
example : (∀ k, WellBehaved (incrementalNumerics k)) ∧ ValidOptions IncrementalRuns.options ∧
    shown (loop (fun l => l) (incremental incrementalNumerics IncrementalRuns.options 5) ⟨false, false⟩ 7 0
      (createFrom (IncrementalRuns.scene 0 IncrementalRuns.threeViews) (ViewGraph.run IncrementalRuns.threeGraph) fun _ => true) []) =
      some (true, [([0, 1, 2], 101)], []) :=
  ⟨fun _ => IncrementalRuns.numerics_wellBehaved _ _ _, IncrementalRuns.options_valid, by kernel_rfl⟩

/-- As `GlobalRuns.num`, but positions need no pair of views. -/
def globalNumerics (bad : ViewId → Bool) : Global.Numerics Unit Unit Unit Nat Unit Unit Unit Unit Unit Unit Unit :=
  { GlobalRuns.num bad with positions := fun _ g _ => .ok (true, ⟨(GlobalRuns.nodes g).map fun v => (v, ())⟩) }

theorem globalNumerics_wellBehaved (bad : ViewId → Bool) : GlobalWellBehaved (globalNumerics bad) where
  common := (GlobalRuns.num_wellBehaved bad).common
  pairs := (GlobalRuns.num_wellBehaved bad).pairs
  tasks := (GlobalRuns.num_wellBehaved bad).tasks
  rotations := (GlobalRuns.num_wellBehaved bad).rotations
  contradicted := (GlobalRuns.num_wellBehaved bad).contradicted
  positions _ g _ hne _ _ := ⟨_, _, rfl⟩
  positioned _ g _ b ps h := by
    cases h
    refine ⟨?_, fun v hv => ?_⟩
    · unfold AMap.WF
      rw [GlobalRuns.keys_map]
      exact List.nodup_dedup _
    · rw [GlobalRuns.keys_map] at hv
      exact GlobalRuns.mem_nodes hv

theorem globalNumerics_pairs (bad : ViewId → Bool) : ¬ NeedsPairs (globalNumerics bad) := by
  rintro ⟨scene, g, m, -, h⟩
  exact h _ _ rfl

/-- The hypotheses of `C74_global_largest_only` hold for these views: the first three are reconstructed, and not the other three,
although they are connected in the same way. -/
theorem C74_global_components_counterexample : (∀ k, GlobalWellBehaved ((fun _ : Nat => globalNumerics fun _ => false) k)) ∧
    ¬ NeedsPairs (globalNumerics fun _ => false) ∧ 0 ≤ GlobalRuns.options.rotationTolerance ∧ 1 ≤ GlobalRuns.options.numThreads ∧
    Fresh six.graph six.scene.recon ∧
    strongPairs GlobalRuns.options.minMatches six.graph = [(0, 1), (1, 2), (3, 4), (4, 5)] ∧
    shown (loop (fun l => l) (global (fun _ => globalNumerics fun _ => false) GlobalRuns.options) ⟨false, false⟩ 7 0 six []) =
      some (true, [([0, 1, 2], 5)], [3, 4, 5]) :=
  ⟨fun _ => globalNumerics_wellBehaved _, globalNumerics_pairs _, by decide +kernel, by decide, six_fresh, by decide +kernel,
    by kernel_rfl⟩

/-! ### Findings -/

section
variable {F P M O X I : Type}

/-- A loop that is always in a state in which it goes on does not end. -/
theorem loop_idle {order : List Nat → List Nat} {est : Estimator F P M O X I} (Q : State F P M O X I → Prop)
    (hq : ∀ k s, Q s → 3 ≤ s.scene.recon.numViews ∧ ∃ x s', pass order est k s = .ok (some x, s') ∧ Q s') :
    ∀ fuel k s out, Q s → loop order est ⟨false, false⟩ fuel k s out = .ok none := by
  intro fuel
  induction fuel with
  | zero => exact fun _ _ _ _ => rfl
  | succ fuel ih =>
    intro k s out hs
    obtain ⟨hn, x, s', e, hs'⟩ := hq k s hs
    obtain ⟨hn', -⟩ := hq k s' hs'
    unfold loop
    rw [if_pos (by omega), e]
    simp only [Bool.false_eq_true, if_false]
    rw [if_neg (by omega)]
    exact ih _ _ _ hs'

end

/-- The numerical parts with which no track can be estimated. -/
def nothing : Nat → Global.Numerics Unit Unit Unit Nat Unit Unit Unit Unit Unit Unit Unit := fun _ => globalNumerics fun _ => true

/-- The view graph after one pass. -/
def leftGraph : ViewGraph (TwoView Nat Unit Unit) :=
  match global nothing GlobalRuns.options 0 (ViewGraph.run GlobalRuns.fiveGraph) (IncrementalRuns.scene 0 GlobalRuns.fiveViews) with
  | .ok (_, g, _) => g
  | _ => ⟨.empty, .empty⟩

/-- Whether a pass succeeded, and the view graph and the reconstruction after it. -/
def after : Outcome (Option (Output Unit Unit Unit Nat Unit) × State Unit Unit Unit Nat Unit (TwoView Nat Unit Unit)) →
    Option (Bool × ViewGraph (TwoView Nat Unit Unit) × Reconstruction Unit Unit)
  | .ok (x, s) => some (x.isSome, s.graph, s.scene.recon)
  | _ => none

theorem pass_nothing (k : Nat) (heap : Nat → Unit) (orientation : ViewId → Nat) (position : ViewId → Unit) (calibrated : ViewId → Bool)
    (tracks : Option (TrackBuilder Unit)) (extractor : Bool) :
    after (pass (fun l => l) (global nothing GlobalRuns.options) k
      ⟨⟨GlobalRuns.fiveViews, heap, orientation, position⟩, leftGraph, calibrated, tracks, extractor⟩) =
      some (true, leftGraph, GlobalRuns.fiveViews) := by kernel_rfl

theorem pass_first (k : Nat) :
    after (pass (fun l => l) (global nothing GlobalRuns.options) k
      (createFrom (IncrementalRuns.scene 0 GlobalRuns.fiveViews) (ViewGraph.run GlobalRuns.fiveGraph) fun _ => true)) =
      some (true, leftGraph, GlobalRuns.fiveViews) := by kernel_rfl

theorem after_eq {x : Outcome (Option (Output Unit Unit Unit Nat Unit) × State Unit Unit Unit Nat Unit (TwoView Nat Unit Unit))}
    {g : ViewGraph (TwoView Nat Unit Unit)} {r : Reconstruction Unit Unit} (h : after x = some (true, g, r)) :
    ∃ y s, x = .ok (some y, s) ∧ s.graph = g ∧ s.scene.recon = r := by
  unfold after at h
  split at h
  · next y s =>
    simp only [Option.some.injEq, Prod.mk.injEq, Option.isSome_iff_exists] at h
    obtain ⟨⟨z, hz⟩, h2, h3⟩ := h
    exact ⟨z, s, by rw [hz], h2, h3⟩
  · cases h

/-- C74: `BuildReconstruction` may not end. Here global reconstruction succeeds without estimating anything, as in
`C73_empty_success_counterexample`; nothing is removed, and it is called again with the same views, forever, while empty
reconstructions are added to the vector. -/
theorem C74_livelock_counterexample :
    (∀ k, GlobalWellBehaved (nothing k)) ∧ (∀ k, ¬ NeedsPairs (nothing k)) ∧ GlobalRuns.fiveViews.Reachable ∧
    NothingEstimated GlobalRuns.fiveViews ∧ GraphViews (ViewGraph.run GlobalRuns.fiveGraph) GlobalRuns.fiveViews ∧
    ∀ fuel, Builder.build (fun l => l) (global nothing GlobalRuns.options) ⟨false, false⟩ () fuel
      (createFrom (IncrementalRuns.scene 0 GlobalRuns.fiveViews) (ViewGraph.run GlobalRuns.fiveGraph) fun _ => true) [] =
        .ok none := by
  refine ⟨fun _ => globalNumerics_wellBehaved _, fun _ => globalNumerics_pairs _, recon_reachable _, GlobalRuns.fiveViews_new,
    GlobalRuns.graphViews (by decide +kernel), fun fuel => ?_⟩
  have hn : 3 ≤ GlobalRuns.fiveViews.numViews := by decide +kernel
  have hp : prepare (fun l => l) ⟨false, false⟩ ()
      (createFrom (IncrementalRuns.scene 0 GlobalRuns.fiveViews) (ViewGraph.run GlobalRuns.fiveGraph) fun _ => true) =
      .ok (createFrom (IncrementalRuns.scene 0 GlobalRuns.fiveViews) (ViewGraph.run GlobalRuns.fiveGraph) fun _ => true) := by
    kernel_rfl
  rw [C74_build_after_prepare _ _ _ _ _ _ _ _ hp]
  refine loop_idle (fun s => (s.graph = leftGraph ∧ s.scene.recon = GlobalRuns.fiveViews) ∨
    s = createFrom (IncrementalRuns.scene 0 GlobalRuns.fiveViews) (ViewGraph.run GlobalRuns.fiveGraph) fun _ => true) ?_
    fuel 0 _ [] (Or.inr rfl)
  rintro k s (⟨h1, h2⟩ | rfl)
  · obtain ⟨⟨r, heap, orientation, position⟩, g, calibrated, tracks, extractor⟩ := s
    subst h1
    subst h2
    obtain ⟨y, s, e, a, b⟩ := after_eq (pass_nothing k heap orientation position calibrated tracks extractor)
    exact ⟨hn, y, s, e, Or.inl ⟨a, b⟩⟩
  · obtain ⟨y, s, e, a, b⟩ := after_eq (pass_first k)
    exact ⟨hn, y, s, e, Or.inl ⟨a, b⟩⟩

/-- C74: with a reconstruction that has no calibrated views and `only_calibrated_views`, all views are removed and true is
returned, with no reconstruction. -/
theorem C74_uncalibrated_counterexample :
    Fresh six.graph six.scene.recon ∧ shown (Builder.build (fun l => l) (incremental incrementalNumerics IncrementalRuns.options 5)
      ⟨true, false⟩ () 7 { six with calibrated := fun _ => false } []) = some (true, [], []) :=
  ⟨six_fresh, by kernel_rfl⟩

/-- C74: if the estimation fails, true is returned if the vector was not empty before. -/
theorem C74_given_counterexample (x : Output Unit Unit Unit Nat Unit) (fuel : Nat) :
    SoundEstimator (F := Unit) (P := Unit) (M := Unit) (O := Nat) (X := Unit) (I := TwoView Nat Unit Unit)
      (fun _ g s => .ok (false, g, s)) ∧
    Builder.build (fun l => l) (fun _ g s => .ok (false, g, s)) ⟨false, false⟩ () (fuel + 1) six [x] =
      .ok (some (true, [x], six)) := by
  refine ⟨?_, by kernel_rfl⟩
  intro k g s b g' s' hf h
  cases h
  refine ⟨hf.graph, fun _ => id, hf.reach, .refl _, fun t T hT he => ?_⟩
  rw [hf.new.2 t T hT] at he
  cases he

/-- C74: a reconstruction without tracks crashes the program, as the second constructor makes no track builder. So does adding an
image or a match with features. -/
theorem C74_second_constructor_counterexample :
    let s : State Unit Unit Unit Nat Unit (TwoView Nat Unit Unit) := createFrom
      (IncrementalRuns.scene 0 (recon [.addView "a", .addView "b"])) (ViewGraph.run [edge 0 1 200 0 1]) fun _ => true
    Builder.build (fun l => l) (incremental incrementalNumerics IncrementalRuns.options 5) ⟨false, false⟩ () 7 s [] = .ub ∧
    addImage s (some "c") none none = .ub ∧
    addMatch .ok ⟨false, false⟩ s "a" "b" ⟨200, 0, (), (), 1, ()⟩ [((), ())] = .ub :=
  ⟨by kernel_rfl, by kernel_rfl, by kernel_rfl⟩

/-- C74: the intrinsics of a reconstruction in the result can be overwritten by the estimation of the next one, if views of both
share intrinsics. Here the intrinsics of the first reconstruction are 1 when it is estimated, and 2 at the end. -/
theorem C74_intrinsics_counterexample : SoundEstimator toy ∧ ConfinedEstimator toy ∧
    show' (built ⟨false, false⟩ (sixImages (fun _ => some 0) ++ sixMatches) []) =
      some (true, [[0, 1, 2], [3, 4, 5]], [], [[1, 0], [2, 0]], [2, 0]) :=
  ⟨toy_sound, toy_confined, by kernel_rfl⟩

/-- C74: a prior in the database for an image that was not added crashes the program, and so does an image that is added after
features were extracted. -/
theorem C74_extract_counterexample :
    filled ⟨false, false⟩ (sixImages groups ++ [.extract [("6", true)] []]) = .ub ∧
    isOk (filled ⟨false, false⟩ (sixImages groups ++ [.extract [("5", true)] []])) = true ∧
    filled ⟨false, false⟩ (sixImages groups ++ [.extract [("5", true)] [], .image (some "6") none none]) = .ub :=
  ⟨by kernel_rfl, by kernel_rfl, by kernel_rfl⟩

/-- Two calls of `BuildReconstruction`. -/
def twice (o : Builder.Options) (ops : List (Builder.Op Unit Unit)) :
    Outcome (Option (Bool × List (Output Unit Unit Nat Unit Unit) × State Unit Unit Nat Unit Unit Unit)) :=
  match built o ops [] with
  | .ok (some (_, xs, s)) => Builder.build (fun l => l) toy o () 10 s xs
  | _ => .ok none

/-- C74: a second call of `BuildReconstruction` can end the program: the tracks are built again, with views that were removed. Here
the views 3 and 4 are left with no tracks. -/
theorem C74_twice_counterexample :
    twice ⟨false, true⟩ (sixImages groups ++ [.matched "0" "1" () [((), ())], .matched "1" "2" () [((), ())],
        .matched "3" "4" () []]) = .abort := by kernel_rfl

end BuilderRuns
end Theia
