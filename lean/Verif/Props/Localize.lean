import Verif.Proof.Localize
import Verif.Props.Reconstruction

/-!
# C50: localising a view in a reconstruction
-/

namespace Theia

open Localize Spec Reconstruction

variable {F P M O X L N W : Type}

/-- The scene with the camera of `v` set and the view marked as estimated. -/
def Spec.localized (s : Scene F P M O X) (v : ViewId) (V : View F) (q : O) (x : X) (m : M) : Scene F P M O X where
  recon := markEstimated s.recon v V
  heap := fun i => if i = V.intrinsics then m else s.heap i
  orientation := fun w => if w = v then q else s.orientation w
  position := fun w => if w = v then x else s.position w

/-- The solver accepted enough pairs and inliers. -/
def Spec.Accepted (n : Numerics F P M O X L N W) (o : Options) (s : Scene F P M O X) (v : ViewId) (V : View F)
    (ts : List TrackId) (known : Bool) (inl : List Nat) (q : O) (x : X) (m : M) : Prop :=
  0 ≤ o.minInliers ∧ o.minInliers ≤ inl.length ∧
  o.minInliers ≤ (pointPairs s.recon V (if known then n.normalize (s.heap V.intrinsics) else n.shift (s.heap V.intrinsics))
    n.world ts).length ∧ Solved n o s v V ts known inl q x m

theorem Localize.gather_reachable {order : List Nat → List Nat} (horder : ∀ l, (order l).Perm l) {r : Reconstruction F P}
    (hr : r.Reachable) {v : ViewId} {V : View F} (hV : r.view v = some V) (f : F → N) (world : P → W) :
    gather r V f world (order V.trackIds) = .ok (pointPairs r V f world (order V.trackIds)) := by
  apply gather_spec
  · intro t ht
    exact ((C01_no_duplicates_no_dangling r hr).1 v V hV).2 t ((horder _).mem_iff.1 ht)
  · intro t ht
    exact AMap.mem_keys_iff.1 ((horder _).mem_iff.1 ht)

/-- C50. When the code takes the intrinsics as known: a focal length prior, or the view being localised is itself estimated
and another view shares its intrinsics. -/
theorem C50_known_exact (order : List Nat → List Nat) (horder : ∀ l, (order l).Perm l) (n : Numerics F P M O X L N W)
    (r : Reconstruction F P) (hr : r.Reachable) (v : ViewId) (V : View F) (hV : r.view v = some V) :
    ∃ b, knownIntrinsics order n r v = .ok b ∧ (b = true ↔ CodedKnown n.focalPrior r v) := by
  have hp := C03_groups_partition_views r hr
  obtain ⟨g, hg⟩ := (hp.2.1 v).2 ⟨V, hV⟩
  unfold knownIntrinsics
  rw [hV]
  simp only
  cases hf : n.focalPrior v with
  | true => exact ⟨true, rfl, by simp [CodedKnown, hf]⟩
  | false =>
    rw [hg]
    simp only [Bool.false_eq_true, if_false]
    rw [knownLoop_spec hV]
    refine ⟨_, rfl, ?_⟩
    unfold CodedKnown
    simp only [hf, Bool.false_eq_true, false_or, Bool.and_eq_true, List.any_eq_true, decide_eq_true_eq, hV,
      Option.some.injEq, exists_eq_left']
    constructor
    · rintro ⟨h1, w, hw, hne⟩
      exact ⟨h1, w, hne, g, (hp.1 w g).2 ((horder _).mem_iff.1 hw), hg⟩
    · rintro ⟨h1, w, hne, g', hw, hg'⟩
      rw [hg] at hg'
      cases hg'
      exact ⟨h1, w, (horder _).mem_iff.2 ((hp.1 w g).1 hw), hne⟩

/-- C50, partial. For a view with a focal length prior, or with no other view sharing its intrinsics, this is the
documented rule. -/
theorem C50_known_partial (order : List Nat → List Nat) (horder : ∀ l, (order l).Perm l) (n : Numerics F P M O X L N W)
    (r : Reconstruction F P) (hr : r.Reachable) (v : ViewId) (V : View F) (hV : r.view v = some V)
    (h : n.focalPrior v = true ∨ ∀ w, w ≠ v → r.groupOf w ≠ r.groupOf v) :
    ∃ b, knownIntrinsics order n r v = .ok b ∧ (b = true ↔ KnownIntrinsics n.focalPrior r v) := by
  obtain ⟨b, hb, hiff⟩ := C50_known_exact order horder n r hr v V hV
  refine ⟨b, hb, hiff.trans ?_⟩
  rcases h with h | h
  · exact ⟨fun _ => Or.inl h, fun _ => Or.inl h⟩
  · constructor
    · rintro (h1 | ⟨_, w, hne, g, hw, hg⟩)
      · exact Or.inl h1
      · exact absurd (hw.trans hg.symm) (h w hne)
    · rintro (h1 | ⟨w, _, hne, hw, _⟩)
      · exact Or.inl h1
      · exact absurd hw (h w hne)

/-- C50. What localising does, for every reachable reconstruction and iteration order. If the solver for the case accepts
the pairs of the estimated tracks with enough inliers, the camera of the view gets the solution, the view is marked
estimated and, if asked for, bundle adjusted, whose success is then the result. Otherwise the result is false and the
reconstruction is unchanged. -/
theorem C50_localize (order : List Nat → List Nat) (horder : ∀ l, (order l).Perm l) (n : Numerics F P M O X L N W)
    (o : Options) (s : Scene F P M O X) (hr : s.recon.Reachable) (v : ViewId) (V : View F) (hV : s.recon.view v = some V)
    (summary inl : List Nat) (b : Bool) (s' : Scene F P M O X)
    (h : localize order n o v s summary = .ok (b, s', inl)) :
    ∃ known, (known = true ↔ o.knownOrientation = true ∨ CodedKnown n.focalPrior s.recon v) ∧
    (∀ q x m, Accepted n o s v V (order V.trackIds) known inl q x m →
      (o.bundleAdjust = false → b = true ∧ s' = localized s v V q x m) ∧
      (o.bundleAdjust = true → b = (n.adjust (localized s v V q x m) v).1 ∧
        s' = localized s v V (n.adjust (localized s v V q x m) v).2.1 (n.adjust (localized s v V q x m) v).2.2.1
          (n.adjust (localized s v V q x m) v).2.2.2)) ∧
    ((¬∃ q x m, Accepted n o s v V (order V.trackIds) known inl q x m) → b = false ∧ s'.recon = s.recon) := by
  unfold localize at h
  rw [hV] at h
  simp only at h
  obtain ⟨known, hdk, hiff⟩ : ∃ known, decideKnown order n o s.recon v = .ok known ∧
      (known = true ↔ o.knownOrientation = true ∨ CodedKnown n.focalPrior s.recon v) := by
    unfold decideKnown
    cases hko : o.knownOrientation with
    | true => exact ⟨true, rfl, by simp⟩
    | false =>
      obtain ⟨b, hb, hb'⟩ := C50_known_exact order horder n s.recon hr v V hV
      exact ⟨b, hb, by simpa using hb'⟩
  refine ⟨known, hiff, ?_⟩
  rw [hdk, Outcome.ok_bind, Outcome.bind_eq_ok] at h
  obtain ⟨⟨b1, s1, inl1⟩, he, h⟩ := h
  simp only at h
  have hspec := estimatePose_spec order (fun hk => hiff.2 (Or.inl hk))
    (fun f => gather_reachable horder hr hV f n.world) he
  have solved_unique : ∀ {q x m q' x' m'}, Solved n o s v V (order V.trackIds) known inl1 q x m →
      Solved n o s v V (order V.trackIds) known inl1 q' x' m' → q = q' ∧ x = x' ∧ m = m' := by
    intro q x m q' x' m' ha hb
    cases ha with
    | position x hk h1 h2 =>
      cases hb with
      | position x' _ h1' _ => rw [h1] at h1'; cases h1'; exact ⟨rfl, rfl, rfl⟩
      | pose _ _ hk' => rw [hk] at hk'; cases hk'
      | focal _ _ _ _ hk' => rw [hk] at hk'; cases hk'
    | pose _ _ hk hkn h1 =>
      cases hb with
      | position _ hk' => rw [hk] at hk'; cases hk'
      | pose _ _ _ _ h1' => rw [h1] at h1'; cases h1'; exact ⟨rfl, rfl, rfl⟩
      | focal _ _ _ _ _ hkn' => rw [hkn] at hkn'; cases hkn'
    | focal _ _ _ _ hk hkn h1 h2 =>
      cases hb with
      | position _ hk' => rw [hk] at hk'; cases hk'
      | pose _ _ _ hkn' => rw [hkn] at hkn'; cases hkn'
      | focal _ _ _ _ _ _ h1' h2' =>
        rw [h1] at h1'; cases h1'
        rw [h2] at h2'; cases h2'
        exact ⟨rfl, rfl, rfl⟩
  rcases hspec with ⟨rfl, rfl, hno⟩ | ⟨rfl, hmin, hlen, q0, x0, m0, hsol, rfl⟩
  · simp only [Bool.not_false, Bool.true_or, if_true, Outcome.ok.injEq, Prod.mk.injEq] at h
    obtain ⟨rfl, rfl, rfl⟩ := h
    refine ⟨?_, fun _ => ⟨rfl, rfl⟩⟩
    rintro q x m ⟨h1, _, h3, h4⟩
    exfalso
    rcases hno with hno | hno | hno
    · omega
    · omega
    · exact hno ⟨q, x, m, h4⟩
  · simp only [Bool.not_true, Bool.false_or] at h
    cases htf : tooFew inl1.length o.minInliers with
    | true =>
      rw [htf] at h
      simp only [if_true, Outcome.ok.injEq, Prod.mk.injEq] at h
      obtain ⟨rfl, rfl, rfl⟩ := h
      refine ⟨?_, fun _ => ⟨rfl, rfl⟩⟩
      rintro q x m ⟨h1, h2, _, _⟩
      rw [tooFew_false.2 ⟨h1, h2⟩] at htf
      cases htf
    | false =>
      rw [htf] at h
      simp only [Bool.false_eq_true, if_false] at h
      unfold finish at h
      have hset : (place s v V q0 x0 m0).recon.setViewEstimated v true = .ok (markEstimated s.recon v V) := by
        unfold Reconstruction.setViewEstimated
        show (match s.recon.views.get v with
          | none => Outcome.ub
          | some view => .ok { s.recon with views := s.recon.views.insert v { view with estimated := true } }) = _
        rw [show s.recon.views.get v = some V from hV]
        rfl
      rw [hset, Outcome.ok_bind] at h
      have hloc : ({ place s v V q0 x0 m0 with recon := markEstimated s.recon v V } : Scene F P M O X) =
          localized s v V q0 x0 m0 := rfl
      rw [hloc] at h
      have hmin' := tooFew_false.1 htf
      cases hba : o.bundleAdjust with
      | true =>
        rw [hba] at h
        simp only [if_true, Outcome.ok.injEq, Prod.mk.injEq] at h
        obtain ⟨rfl, rfl, rfl⟩ := h
        refine ⟨?_, ?_⟩
        · rintro q x m ⟨_, _, _, h4⟩
          obtain ⟨rfl, rfl, rfl⟩ := solved_unique h4 hsol
          refine ⟨by simp, fun _ => ⟨rfl, ?_⟩⟩
          unfold adjusted Scene.setOrientation Scene.setPosition Scene.setHeap
          simp only [localized]
          congr 1
          · funext i
            split <;> rfl
          · funext i
            split <;> rfl
          · funext i
            split <;> rfl
        · intro hno
          exact absurd ⟨q0, x0, m0, hmin'.1, hmin'.2, hlen, hsol⟩ hno
      | false =>
        rw [hba] at h
        simp only [Bool.false_eq_true, if_false, Outcome.ok.injEq, Prod.mk.injEq] at h
        obtain ⟨rfl, rfl, rfl⟩ := h
        refine ⟨?_, ?_⟩
        · rintro q x m ⟨_, _, _, h4⟩
          obtain ⟨rfl, rfl, rfl⟩ := solved_unique h4 hsol
          exact ⟨fun _ => ⟨rfl, rfl⟩, by simp⟩
        · intro hno
          exact absurd ⟨q0, x0, m0, hmin'.1, hmin'.2, hlen, hsol⟩ hno

/-- C50. Nothing but the camera and the flag of the view changes: no track, group, name, feature, other view or pose of
another view. Intrinsics change only for views in the group of the view. If the call returns true the view is estimated;
if it returns false and the view is newly estimated, its bundle adjustment failed. -/
theorem C50_frame (order : List Nat → List Nat) (horder : ∀ l, (order l).Perm l) (n : Numerics F P M O X L N W)
    (o : Options) (s : Scene F P M O X) (hr : s.recon.Reachable) (v : ViewId) (V : View F) (hV : s.recon.view v = some V)
    (summary inl : List Nat) (b : Bool) (s' : Scene F P M O X)
    (h : localize order n o v s summary = .ok (b, s', inl)) :
    s'.recon.tracks = s.recon.tracks ∧ s'.recon.groups = s.recon.groups ∧ s'.recon.viewGroup = s.recon.viewGroup ∧
    s'.recon.names = s.recon.names ∧ (∀ w, w ≠ v → s'.recon.view w = s.recon.view w) ∧
    (∃ e, s'.recon.view v = some { V with estimated := e } ∧ (b = true → e = true) ∧
      (b = false → e = V.estimated ∨ o.bundleAdjust = true)) ∧
    (∀ w, w ≠ v → s'.orientation w = s.orientation w ∧ s'.position w = s.position w) ∧
    (∀ w U, s.recon.view w = some U → s.recon.groupOf w ≠ s.recon.groupOf v → s'.heap U.intrinsics = s.heap U.intrinsics) := by
  have hcam : (∀ w, w ≠ v → s'.orientation w = s.orientation w ∧ s'.position w = s.position w) ∧
      ∀ i, i ≠ V.intrinsics → s'.heap i = s.heap i := by
    have hpl : ∀ (t : Scene F P M O X) q x m, (∀ w, w ≠ v → (place t v V q x m).orientation w = t.orientation w ∧
        (place t v V q x m).position w = t.position w) ∧ ∀ i, i ≠ V.intrinsics → (place t v V q x m).heap i = t.heap i := by
      intro t q x m
      exact ⟨fun w hw => ⟨if_neg hw, if_neg hw⟩, fun i hi => if_neg hi⟩
    unfold localize at h
    rw [hV] at h
    simp only at h
    rw [Outcome.bind_eq_ok] at h
    obtain ⟨known, hdk, h⟩ := h
    have hkn : o.knownOrientation = true → known = true := by
      intro hk
      unfold decideKnown at hdk
      rw [if_pos hk] at hdk
      cases hdk
      rfl
    rw [Outcome.bind_eq_ok] at h
    obtain ⟨⟨b1, s1, inl1⟩, he, h⟩ := h
    simp only at h
    have h1 : (∀ w, w ≠ v → s1.orientation w = s.orientation w ∧ s1.position w = s.position w) ∧
        ∀ i, i ≠ V.intrinsics → s1.heap i = s.heap i := by
      rcases estimatePose_spec order hkn (fun f => gather_reachable horder hr hV f n.world) he with
        ⟨_, rfl, _⟩ | ⟨_, _, _, q, x, m, _, rfl⟩
      · exact ⟨fun _ _ => ⟨rfl, rfl⟩, fun _ _ => rfl⟩
      · exact hpl s q x m
    by_cases hc : (!b1 || tooFew inl1.length o.minInliers) = true
    · rw [if_pos hc] at h
      simp only [Outcome.ok.injEq, Prod.mk.injEq] at h
      obtain ⟨_, rfl, _⟩ := h
      exact h1
    · rw [if_neg hc] at h
      unfold finish at h
      rw [Outcome.bind_eq_ok] at h
      obtain ⟨r, _, h⟩ := h
      split at h
      · simp only [Outcome.ok.injEq, Prod.mk.injEq] at h
        obtain ⟨_, rfl, _⟩ := h
        have h2 := hpl { s1 with recon := r } (n.adjust { s1 with recon := r } v).2.1
          (n.adjust { s1 with recon := r } v).2.2.1 (n.adjust { s1 with recon := r } v).2.2.2
        exact ⟨fun w hw => ⟨(h2.1 w hw).1.trans (h1.1 w hw).1, (h2.1 w hw).2.trans (h1.1 w hw).2⟩,
          fun i hi => (h2.2 i hi).trans (h1.2 i hi)⟩
      · simp only [Outcome.ok.injEq, Prod.mk.injEq] at h
        obtain ⟨_, rfl, _⟩ := h
        exact h1
  have hheap : ∀ w U, s.recon.view w = some U → s.recon.groupOf w ≠ s.recon.groupOf v →
      s'.heap U.intrinsics = s.heap U.intrinsics := by
    intro w U hU hne
    exact hcam.2 _ (fun he => hne ((C03_same_group_iff_shared_intrinsics s.recon hr w v U V hU hV).1 he))
  obtain ⟨known, _, hacc, hrej⟩ := C50_localize order horder n o s hr v V hV summary inl b s' h
  have hmark : (markEstimated s.recon v V).view v = some { V with estimated := true } := AMap.get_insert_self _ _ _
  have hother : ∀ w, w ≠ v → (markEstimated s.recon v V).view w = s.recon.view w := fun w hw => AMap.get_insert_ne _ _ hw
  by_cases hex : ∃ q x m, Accepted n o s v V (order V.trackIds) known inl q x m
  · obtain ⟨q, x, m, ha⟩ := hex
    have hrec : s'.recon = markEstimated s.recon v V ∧ (b = false → o.bundleAdjust = true) := by
      cases hba : o.bundleAdjust with
      | true => exact ⟨by rw [((hacc q x m ha).2 hba).2]; rfl, fun _ => rfl⟩
      | false =>
        refine ⟨by rw [((hacc q x m ha).1 hba).2]; rfl, fun hb => ?_⟩
        rw [((hacc q x m ha).1 hba).1] at hb
        cases hb
    rw [hrec.1]
    exact ⟨rfl, rfl, rfl, rfl, hother, ⟨true, hmark, fun _ => rfl, fun hb => Or.inr (hrec.2 hb)⟩, hcam.1, hheap⟩
  · obtain ⟨hb, hrec⟩ := hrej hex
    rw [hrec]
    refine ⟨rfl, rfl, rfl, rfl, fun _ _ => rfl, ⟨V.estimated, hV, ?_, fun _ => Or.inl rfl⟩, hcam.1, hheap⟩
    intro h
    rw [hb] at h
    cases h

/-- Two views that share their intrinsics; view 0 is estimated, view 1 is not. Both see an estimated track. -/
def sharedOps : List (Op Nat Nat) :=
  [.addViewToGroup "a" 7, .addViewToGroup "b" 7, .setViewEstimated 0 true, .addTrack 0 [(0, 5), (1, 6)],
    .setTrackEstimated 0 true 9]

def sharedRecon : Reconstruction Nat Nat := { (Reconstruction.empty : Reconstruction Nat Nat) with
  nextViewId := 2
  nextTrackId := 1
  names := ⟨[("a", 0), ("b", 1)]⟩
  views := ⟨[(0, ⟨"a", true, 0, ⟨[(0, 5)]⟩⟩), (1, ⟨"b", false, 0, ⟨[(0, 6)]⟩⟩)]⟩
  tracks := ⟨[(0, ⟨true, 9, [0, 1]⟩)]⟩
  viewGroup := ⟨[(0, 7), (1, 7)]⟩
  groups := ⟨[(7, [0, 1])]⟩
  nextIntrinsics := 2 }

/-- Both cameras have the focal length 800 behind one pointer. -/
def sharedScene : Scene Nat Nat Nat Nat Nat := ⟨sharedRecon, fun _ => 800, fun _ => 0, fun _ => 0⟩

/-- No priors; the solver for an unknown focal length finds 100 with one inlier, the calibrated solver finds a pose. -/
def sharedNumerics : Numerics Nat Nat Nat Nat Nat Nat (Nat × Nat) Nat where
  focalPrior := fun _ => false
  shift := fun m x => (m, x)
  normalize := fun m x => (m, x + 1000)
  world := id
  solvePosition := fun _ _ => ⟨some 3, [0, 1]⟩
  solvePose := fun _ => ⟨some (1, 2), [0]⟩
  solvePoseFocal := fun _ => ⟨some (1, 2, 100), [0]⟩
  setFocal := fun l _ => .ok l
  adjust := fun _ _ => (false, 5, 6, 7)

/-- What one sees of a result: success, the flag of view 1, the two positions and the shared focal length. -/
def localizeShow (o : Options) (known : Numerics Nat Nat Nat Nat Nat Nat (Nat × Nat) Nat) :
    Outcome (Bool × Option Bool × Nat × Nat × Nat) :=
  match localize id known o 1 sharedScene [] with
  | .ok (b, s, _) => .ok (b, (s.recon.view 1).map (·.estimated), s.position 0, s.position 1, s.heap 0)
  | .abort => .abort
  | .ub => .ub

example : sharedRecon.Reachable := ⟨sharedOps, _, rfl⟩

/-- The hypotheses are met by a call that succeeds. -/
example : localizeShow ⟨false, false, 1⟩ sharedNumerics = .ok (true, some true, 0, 2, 100) := by decide +kernel

/-- The documented rule is false of the code: view 0 is estimated and shares its intrinsics with view 1, yet localising view
1 takes the intrinsics as unknown. The shared focal length, 800, is overwritten with the new estimate, 100, in the camera
of view 0 also. -/
theorem C50_known_counterexample :
    sharedRecon.Reachable ∧ KnownIntrinsics sharedNumerics.focalPrior sharedRecon 1 ∧
    knownIntrinsics id sharedNumerics sharedRecon 1 = .ok false ∧ sharedScene.heap 0 = 800 ∧
    localizeShow ⟨false, false, 1⟩ sharedNumerics = .ok (true, some true, 0, 2, 100) := by
  refine ⟨⟨sharedOps, _, rfl⟩, Or.inr ⟨0, _, by decide, rfl, rfl, rfl⟩, by decide +kernel, rfl, by decide +kernel⟩

/-- A call that fails for too few inliers has changed the camera: the position of the view and the focal length of the
whole group. -/
theorem C50_failure_changes_camera :
    ∃ n : Numerics Nat Nat Nat Nat Nat Nat (Nat × Nat) Nat,
      localizeShow ⟨false, false, 1⟩ n = .ok (false, some false, 0, 2, 100) := by
  refine ⟨{ sharedNumerics with solvePoseFocal := fun _ => ⟨some (1, 2, 100), []⟩ }, by decide +kernel⟩

/-- A failed bundle adjustment leaves the view estimated. -/
theorem C50_failed_adjustment_stays_estimated :
    localizeShow ⟨false, true, 1⟩ sharedNumerics = .ok (false, some true, 0, 6, 7) := by decide +kernel

/-- With a known orientation there is no second attempt with the full pose solver, though the header promises it: with one
inlier, the minimum, the position solver is rejected and the call fails, while the pose solver would succeed. -/
theorem C50_no_fallback_counterexample :
    ∃ n : Numerics Nat Nat Nat Nat Nat Nat (Nat × Nat) Nat,
      localizeShow ⟨true, false, 1⟩ n = .ok (false, some false, 0, 0, 800) ∧
      (n.solvePose []).result = some (1, 2) ∧ (n.solvePose []).inliers.length = 1 := by
  refine ⟨{ sharedNumerics with solvePosition := fun _ _ => ⟨some 3, [0]⟩ }, by decide +kernel, rfl, rfl⟩

end Theia
