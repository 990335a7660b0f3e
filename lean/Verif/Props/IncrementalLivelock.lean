import Verif.Props.IncrementalRuns

/-!
# C72: a run of incremental reconstruction that never ends
-/

namespace Theia

open Spec Incremental

namespace IncrementalRuns

/-- Views 0 and 1 see all 101 tracks, view 2 the first thirty, view 3 the next thirty. -/
def fourViews : List (Reconstruction.Op Unit Unit) :=
  [.addView "a", .addView "b", .addView "c", .addView "d"] ++ seenBy 30 [0, 1, 2] ++ seenBy 30 [0, 1, 3] ++ seenBy 41 [0, 1]

def fourGraph : List (ViewGraph.Op (TwoView Unit Unit Unit)) := [edge 0 1 200 0 (), edge 0 2 90 1 (), edge 0 3 90 1 ()]

/-- Points do not project well into views 2 and 3. -/
def badViews : Incremental.Numerics Unit Unit Unit Unit Unit Unit Unit Unit Unit Unit :=
  numerics () (fun v => decide (2 ≤ v)) true

/-- Comparison of lists that the kernel computes fast. -/
def sameList {α : Type} (f : α → α → Bool) : List α → List α → Bool
  | [], [] => true
  | a :: l, b :: m => f a b && sameList f l m
  | _, _ => false

theorem sameList_spec {α : Type} {f : α → α → Bool} (hf : ∀ a b, f a b = true → a = b) : ∀ l m, sameList f l m = true → l = m
  | [], [], _ => rfl
  | a :: l, b :: m, h => by
    rw [sameList, Bool.and_eq_true] at h
    rw [hf a b h.1, sameList_spec hf l m h.2]
  | [], _ :: _, h => by cases h
  | _ :: _, [], h => by cases h

def sameMap {κ ν : Type} (f : κ → κ → Bool) (g : ν → ν → Bool) (a b : AMap κ ν) : Bool :=
  sameList (fun x y => f x.1 y.1 && g x.2 y.2) a.entries b.entries

theorem sameMap_spec {κ ν : Type} {f : κ → κ → Bool} {g : ν → ν → Bool} (hf : ∀ a b, f a b = true → a = b)
    (hg : ∀ a b, g a b = true → a = b) (a b : AMap κ ν) (h : sameMap f g a b = true) : a = b := by
  obtain ⟨a⟩ := a
  obtain ⟨b⟩ := b
  have := sameList_spec (fun x y hxy => by
    rw [Bool.and_eq_true] at hxy
    exact Prod.ext (hf _ _ hxy.1) (hg _ _ hxy.2)) _ _ h
  exact congrArg AMap.mk this

theorem beq_spec (a b : Nat) (h : Nat.beq a b = true) : a = b := Nat.eq_of_beq_eq_true h

def sameBool : Bool → Bool → Bool
  | true, b => b
  | false, b => !b

theorem sameBool_spec (a b : Bool) (h : sameBool a b = true) : a = b := by
  cases a <;> cases b <;> first | rfl | cases h

def sameView (a b : View Unit) : Bool :=
  decide (a.name = b.name) && sameBool a.estimated b.estimated && Nat.beq a.intrinsics b.intrinsics &&
    sameMap Nat.beq (fun _ _ => true) a.features b.features

theorem sameView_spec (a b : View Unit) (h : sameView a b = true) : a = b := by
  unfold sameView at h
  simp only [Bool.and_eq_true, decide_eq_true_eq] at h
  obtain ⟨a1, a2, a3, a4⟩ := a
  obtain ⟨b1, b2, b3, b4⟩ := b
  simp only at h
  obtain ⟨⟨⟨h1, h2⟩, h3⟩, h4⟩ := h
  rw [h1, sameBool_spec _ _ h2, beq_spec _ _ h3, sameMap_spec beq_spec (fun _ _ _ => rfl) _ _ h4]

def sameTrack (a b : Track Unit) : Bool := sameBool a.estimated b.estimated && sameList Nat.beq a.views b.views

theorem sameTrack_spec (a b : Track Unit) (h : sameTrack a b = true) : a = b := by
  unfold sameTrack at h
  rw [Bool.and_eq_true] at h
  obtain ⟨a1, a2, a3⟩ := a
  obtain ⟨b1, b2, b3⟩ := b
  simp only at h
  rw [sameBool_spec _ _ h.1, sameList_spec beq_spec _ _ h.2]

def sameRecon (a b : Reconstruction Unit Unit) : Bool :=
  Nat.beq a.nextTrackId b.nextTrackId && Nat.beq a.nextViewId b.nextViewId && Nat.beq a.nextGroupId b.nextGroupId &&
    sameMap (fun x y => decide (x = y)) Nat.beq a.names b.names && sameMap Nat.beq sameView a.views b.views &&
    sameMap Nat.beq sameTrack a.tracks b.tracks && sameMap Nat.beq Nat.beq a.viewGroup b.viewGroup &&
    sameMap Nat.beq (sameList Nat.beq) a.groups b.groups && Nat.beq a.nextIntrinsics b.nextIntrinsics

theorem sameRecon_spec (a b : Reconstruction Unit Unit) (h : sameRecon a b = true) : a = b := by
  unfold sameRecon at h
  simp only [Bool.and_eq_true] at h
  obtain ⟨a1, a2, a3, a4, a5, a6, a7, a8, a9⟩ := a
  obtain ⟨b1, b2, b3, b4, b5, b6, b7, b8, b9⟩ := b
  simp only at h
  obtain ⟨⟨⟨⟨⟨⟨⟨⟨h1, h2⟩, h3⟩, h4⟩, h5⟩, h6⟩, h7⟩, h8⟩, h9⟩ := h
  rw [beq_spec _ _ h1, beq_spec _ _ h2, beq_spec _ _ h3, sameMap_spec (fun _ _ h => of_decide_eq_true h) beq_spec _ _ h4,
    sameMap_spec beq_spec sameView_spec _ _ h5, sameMap_spec beq_spec sameTrack_spec _ _ h6,
    sameMap_spec beq_spec beq_spec _ _ h7, sameMap_spec beq_spec (fun _ _ h => sameList_spec beq_spec _ _ h) _ _ h8,
    beq_spec _ _ h9]

/-- Views 0 and 1 and the tracks `ts` are estimated. -/
def withTracks (ts : List TrackId) : Reconstruction Unit Unit :=
  recon (fourViews ++ [.setViewEstimated 0 true, .setViewEstimated 1 true] ++ ts.map fun t => .setTrackEstimated t true ())

/-- The state before a pass. -/
def before (ts : List TrackId) (queue : List ViewId) (optimized : Int) (clock : Nat) : State Unit Unit Unit Unit Unit :=
  ⟨scene () (withTracks ts), queue, [0, 1], optimized, clock⟩

/-- The state is one before a pass, but for its clock. -/
def agrees (ts : List TrackId) (queue : List ViewId) (optimized : Int) (s : State Unit Unit Unit Unit Unit) : Bool :=
  sameRecon s.scene.recon (withTracks ts) && sameList Nat.beq s.unlocalized queue && sameList Nat.beq s.reconstructed [0, 1] &&
    decide (s.numOptimized = optimized)

theorem agrees_spec {ts : List TrackId} {queue : List ViewId} {optimized : Int} {s : State Unit Unit Unit Unit Unit}
    (h : agrees ts queue optimized s = true) : s = before ts queue optimized s.clock := by
  unfold agrees at h
  unfold before
  generalize withTracks ts = r' at *
  simp only [Bool.and_eq_true, decide_eq_true_eq] at h
  obtain ⟨⟨⟨h1, h2⟩, h3⟩, h4⟩ := h
  obtain ⟨⟨r, hp, q, x⟩, U, R, n, c⟩ := s
  have h1 := sameRecon_spec _ _ h1
  have h2 := sameList_spec beq_spec _ _ h2
  have h3 := sameList_spec beq_spec _ _ h3
  simp only at h1 h2 h3 h4
  rw [h1, h2, h3, h4]
  rfl

/-- The view that a pass adds, and the state after it. -/
def pass (s : State Unit Unit Unit Unit Unit) : Option (List ViewId × State Unit Unit Unit Unit Unit) :=
  match findViews badViews s with
  | .ok vs =>
    match attempt badViews options (ViewGraph.run fourGraph) vs s 0 with
    | .ok (0, some true, s') => some (vs, s')
    | _ => none
  | _ => none

theorem mainLoop_pass {s s' : State Unit Unit Unit Unit Unit} {v : ViewId} {vs : List ViewId} (h : pass s = some (v :: vs, s'))
    (hU : s.unlocalized ≠ []) (k : Nat) :
    mainLoop badViews options (ViewGraph.run fourGraph) (k + 1) s = mainLoop badViews options (ViewGraph.run fourGraph) k s' := by
  unfold pass at h
  split at h
  · next ws h1 =>
    split at h
    · next t h2 =>
      obtain ⟨rfl, rfl⟩ : ws = v :: vs ∧ t = s' := by simpa using h
      rw [mainLoop, if_neg hU, h1, Outcome.ok_bind, h2, Outcome.ok_bind]
      rfl
    · cases h
  · cases h

def firstTracks : List TrackId := List.range 30 ++ (List.range 41).map (60 + ·)
def lastTracks : List TrackId := (List.range 71).map (30 + ·)

/-- A pass adds the first of the views `vs` and ends in a state before a pass. -/
def passes (s : State Unit Unit Unit Unit Unit) (vs : List ViewId) (ts : List TrackId) (queue : List ViewId) : Bool :=
  (pass s).any fun x => sameList Nat.beq x.1 vs && agrees ts queue 2 x.2

theorem passes_spec {s : State Unit Unit Unit Unit Unit} {vs : List ViewId} {ts : List TrackId} {queue : List ViewId}
    (h : passes s vs ts queue = true) : ∃ c, pass s = some (vs, before ts queue 2 c) := by
  unfold passes at h
  cases hp : pass s with
  | none => rw [hp] at h; cases h
  | some x =>
    rw [hp] at h
    simp only [Option.any_some, Bool.and_eq_true] at h
    exact ⟨x.2.clock, by rw [← agrees_spec h.2, ← sameList_spec beq_spec _ _ h.1]⟩

theorem passBoth (c : Nat) : passes (before (List.range 101) [3, 2] 0 c) [3, 2] firstTracks [3, 2] = true := by kernel_rfl

theorem passFirst (c : Nat) : passes (before firstTracks [3, 2] 2 c) [2] lastTracks [2, 3] = true := by kernel_rfl

theorem passLast (c : Nat) : passes (before lastTracks [2, 3] 2 c) [3] firstTracks [3, 2] = true := by kernel_rfl

/-- An initial pair is found. -/
def starts : Bool :=
  match initialPair badViews options (ViewGraph.run fourGraph) ⟨scene () (recon fourViews), [3, 2, 1, 0], [], 0, 1⟩ with
  | .ok (true, s) => agrees (List.range 101) [3, 2] 0 s
  | _ => false

theorem starts_true : starts = true := by kernel_rfl

theorem starts_spec : ∃ c, initialPair badViews options (ViewGraph.run fourGraph)
    ⟨scene () (recon fourViews), [3, 2, 1, 0], [], 0, 1⟩ = .ok (true, before (List.range 101) [3, 2] 0 c) := by
  have h := starts_true
  unfold starts at h
  split at h
  · next s hs => exact ⟨s.clock, by rw [hs, ← agrees_spec h]⟩
  · cases h

theorem loop_forever (k : Nat) : ∀ c,
    mainLoop badViews options (ViewGraph.run fourGraph) k (before firstTracks [3, 2] 2 c) = .ok none ∧
    mainLoop badViews options (ViewGraph.run fourGraph) k (before lastTracks [2, 3] 2 c) = .ok none := by
  induction k with
  | zero => intro c; exact ⟨rfl, rfl⟩
  | succ k ih =>
    intro c
    constructor
    · obtain ⟨c', h⟩ := passes_spec (passFirst c)
      rw [mainLoop_pass h (by unfold before; simp)]
      exact (ih c').2
    · obtain ⟨c', h⟩ := passes_spec (passLast c)
      rw [mainLoop_pass h (by unfold before; simp)]
      exact (ih c').1

/-- C72: incremental reconstruction can go on forever. Views 2 and 3 can be localized, but the points they see do not project
well into them. So their tracks are removed when the view is added, the view has no tracks any more and is queued again, and
its tracks are triangulated again from the other views when the next view is added. The passes add views 2 and 3 in turn. -/
theorem C72_livelock_counterexample (fuel : Nat) :
    WellBehaved badViews ∧ ValidOptions options ∧ (recon fourViews).Reachable ∧ NothingEstimated (recon fourViews) ∧
    GraphViews (ViewGraph.run fourGraph) (recon fourViews) ∧
    estimate badViews options (ViewGraph.run fourGraph) fuel (scene () (recon fourViews)) = .ok none := by
  have h : ∀ v ∈ (ViewGraph.run fourGraph).viewIds, ((recon fourViews).view v).isSome = true := by decide +kernel
  refine ⟨numerics_wellBehaved _ _ _, options_valid, recon_reachable _, nothingEstimated_spec (by decide +kernel),
    fun v hv => Option.isSome_iff_exists.1 (h v hv), ?_⟩
  have hq : queueViews (recon fourViews) (badViews.order 0 (ViewGraph.run fourGraph).viewIds) [] = [3, 2, 1, 0] := by
    decide +kernel
  have hc : checkOptions options = .ok () := by
    unfold checkOptions
    rw [if_pos (by decide +kernel)]
  generalize hr : recon fourViews = r at *
  have hstart : estimate badViews options (ViewGraph.run fourGraph) fuel (scene () r) =
      reconstruct badViews options (ViewGraph.run fourGraph) fuel ⟨scene () r, [3, 2, 1, 0], [], 0, 1⟩ := by
    unfold estimate
    rw [hc, Outcome.ok_bind]
    rw [show (scene () r).recon = r from rfl, hq]
    rfl
  rw [hstart]
  obtain ⟨c, h1⟩ := starts_spec
  rw [hr] at h1
  unfold reconstruct
  rw [h1, Outcome.ok_bind]
  simp only [if_true]
  cases fuel with
  | zero => rfl
  | succ k =>
    obtain ⟨c', h2⟩ := passes_spec (passBoth c)
    rw [mainLoop_pass h2 (by unfold before; simp), (loop_forever k c').1]
    rfl

end IncrementalRuns

end Theia
