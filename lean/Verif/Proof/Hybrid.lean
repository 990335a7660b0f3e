import Verif.Proof.Incremental
import Verif.Proof.LinearPositionExact
import Verif.Spec.Hybrid

/-!
# Proofs about hybrid reconstruction
-/

namespace Theia
namespace Hybrid

open Spec
open Incremental (TwoView State Summary Frame Inv Good)

variable {F P M O X L N W D C : Type}

/-- A view graph with the views of a reconstruction. -/
def allViews (r : Reconstruction F P) : ViewGraph (TwoView O X L) := ⟨⟨r.viewIds.map fun v => (v, [])⟩, .empty⟩

theorem allViews_viewIds (r : Reconstruction F P) : (allViews r : ViewGraph (TwoView O X L)).viewIds = r.viewIds := by
  unfold allViews ViewGraph.viewIds AMap.keys
  simp [Function.comp_def]

theorem allViews_in (r : Reconstruction F P) : GraphViews (allViews r : ViewGraph (TwoView O X L)) r := by
  intro v hv
  rw [allViews_viewIds] at hv
  exact AMap.mem_keys_iff.1 hv

/-- The invariant: the containers hold every view of the reconstruction once. -/
abbrev HInv (L : Type) (r0 : Reconstruction F P) (s : State F P M O X) : Prop :=
  Inv (allViews r0 : ViewGraph (TwoView O X L)) r0 s

theorem HInv.of {r0 : Reconstruction F P} {s : State F P M O X} (h1 : Good r0 s.scene.recon)
    (h2 : (s.unlocalized ++ s.reconstructed).Perm r0.viewIds) (h3 : s.numOptimized ≤ s.reconstructed.length) :
    HInv L r0 s where
  good := h1
  perm := by rw [allViews_viewIds]; exact h2
  opt := h3
  est v V hV _ := by
    rw [allViews_viewIds, ← h1.same.viewIds]
    exact AMap.mem_keys_iff.2 ⟨V, hV⟩

theorem HInv.all {r0 : Reconstruction F P} {s : State F P M O X} (h : HInv L r0 s) :
    (s.unlocalized ++ s.reconstructed).Perm r0.viewIds := by
  have := h.perm
  rw [allViews_viewIds] at this
  exact this

theorem HInv.nodup {r0 : Reconstruction F P} {s : State F P M O X} (h : HInv L r0 s) :
    (s.unlocalized ++ s.reconstructed).Nodup := by
  refine h.all.nodup_iff.2 ?_
  rw [← h.good.same.viewIds]
  exact (Reconstruction.inv_of_reachable h.good.reach).wfViews

theorem HInv.viewU {r0 : Reconstruction F P} {s : State F P M O X} (h : HInv L r0 s) {v : ViewId} (hv : v ∈ s.unlocalized) :
    ∃ V, r0.view v = some V := AMap.mem_keys_iff.1 (h.all.mem_iff.1 (List.mem_append_left _ hv))

/-- Every estimated view is reconstructed. -/
def EstIn (s : State F P M O X) : Prop := ∀ v V, s.scene.recon.view v = some V → V.estimated = true → v ∈ s.reconstructed

/-! ### Orientations -/

theorem constantOrientation_wellBehaved {num : Incremental.Numerics F P M O X L N W D C} (h : WellBehaved num) :
    WellBehaved (constantOrientation num) := ⟨h.order, h.schedule, h.calibrate, h.focal, h.wide⟩

theorem triangulate_orient {num : Incremental.Numerics F P M O X L N W D C} {o : Incremental.Options} {ids : List TrackId}
    {s s' : State F P M O X} (h : Incremental.triangulate num o ids s = .ok s') :
    s'.scene.orientation = s.scene.orientation := by
  unfold Incremental.triangulate at h
  obtain ⟨x, _, h⟩ := Outcome.bind_eq_ok.1 h
  obtain ⟨y, _, h⟩ := Outcome.bind_eq_ok.1 h
  cases h
  rfl

theorem structure_orient {num : Incremental.Numerics F P M O X L N W D C} {o : Incremental.Options} {v : ViewId}
    {s s' : State F P M O X} (h : Incremental.estimateStructure num o v s = .ok s') :
    s'.scene.orientation = s.scene.orientation := by
  unfold Incremental.estimateStructure at h
  split at h
  · cases h
  · exact triangulate_orient h

theorem bundle_orient (num : Incremental.Numerics F P M O X L N W D C) (vs : List ViewId) (ts : List TrackId)
    (s : State F P M O X) :
    (Incremental.bundleAdjust (constantOrientation num) vs ts s).2.scene.orientation = s.scene.orientation := by
  unfold Incremental.bundleAdjust constantOrientation
  funext v
  simp

section
variable [DecidableEq C]

theorem fullTracks_orient {num : Incremental.Numerics F P M O X L N W D C} {o : Incremental.Options}
    {s : State F P M O X} {x : List TrackId × State F P M O X} (h : Incremental.fullTracks num o s = .ok x) :
    x.2.scene.orientation = s.scene.orientation := by
  unfold Incremental.fullTracks at h
  split at h
  · obtain ⟨_, _, h⟩ := Outcome.bind_eq_ok.1 h
    obtain ⟨_, _, h⟩ := Outcome.bind_eq_ok.1 h
    cases h
    rfl
  · cases h
    rfl

theorem fullBundle_orient {num : Incremental.Numerics F P M O X L N W D C} {o : Incremental.Options} {b : Bool}
    {s s' : State F P M O X} (h : Incremental.fullBundle (constantOrientation num) o s = .ok (b, s')) :
    s'.scene.orientation = s.scene.orientation := by
  unfold Incremental.fullBundle at h
  obtain ⟨⟨ts, s1⟩, h1, h⟩ := Outcome.bind_eq_ok.1 h
  simp only at h
  obtain ⟨s2, h2, h⟩ := Outcome.bind_eq_ok.1 h
  cases h
  have e1 := fullTracks_orient h1
  have e2 := (Incremental.removeOutliers_poses h2).orientation
  rw [e2]
  simp only at e1
  rw [← e1]
  exact bundle_orient num _ _ _

theorem partialBundle_orient {num : Incremental.Numerics F P M O X L N W D C} {o : Incremental.Options} {b : Bool}
    {s s' : State F P M O X} (h : Incremental.partialBundle (constantOrientation num) o s = .ok (b, s')) :
    s'.scene.orientation = s.scene.orientation := by
  unfold Incremental.partialBundle at h
  obtain ⟨vs, _, h⟩ := Outcome.bind_eq_ok.1 h
  simp only at h
  obtain ⟨⟨ts, s1⟩, h1, h⟩ := Outcome.bind_eq_ok.1 h
  simp only at h
  obtain ⟨s2, h2, h⟩ := Outcome.bind_eq_ok.1 h
  cases h
  have e1 := (Incremental.partialTracks_poses h1).orientation
  have e2 := (Incremental.removeOutliers_poses h2).orientation
  rw [e2, ← e1]
  exact bundle_orient num _ _ _

theorem extend_orient {num : Incremental.Numerics F P M O X L N W D C} {o : Incremental.Options} {v : ViewId} {b : Bool}
    {s s' : State F P M O X} (h : Incremental.extend (constantOrientation num) o v s = .ok (b, s')) :
    s'.scene.orientation = s.scene.orientation := by
  unfold Incremental.extend at h
  split at h
  · obtain ⟨s1, h1, h⟩ := Outcome.bind_eq_ok.1 h
    rw [partialBundle_orient h, structure_orient h1]
  · obtain ⟨s1, h1, h⟩ := Outcome.bind_eq_ok.1 h
    rw [fullBundle_orient h]
    exact triangulate_orient h1

omit [DecidableEq C] in
theorem cleanup_orient {num : Incremental.Numerics F P M O X L N W D C} {s s' : State F P M O X}
    (h : cleanup num s = .ok s') : s'.scene.orientation = s.scene.orientation := by
  unfold cleanup at h
  obtain ⟨c, _, h⟩ := Outcome.bind_eq_ok.1 h
  cases h
  rfl

theorem addView_orient {num : Incremental.Numerics F P M O X L N W D C} {o : Options} {v : ViewId} {b : Bool}
    {s s' : State F P M O X} (h : addView (constantOrientation num) o v s = .ok (b, s')) :
    s'.scene.orientation = s.scene.orientation := by
  unfold addView at h
  simp only at h
  split at h
  · cases h
  · obtain ⟨s1, h1, h⟩ := Outcome.bind_eq_ok.1 h
    obtain ⟨⟨b', s2⟩, h2, h⟩ := Outcome.bind_eq_ok.1 h
    simp only at h
    obtain ⟨s3, h3, h⟩ := Outcome.bind_eq_ok.1 h
    cases h
    have e1 := (Incremental.removeOutliers_poses h1).orientation
    rw [cleanup_orient h3, extend_orient h2, e1]

omit [DecidableEq C] in
theorem markPair_orient {pair : ViewId × ViewId} {s s' : State F P M O X} (h : markPair pair s = .ok s') :
    s'.scene.orientation = s.scene.orientation := by
  unfold markPair at h
  obtain ⟨_, _, h⟩ := Outcome.bind_eq_ok.1 h
  obtain ⟨_, _, h⟩ := Outcome.bind_eq_ok.1 h
  cases h
  rfl

omit [DecidableEq C] in
theorem initializeKnown_orient {num : Numerics F P M O X L N W D C} {o : Options} {qs : AMap ViewId O}
    {g : ViewGraph (TwoView O X L)} {pair : ViewId × ViewId} {b : Bool} {s s' : State F P M O X}
    (h : initializeKnown num o qs g pair s = .ok (b, s')) : s'.scene.orientation = s.scene.orientation := by
  unfold initializeKnown at h
  split at h
  · cases h; rfl
  · split at h
    · obtain ⟨ms, _, h⟩ := Outcome.bind_eq_ok.1 h
      split at h
      · cases h
      · simp only at h
        split at h
        · cases h; rfl
        · obtain ⟨s1, h1, h⟩ := Outcome.bind_eq_ok.1 h
          cases h
          rw [markPair_orient h1]
          rfl
    · cases h

omit [DecidableEq C] in
theorem initializeTwoView_orient {num : Numerics F P M O X L N W D C} {qs : AMap ViewId O}
    {g : ViewGraph (TwoView O X L)} {pair : ViewId × ViewId} {b : Bool} {s s' : State F P M O X}
    (h : initializeTwoView num qs g pair s = .ok (b, s')) : s'.scene.orientation = s.scene.orientation := by
  unfold initializeTwoView at h
  split at h
  · cases h; rfl
  · split at h
    · obtain ⟨m1, _, h⟩ := Outcome.bind_eq_ok.1 h
      simp only at h
      obtain ⟨m2, _, h⟩ := Outcome.bind_eq_ok.1 h
      obtain ⟨s1, h1, h⟩ := Outcome.bind_eq_ok.1 h
      cases h
      rw [markPair_orient h1]
      rfl
    · cases h

omit [DecidableEq C] in
theorem setupPair_orient {num : Numerics F P M O X L N W D C} {o : Options} {qs : AMap ViewId O}
    {g : ViewGraph (TwoView O X L)} {pair : ViewId × ViewId} {b : Bool} {s s' : State F P M O X}
    (h : setupPair num o qs g pair s = .ok (b, s')) : s'.scene.orientation = s.scene.orientation := by
  unfold setupPair at h
  obtain ⟨⟨b1, s1⟩, h1, h⟩ := Outcome.bind_eq_ok.1 h
  simp only at h
  split at h
  · cases h; exact initializeKnown_orient h1
  · rw [initializeTwoView_orient h, initializeKnown_orient h1]

theorem tryPair_orient {num : Numerics F P M O X L N W D C} {o : Options} {qs : AMap ViewId O}
    {g : ViewGraph (TwoView O X L)} {pair : ViewId × ViewId} {b : Bool} {s s' : State F P M O X}
    (h : tryPair num o qs g pair s = .ok (b, s')) : s'.scene.orientation = s.scene.orientation := by
  unfold tryPair at h
  obtain ⟨r, _, h⟩ := Outcome.bind_eq_ok.1 h
  obtain ⟨⟨b1, s1⟩, h1, h⟩ := Outcome.bind_eq_ok.1 h
  have e1 := setupPair_orient h1
  simp only at h e1
  split at h
  · obtain ⟨s2, h2, h⟩ := Outcome.bind_eq_ok.1 h
    have e2 := structure_orient h2
    split at h
    · cases h; rw [e2, e1]
    · obtain ⟨⟨b3, s3⟩, h3, h⟩ := Outcome.bind_eq_ok.1 h
      have e3 := fullBundle_orient h3
      simp only at h
      split at h
      · cases h; simp only; rw [e3, e2, e1]
      · cases h; rw [e3, e2, e1]
  · cases h; exact e1

theorem chooseLoop_orient {num : Numerics F P M O X L N W D C} {o : Options} {qs : AMap ViewId O}
    {g : ViewGraph (TwoView O X L)} (pairs : List (ViewId × ViewId)) : ∀ {b : Bool} {s s' : State F P M O X},
    chooseLoop num o qs g pairs s = .ok (b, s') → s'.scene.orientation = s.scene.orientation := by
  induction pairs with
  | nil => intro b s s' h; cases h; rfl
  | cons p ps ih =>
    intro b s s' h
    rw [chooseLoop] at h
    obtain ⟨⟨b1, s1⟩, h1, h⟩ := Outcome.bind_eq_ok.1 h
    simp only at h
    split at h
    · cases h; exact tryPair_orient h1
    · rw [ih h, tryPair_orient h1]

/-- Each orientation is the one given or comes from a pose solver. -/
def From (num : Incremental.Numerics F P M O X L N W D C) (q0 : ViewId → O) (s : State F P M O X) : Prop :=
  ∀ v, s.scene.orientation v = q0 v ∨ FromSolver num (s.scene.orientation v)

omit [DecidableEq C] in
theorem From.of_eq {num : Incremental.Numerics F P M O X L N W D C} {q0 : ViewId → O} {s s' : State F P M O X}
    (h : From num q0 s) (e : s'.scene.orientation = s.scene.orientation) : From num q0 s' := by
  unfold From
  rw [e]
  exact h

omit [DecidableEq C] in
theorem localizeOnce_from {num : Incremental.Numerics F P M O X L N W D C} {o : Options} {known : Bool} {v : ViewId} {b : Bool}
    {q0 : ViewId → O} {s s' : State F P M O X} (hf : From num q0 s) (h : localizeOnce num o known v s = .ok (b, s')) :
    From num q0 s' := by
  unfold localizeOnce Localize.localize at h
  obtain ⟨⟨b1, scene, inl⟩, h1, h⟩ := Outcome.bind_eq_ok.1 h
  cases h
  split at h1
  · cases h1
  · next V hV =>
    obtain ⟨k, _, h1⟩ := Outcome.bind_eq_ok.1 h1
    obtain ⟨⟨b2, sc2, inl2⟩, h2, h1⟩ := Outcome.bind_eq_ok.1 h1
    simp only at h1
    have hsc : scene.orientation = sc2.orientation := by
      split at h1
      · cases h1; rfl
      · unfold Localize.finish at h1
        obtain ⟨r, _, h1⟩ := Outcome.bind_eq_ok.1 h1
        simp only [Bool.false_eq_true, if_false] at h1
        cases h1
        rfl
    intro w
    simp only
    rw [hsc]
    unfold Localize.estimatePose at h2
    obtain ⟨ms, _, h2⟩ := Outcome.bind_eq_ok.1 h2
    split at h2
    · cases h2; exact hf w
    · split at h2
      · have h2 := Outcome.ok.inj h2
        unfold Localize.withPosition at h2
        split at h2
        · split at h2 <;> (cases h2; exact hf w)
        · cases h2; exact hf w
      · split at h2
        · have h2 := Outcome.ok.inj h2
          unfold Localize.withPose at h2
          split at h2
          · next q x hq =>
            cases h2
            simp only [Localize.Scene.setPosition, Localize.Scene.setOrientation]
            split
            · exact Or.inr ⟨s.clock, ms, Or.inl ⟨x, hq⟩⟩
            · exact hf w
          · cases h2; exact hf w
        · unfold Localize.withFocal at h2
          split at h2
          · next q x l hq =>
            obtain ⟨m, _, h2⟩ := Outcome.bind_eq_ok.1 h2
            cases h2
            simp only [Localize.Scene.setPosition, Localize.Scene.setOrientation, Localize.Scene.setHeap]
            split
            · exact Or.inr ⟨s.clock, ms, Or.inr ⟨x, l, hq⟩⟩
            · exact hf w
          · cases h2; exact hf w

omit [DecidableEq C] in
theorem localizeView_from {num : Incremental.Numerics F P M O X L N W D C} {o : Options} {qs : AMap ViewId O} {v : ViewId}
    {b : Bool} {q0 : ViewId → O} {s s' : State F P M O X} (hf : From num q0 s)
    (h : localizeView num o qs v s = .ok (b, s')) : From num q0 s' := by
  unfold localizeView at h
  split at h
  · obtain ⟨⟨b1, s1⟩, h1, h⟩ := Outcome.bind_eq_ok.1 h
    simp only at h
    have := localizeOnce_from hf h1
    split at h
    · cases h; exact this
    · exact localizeOnce_from this h
  · exact localizeOnce_from hf h

theorem attempt_from {num : Incremental.Numerics F P M O X L N W D C} {o : Options} {qs : AMap ViewId O}
    {q0 : ViewId → O} (vs : List ViewId) : ∀ {s s' : State F P M O X} {n n' : Nat} {b : Bool}, From (constantOrientation num) q0 s →
    attempt (constantOrientation num) o qs vs s n = .ok (n', b, s') → From (constantOrientation num) q0 s' := by
  induction vs with
  | nil => intro s s' n n' b hf h; cases h; exact hf
  | cons v vs ih =>
    intro s s' n n' b hf h
    rw [attempt] at h
    obtain ⟨⟨b1, s1⟩, h1, h⟩ := Outcome.bind_eq_ok.1 h
    simp only at h
    have f1 := localizeView_from hf h1
    split at h
    · obtain ⟨⟨b2, s2⟩, h2, h⟩ := Outcome.bind_eq_ok.1 h
      simp only at h
      have f2 := f1.of_eq (addView_orient h2)
      split at h
      · exact ih f2 h
      · cases h; exact f2
    · exact ih f1 h

theorem mainLoop_from {num : Incremental.Numerics F P M O X L N W D C} {o : Options} {qs : AMap ViewId O}
    {q0 : ViewId → O} (k : Nat) : ∀ {s s' : State F P M O X} {b : Bool}, From (constantOrientation num) q0 s →
    mainLoop (constantOrientation num) o qs k s = .ok (some (b, s')) → From (constantOrientation num) q0 s' := by
  induction k with
  | zero => intro s s' b _ h; cases h
  | succ k ih =>
    intro s s' b hf h
    rw [mainLoop] at h
    split at h
    · cases h; exact hf
    · obtain ⟨vs, _, h⟩ := Outcome.bind_eq_ok.1 h
      obtain ⟨⟨n, b1, s1⟩, h1, h⟩ := Outcome.bind_eq_ok.1 h
      simp only at h
      have f1 := attempt_from vs hf h1
      split at h
      · split at h
        · cases h; exact f1
        · exact ih f1 h
      · cases h; exact f1

omit [DecidableEq C] in
theorem setOrientations_recon (es : List (ViewId × O)) : ∀ (scene : Localize.Scene F P M O X),
    (setOrientations es scene).recon = scene.recon ∧ (setOrientations es scene).heap = scene.heap ∧
      (setOrientations es scene).position = scene.position := by
  induction es with
  | nil => intro scene; exact ⟨rfl, rfl, rfl⟩
  | cons e es ih =>
    obtain ⟨v, q⟩ := e
    intro scene
    rw [setOrientations]
    split
    · exact ih scene
    · split
      · exact ih scene
      · exact ih (scene.setOrientation v q)

omit [DecidableEq C] in
theorem setOrientations_get (es : List (ViewId × O)) : ∀ (scene : Localize.Scene F P M O X),
    (es.map (·.1)).Nodup → (∀ v V, scene.recon.view v = some V → V.estimated = false) → ∀ v,
    (setOrientations es scene).orientation v = startOrientation ⟨es⟩ scene v := by
  induction es with
  | nil => intro scene _ _ v; rfl
  | cons e es ih =>
    obtain ⟨w, q⟩ := e
    intro scene hnd hnew v
    rw [List.map_cons, List.nodup_cons] at hnd
    rw [setOrientations]
    have hget : ∀ u, (⟨(w, q) :: es⟩ : AMap ViewId O).get u = if u = w then some q else (⟨es⟩ : AMap ViewId O).get u := by
      intro u
      unfold AMap.get
      by_cases hu : u = w
      · simp [hu]
      · rw [List.find?_cons_of_neg (by simpa using Ne.symm hu), if_neg hu]
    have hnone : (⟨es⟩ : AMap ViewId O).get w = none := by
      cases h : (⟨es⟩ : AMap ViewId O).get w with
      | none => rfl
      | some x => exact absurd (AMap.mem_keys_iff.2 ⟨x, h⟩) hnd.1
    cases hV : scene.recon.view w with
    | none =>
      simp only
      rw [ih scene hnd.2 hnew v]
      unfold startOrientation
      rw [hget]
      by_cases hv : v = w
      · subst hv; rw [hV]; simp [hnone]
      · rw [if_neg hv]
    | some V =>
      simp only [hnew w V hV, Bool.false_eq_true, if_false]
      rw [ih (scene.setOrientation w q) hnd.2 hnew v]
      unfold startOrientation
      rw [hget]
      by_cases hv : v = w
      · subst hv
        simp only [Localize.Scene.setOrientation, hnone, hV, if_true]
      · rw [if_neg hv]
        simp only [Localize.Scene.setOrientation, if_neg hv]

/-! ### The containers -/

variable {num : Incremental.Numerics F P M O X L N W D C} {o : Options} {r0 : Reconstruction F P}

omit [DecidableEq C] in
theorem cleanup_ok (hn : WellBehaved num) {s : State F P M O X} (h : HInv L r0 s) :
    ∃ s', cleanup num s = .ok s' ∧ HInv L r0 s' ∧ (∀ v ∈ s.unlocalized, v ∈ s'.unlocalized) ∧ (EstIn s → EstIn s') := by
  have hall : ∀ v, v ∈ s.scene.recon.viewIds → v ∈ s.unlocalized ∨ v ∈ s.reconstructed := by
    intro v hv
    rw [h.good.same.viewIds] at hv
    exact List.mem_append.1 (h.all.mem_iff.2 hv)
  obtain ⟨c, h1, h2⟩ := Incremental.cleanup_good (r0 := r0)
    ⟨s.scene.recon, num.order s.clock s.scene.recon.viewIds, s.unlocalized, s.reconstructed, s.numOptimized⟩ h.good (by
      intro v hv _
      exact hall v ((hn.order _ _).mem_iff.1 hv))
  unfold cleanup
  rw [h1]
  refine ⟨_, rfl, HInv.of h2.good (h2.perm.trans h.all) ?_, h2.mono, fun he => ?_⟩
  · have := h2.opt
    have := h.opt
    simp only at *
    omega
  · intro v V hV hest
    simp only at hV ⊢
    cases hV0 : s.scene.recon.view v with
    | none => rw [h2.lowered.2.1 v hV0] at hV; cases hV
    | some V0 =>
      obtain ⟨b, hb, hb'⟩ := h2.lowered.1 v V0 hV0
      rw [hV] at hb
      cases hb
      have hR := he v V0 hV0 (hb' hest)
      rcases List.mem_append.1 (h2.perm.mem_iff.2 (List.mem_append_right s.unlocalized hR)) with hU | hU
      · by_cases hin : v ∈ s.unlocalized
        · exact absurd rfl ((List.nodup_append.1 h.nodup).2.2 v hin v hR)
        · obtain ⟨V', hV', hf⟩ := h2.lost v hU hin
          rw [hV] at hV'
          cases hV'
          simp only at hest hf
          rw [hest] at hf
          cases hf
      · exact hU

/-- A clean-up that returns a reconstructed view to the queue. -/
def Loses (num : Incremental.Numerics F P M O X L N W D C) : Prop :=
  ∃ (s s' : State F P M O X) (v : ViewId), cleanup num s = .ok s' ∧ v ∈ s.reconstructed ∧ v ∈ s'.unlocalized

omit [DecidableEq C] in
theorem EstIn.frame {s s' : State F P M O X} (h : EstIn s) (hf : Frame r0 s s') : EstIn s' := by
  intro v V hV he
  rw [hf.reconstructed]
  refine h v V ?_ he
  unfold Reconstruction.view at *
  rw [← hf.views]
  exact hV

omit [DecidableEq C] in
theorem EstIn.congr {s s' : State F P M O X} (h : EstIn s) (hv : s'.scene.recon.views = s.scene.recon.views)
    (hr : s'.reconstructed = s.reconstructed) : EstIn s' := by
  intro v V hV he
  rw [hr]
  refine h v V ?_ he
  unfold Reconstruction.view at *
  rw [← hv]
  exact hV

/-- `extend` touches no view and neither container. -/
theorem extend_frame (hn : WellBehaved num) (ho : ValidOptions o.common) {s : State F P M O X}
    (h : HInv L r0 s) {v : ViewId} (hv : ∃ V, r0.view v = some V) :
    ∃ b s', Incremental.extend num o.common v s = .ok (b, s') ∧ Frame r0 s s' ∧ HInv L r0 s' := by
  obtain ⟨V, hV⟩ := h.good.view_of hv
  unfold Incremental.extend
  split
  · obtain ⟨s3, g1, g2, g3⟩ := Incremental.estimateStructure_ok hn ho h.good hV
    have hi3 : HInv L r0 s3 := h.frame g2 (by rw [g3, g2.reconstructed]; exact h.opt)
    rw [g1]
    simp only [Outcome.ok_bind]
    obtain ⟨b, s4, g4, g5, g6⟩ := Incremental.partialBundle_ok hn ho hi3.good (fun w hw => allViews_in (L := L) (O := O) (X := X) r0 w (hi3.memR hw))
    exact ⟨b, s4, g4, g2.trans g5, hi3.frame g5 (by rw [g6, g5.reconstructed]; exact hi3.opt)⟩
  · obtain ⟨s3, g1, g2, g3⟩ := Incremental.estimateAll_ok hn ho h.good
    have hi3 : HInv L r0 s3 := h.frame g2 (by rw [g3, g2.reconstructed]; exact h.opt)
    rw [g1]
    simp only [Outcome.ok_bind]
    obtain ⟨b, s4, g4, g5, g6, _⟩ := Incremental.fullBundle_ok hn o.common hi3.good
    exact ⟨b, s4, g4, g2.trans g5, hi3.frame g5 (by rw [g6])⟩

theorem addView_ok (hn : WellBehaved num) (ho : ValidOptions o.common)
    {s : State F P M O X} (h : HInv L r0 s) {v : ViewId} (hv : v ∈ s.unlocalized)
    (hest : ∀ w W, s.scene.recon.view w = some W → W.estimated = true → w ∈ s.reconstructed ∨ w = v) :
    ∃ b s', addView num o v s = .ok (b, s') ∧ HInv L r0 s' ∧ EstIn s' ∧
      (∀ w ∈ s.unlocalized, w ≠ v → w ∈ s'.unlocalized) ∧
      (s'.unlocalized.length < s.unlocalized.length ∨ Loses num) := by
  have hnd := h.nodup
  unfold addView
  simp only
  generalize hs1 : ({ s with reconstructed := s.reconstructed ++ [v], unlocalized := s.unlocalized.filter _ } :
    State F P M O X) = s1
  have hi1 : HInv L r0 s1 := by
    subst hs1
    refine HInv.of h.good ((Incremental.perm_move (List.nodup_append.1 hnd).1 hv).trans h.all) ?_
    have := h.opt
    simp
    omega
  have he1 : EstIn s1 := by
    subst hs1
    intro w W hW he
    rcases hest w W hW he with h | h
    · exact List.mem_append_left _ h
    · exact List.mem_append_right _ (by simp [h])
  have hrec : s.scene.recon = s1.scene.recon := by subst hs1; rfl
  have hclock : s.clock = s1.clock := by subst hs1; rfl
  rw [hrec, hclock]
  obtain ⟨V, hV⟩ := hi1.good.view_of (h.viewU hv)
  rw [hV]
  simp only
  have hvt := (C01_no_duplicates_no_dangling _ hi1.good.reach).1 v V hV
  obtain ⟨s2, h2, h3, h4⟩ := Incremental.removeOutliers_ok hn o.common.triangulationError hi1.good
    (ids := num.order s1.clock V.trackIds)
    ((hn.order _ _).nodup_iff.2 hvt.1) (fun t ht => hvt.2 t ((hn.order _ _).mem_iff.1 ht))
  rw [h2]
  simp only [Outcome.ok_bind]
  have hi2 : HInv L r0 s2 := hi1.frame h3 (by rw [h4, h3.reconstructed]; exact hi1.opt)
  obtain ⟨b, s3, h5, h5', h6⟩ := extend_frame hn ho hi2 (v := v) (h.viewU hv)
  rw [h5]
  simp only [Outcome.ok_bind]
  obtain ⟨s4, h7, h8, h9, h10⟩ := cleanup_ok hn h6
  rw [h7]
  have hu : s3.unlocalized = s.unlocalized.filter fun w => decide (w ≠ v) := by
    rw [h5'.unlocalized, h3.unlocalized, ← hs1]
  refine ⟨b, s4, rfl, h8, h10 ((he1.frame h3).frame h5'), ?_, ?_⟩
  · intro w hw hne
    refine h9 w ?_
    rw [hu]
    exact List.mem_filter.2 ⟨hw, by simpa using hne⟩
  by_cases hl : ∃ w ∈ s3.reconstructed, w ∈ s4.unlocalized
  · obtain ⟨w, hw, hw'⟩ := hl
    exact Or.inr ⟨s3, s4, w, h7, hw, hw'⟩
  · left
    have hsub : ∀ w ∈ s4.unlocalized, w ∈ s3.unlocalized := by
      intro w hw
      have : w ∈ s3.unlocalized ++ s3.reconstructed := h6.perm.mem_iff.2 (h8.memU hw)
      rcases List.mem_append.1 this with h | h
      · exact h
      · exact absurd ⟨w, h, hw⟩ hl
    have hle : s4.unlocalized.length ≤ s3.unlocalized.length :=
      (List.nodup_append.1 h8.nodup).1.length_le_of_subset hsub
    have hlt : (s.unlocalized.filter fun w => decide (w ≠ v)).length < s.unlocalized.length :=
      List.length_filter_lt_length_iff_exists.2 ⟨v, hv, by simp⟩
    rw [hu] at hle
    omega

theorem addView_false {v : ViewId} {s s' : State F P M O X} (h : addView num o v s = .ok (false, s')) : AdjustFails num := by
  unfold addView at h
  simp only at h
  split at h
  · cases h
  · obtain ⟨s1, _, h⟩ := Outcome.bind_eq_ok.1 h
    obtain ⟨⟨b, s2⟩, h2, h⟩ := Outcome.bind_eq_ok.1 h
    simp only at h
    obtain ⟨s3, _, h⟩ := Outcome.bind_eq_ok.1 h
    have hb : b = false := congrArg Prod.fst (Outcome.ok.inj h)
    subst hb
    unfold Incremental.extend at h2
    split at h2
    · obtain ⟨s4, _, h2⟩ := Outcome.bind_eq_ok.1 h2
      exact Incremental.partialBundle_false h2
    · obtain ⟨s4, _, h2⟩ := Outcome.bind_eq_ok.1 h2
      exact Incremental.fullBundle_false h2

/-! ### Localisation -/

/-- What an attempt to localise a view changes. -/
structure Attempted (s s' : State F P M O X) (v : ViewId) (b : Bool) : Prop where
  unlocalized : s'.unlocalized = s.unlocalized
  reconstructed : s'.reconstructed = s.reconstructed
  same : SameStructure s.scene.recon s'.scene.recon
  tracks : ∀ t, s.scene.recon.track t = s'.scene.recon.track t
  failed : b = false → s'.scene.recon = s.scene.recon
  est : ∀ w W, s'.scene.recon.view w = some W → W.estimated = true →
    (∃ W', s.scene.recon.view w = some W' ∧ W'.estimated = true) ∨ w = v

omit [DecidableEq C] in
/-- Without bundle adjustment a failed localisation leaves the reconstruction as it is. -/
theorem localize_failed {order : List Nat → List Nat} {n : Localize.Numerics F P M O X L N W} {known : Bool} {mi : Int}
    {v : ViewId} {s s' : Localize.Scene F P M O X} {inl : List Nat}
    (h : Localize.localize order n ⟨known, false, mi⟩ v s [] = .ok (false, s', inl)) : s'.recon = s.recon := by
  unfold Localize.localize at h
  split at h
  · cases h
  · obtain ⟨k, _, h⟩ := Outcome.bind_eq_ok.1 h
    obtain ⟨⟨b2, sc2, inl2⟩, h2, h⟩ := Outcome.bind_eq_ok.1 h
    simp only at h
    split at h
    · cases h; exact Incremental.estimatePose_recon h2
    · unfold Localize.finish at h
      obtain ⟨r, _, h⟩ := Outcome.bind_eq_ok.1 h
      simp only [Bool.false_eq_true, if_false] at h
      cases h

omit [DecidableEq C] in
theorem localizeOnce_ok (hn : WellBehaved num) {s : State F P M O X} (h : HInv L r0 s) {v : ViewId}
    (hv : ∃ V, r0.view v = some V) (known : Bool) :
    ∃ b s', localizeOnce num o known v s = .ok (b, s') ∧ HInv L r0 s' ∧ Attempted s s' v b ∧
      (b = false → ∃ scene' inl, Localize.localize (num.order s.clock) (num.localization s.clock)
        ⟨known, false, o.common.minInliers⟩ v s.scene [] = .ok (false, scene', inl)) := by
  obtain ⟨V, hV⟩ := h.good.view_of hv
  obtain ⟨b, scene, inl, h1⟩ := Incremental.localize_total (hn.order s.clock) (num.localization s.clock) (hn.focal s.clock)
    ⟨known, false, o.common.minInliers⟩ h.good.reach hV []
  unfold localizeOnce
  rw [h1]
  simp only [Outcome.ok_bind]
  have hrec := Incremental.localize_recon h1
  refine ⟨b, _, rfl, HInv.of ?_ h.all h.opt, ⟨rfl, rfl, ?_, ?_, ?_, ?_⟩, fun hb => by subst hb; exact ⟨scene, inl, rfl⟩⟩
  · rcases hrec with ⟨e, _⟩ | e
    · simp only; rw [e]; exact h.good
    · exact h.good.raise e
  · rcases hrec with ⟨e, _⟩ | e
    · simp only; rw [e]; exact .refl _
    · exact EstimatorUtils.same_setView e
  · intro t
    rcases hrec with ⟨e, _⟩ | e
    · simp only; rw [e]
    · rw [EstimatorUtils.setViewEstimated_eq hV] at e
      simp only
      rw [← Outcome.ok.inj e]
      rfl
  · intro hb
    subst hb
    exact localize_failed h1
  · intro w W hW he
    rcases hrec with ⟨e, _⟩ | e
    · simp only [e] at hW
      exact Or.inl ⟨W, hW, he⟩
    · rw [EstimatorUtils.setViewEstimated_eq hV] at e
      by_cases hw : w = v
      · exact Or.inr hw
      · refine Or.inl ⟨W, ?_, he⟩
        simp only [← Outcome.ok.inj e, Reconstruction.view, AMap.get_insert] at hW
        rw [if_neg hw] at hW
        exact hW

omit [DecidableEq C] in
theorem localizeView_ok (hn : WellBehaved num) (qs : AMap ViewId O) {s : State F P M O X} (h : HInv L r0 s) {v : ViewId}
    (hv : ∃ V, r0.view v = some V) :
    ∃ b s', localizeView num o qs v s = .ok (b, s') ∧ HInv L r0 s' ∧ Attempted s s' v b ∧
      (b = false → HybridLocalizationFails num o.common.minInliers (qs.contains v) s'.scene.recon v) := by
  unfold localizeView
  split
  · next hq =>
    obtain ⟨b1, s1, h1, h2, h3, h4⟩ := localizeOnce_ok (o := o) hn h hv true
    rw [h1]
    simp only [Outcome.ok_bind]
    cases b1 with
    | true => exact ⟨true, s1, rfl, h2, h3, fun h => by cases h⟩
    | false =>
      obtain ⟨b2, s2, g1, g2, g3, g4⟩ := localizeOnce_ok (o := o) hn h2 hv false
      simp only [Bool.false_eq_true, if_false]
      refine ⟨b2, s2, g1, g2, ⟨g3.unlocalized.trans h3.unlocalized, g3.reconstructed.trans h3.reconstructed,
        h3.same.trans g3.same, fun t => (h3.tracks t).trans (g3.tracks t), fun hb => (g3.failed hb).trans (h3.failed rfl),
        ?_⟩, ?_⟩
      · intro w W hW he
        rcases g3.est w W hW he with ⟨W', hW', he'⟩ | h
        · exact h3.est w W' hW' he'
        · exact Or.inr h
      · intro hb c _
        cases c with
        | true =>
          obtain ⟨sc, inl, e⟩ := h4 rfl
          refine ⟨s.clock, s.scene, sc, inl, h3.same.trans g3.same, fun t => (h3.tracks t).trans (g3.tracks t), e⟩
        | false =>
          obtain ⟨sc, inl, e⟩ := g4 hb
          exact ⟨s1.clock, s1.scene, sc, inl, g3.same, fun t => g3.tracks t, e⟩
  · next hq =>
    obtain ⟨b2, s2, g1, g2, g3, g4⟩ := localizeOnce_ok (o := o) hn h hv false
    refine ⟨b2, s2, g1, g2, g3, fun hb c hc => ?_⟩
    cases c with
    | true => exact absurd (hc rfl) hq
    | false =>
      obtain ⟨sc, inl, e⟩ := g4 hb
      exact ⟨s.clock, s.scene, sc, inl, g3.same, fun t => g3.tracks t, e⟩

theorem HybridLocalizationFails.transport {mi : Int} {known : Bool} {r r' : Reconstruction F P} {v : ViewId}
    (h : HybridLocalizationFails num mi known r v) (hs : SameStructure r r') (ht : ∀ t, r.track t = r'.track t) :
    HybridLocalizationFails num mi known r' v := by
  intro b hb
  obtain ⟨k, sc, sc', inl, h1, h2, h3⟩ := h b hb
  exact ⟨k, sc, sc', inl, h1.trans hs, fun t => (h2 t).trans (ht t), h3⟩

/-! ### The loop -/

theorem attempt_ok (hn : WellBehaved num) (ho : ValidOptions o.common) (qs : AMap ViewId O) (vs : List ViewId) :
    ∀ {s : State F P M O X} (n : Nat), HInv L r0 s → EstIn s → vs.Nodup → (∀ v ∈ vs, v ∈ s.unlocalized) →
    ∃ n' b s', attempt num o qs vs s n = .ok (n', b, s') ∧ HInv L r0 s' ∧ EstIn s' ∧ n' ≤ n + vs.length ∧
      (b = false → AdjustFails num ∧ n' < n + vs.length) ∧
      (n' = n + vs.length → s'.unlocalized = s.unlocalized ∧ s'.reconstructed = s.reconstructed ∧
        SameStructure s.scene.recon s'.scene.recon ∧ (∀ t, s.scene.recon.track t = s'.scene.recon.track t) ∧
        ∀ v ∈ vs, HybridLocalizationFails num o.common.minInliers (qs.contains v) s'.scene.recon v) ∧
      (s'.unlocalized.length ≤ s.unlocalized.length ∨ Loses num) ∧
      (n' < n + vs.length → s'.unlocalized.length < s.unlocalized.length ∨ Loses num) := by
  induction vs with
  | nil =>
    intro s n h he _ _
    exact ⟨n, true, s, rfl, h, he, by simp, fun h => (by cases h), fun _ => ⟨rfl, rfl, .refl _, fun _ => rfl, by simp⟩,
      Or.inl le_rfl, fun h => by simp at h⟩
  | cons v vs ih =>
    intro s n h he hnd hv
    have hvU := hv v List.mem_cons_self
    obtain ⟨hvn, hnd'⟩ := List.nodup_cons.1 hnd
    obtain ⟨b, s1, h1, h2, h3, h4⟩ := localizeView_ok (o := o) hn qs h (h.viewU hvU)
    rw [attempt, h1]
    simp only [Outcome.ok_bind]
    cases b with
    | true =>
      simp only [if_true]
      obtain ⟨b2, s2, g1, g2, g3, g4, g5⟩ := addView_ok (o := o) hn ho h2 (v := v) (by rw [h3.unlocalized]; exact hvU) (by
        intro w W hW hest
        rcases h3.est w W hW hest with ⟨W', hW', he'⟩ | h
        · left; rw [h3.reconstructed]; exact he w W' hW' he'
        · exact Or.inr h)
      rw [h3.unlocalized] at g4 g5
      rw [g1]
      simp only [Outcome.ok_bind]
      cases b2 with
      | false =>
        simp only [Bool.false_eq_true, if_false]
        refine ⟨n, false, s2, rfl, g2, g3, by simp, fun _ => ⟨addView_false g1, by simp⟩, fun h => (by simp at h), ?_,
          fun _ => g5⟩
        rcases g5 with h | h
        · exact Or.inl h.le
        · exact Or.inr h
      | true =>
        simp only [if_true]
        obtain ⟨n', b', s', k1, k2, k3, k4, k5, _, k7, _⟩ := ih n g2 g3 hnd' (fun w hw =>
          g4 w (hv w (List.mem_cons_of_mem _ hw)) (fun e => hvn (e ▸ hw)))
        refine ⟨n', b', s', k1, k2, k3, by simp; omega, fun hb => ⟨(k5 hb).1, by simp; omega⟩,
          fun h => absurd h (by simp; omega), ?_, fun _ => ?_⟩
        · rcases k7 with k | k
          · rcases g5 with g | g
            · left; omega
            · exact Or.inr g
          · exact Or.inr k
        · rcases k7 with k | k
          · rcases g5 with g | g
            · left; omega
            · exact Or.inr g
          · exact Or.inr k
    | false =>
      simp only [Bool.false_eq_true, if_false]
      have he1 : EstIn s1 := he.congr (by rw [h3.failed rfl]) h3.reconstructed
      obtain ⟨n', b', s', k1, k2, k3, k4, k5, k6, k7, k8⟩ := ih (n + 1) h2 he1 hnd' (fun w hw => by
        rw [h3.unlocalized]; exact hv w (List.mem_cons_of_mem _ hw))
      rw [h3.unlocalized] at k6 k7 k8
      refine ⟨n', b', s', k1, k2, k3, by simp; omega, fun hb => ⟨(k5 hb).1, by have := (k5 hb).2; simp; omega⟩,
        fun hn' => ?_, k7, fun hn' => k8 (by simp at hn'; omega)⟩
      obtain ⟨e1, e2, e3, e4, e5⟩ := k6 (by simp at hn'; omega)
      refine ⟨e1, e2.trans h3.reconstructed, h3.same.trans e3, fun t => (h3.tracks t).trans (e4 t), ?_⟩
      intro w hw
      rcases List.mem_cons.1 hw with rfl | hw
      · exact HybridLocalizationFails.transport (h4 rfl) e3 e4
      · exact e5 w hw

/-- Every queued view that sees enough estimated tracks has failed. -/
def Finished (num : Incremental.Numerics F P M O X L N W D C) (o : Options) (qs : AMap ViewId O) (s : State F P M O X) : Prop :=
  ∀ v ∈ s.unlocalized, Incremental.seesEnough s.scene.recon v = true →
    HybridLocalizationFails num o.common.minInliers (qs.contains v) s.scene.recon v

theorem mainLoop_ok (hn : WellBehaved num) (ho : ValidOptions o.common) (qs : AMap ViewId O) (k : Nat) :
    ∀ {s : State F P M O X}, HInv L r0 s → EstIn s →
    ∃ x, mainLoop num o qs k s = .ok x ∧ (∀ b s', x = some (b, s') → HInv L r0 s' ∧ EstIn s' ∧ (b = false → AdjustFails num) ∧
        (b = true → Finished num o qs s')) ∧
      (x = none → s.unlocalized.length < k → Loses num) := by
  induction k with
  | zero => intro s h _; exact ⟨none, rfl, fun _ _ h => (by cases h), fun _ h => (by omega)⟩
  | succ k ih =>
    intro s h he
    rw [mainLoop]
    split
    · next hu =>
      refine ⟨_, rfl, ?_, fun h => by cases h⟩
      intro b s' e
      cases e
      refine ⟨h, he, fun h => (by cases h), fun _ v hv => ?_⟩
      rw [hu] at hv
      cases hv
    · obtain ⟨vs, h1, h2, _⟩ := Incremental.findViews_ok hn.order h.good.reach (fun v hv => h.good.view_of (h.viewU hv))
      rw [h1]
      simp only [Outcome.ok_bind]
      obtain ⟨n', b, s1, k1, k2, k3, k4, k5, k6, k7, k8⟩ := attempt_ok (o := o) hn ho qs vs 0 h he
        (h2.nodup_iff.2 ((List.nodup_append.1 h.nodup).1.filter _)) (fun v hv => (List.mem_filter.1 (h2.mem_iff.1 hv)).1)
      rw [k1]
      simp only [Outcome.ok_bind]
      cases b with
      | false =>
        refine ⟨_, rfl, ?_, fun h => by cases h⟩
        intro b s' e
        cases e
        exact ⟨k2, k3, fun _ => (k5 rfl).1, fun h => by cases h⟩
      | true =>
        simp only [if_true]
        split
        · next hf =>
          obtain ⟨e1, e2, e3, e4, e5⟩ := k6 (by omega)
          refine ⟨_, rfl, ?_, fun h => by cases h⟩
          intro b s' e
          cases e
          refine ⟨k2, k3, fun h => (by cases h), fun _ v hv hs => e5 v (h2.mem_iff.2 (List.mem_filter.2 ⟨e1 ▸ hv, ?_⟩))⟩
          exact Incremental.seesEnough_same e3 e4 v hs (h.good.view_of (h.viewU (e1 ▸ hv)))
        · next hf =>
          obtain ⟨x, l1, l2, l3⟩ := ih k2 k3
          refine ⟨x, l1, l2, fun hx hk => ?_⟩
          rcases k8 (by omega) with e | e
          · exact l3 hx (by omega)
          · exact e

theorem mainLoop_mono {qs : AMap ViewId O} (k : Nat) : ∀ {s : State F P M O X} {x : Bool × State F P M O X},
    mainLoop num o qs k s = .ok (some x) → ∀ j, mainLoop num o qs (k + j) s = .ok (some x) := by
  induction k with
  | zero => intro s x h; cases h
  | succ k ih =>
    intro s x h j
    rw [Nat.succ_add]
    rw [mainLoop] at h ⊢
    split
    · next hu => rw [if_pos hu] at h; exact h
    · next hu =>
      rw [if_neg hu] at h
      obtain ⟨vs, h1, h⟩ := Outcome.bind_eq_ok.1 h
      obtain ⟨⟨n, b, s1⟩, h2, h⟩ := Outcome.bind_eq_ok.1 h
      rw [h1]
      simp only [Outcome.ok_bind]
      rw [h2]
      simp only [Outcome.ok_bind] at h ⊢
      split at h
      · next hb =>
        rw [if_pos hb]
        split at h
        · next hf => rw [if_pos hf]; exact h
        · next hf => rw [if_neg hf]; exact ih h j
      · next hb => rw [if_neg hb]; exact h

end

end Hybrid
end Theia
