import Verif.Proof.ReconstructionSub
import Verif.Spec.Reconstruction

/-! # Facts about whole histories of reconstruction calls -/

namespace Theia
open Reconstruction Spec

variable {F P : Type}

theorem step_counters {r r' : Reconstruction F P} (hi : r.Inv) {op : Op F P} {a : Ret}
    (h : r.step op = .ok (a, r')) :
    (∀ v, a = .viewId (some v) → v = r.nextViewId ∧ r'.nextViewId = r.nextViewId + 1) ∧
    ((∀ v, a ≠ .viewId (some v)) → r'.nextViewId = r.nextViewId) ∧
    (∀ t, a = .trackId (some t) → t = r.nextTrackId ∧ r'.nextTrackId = r.nextTrackId + 1) ∧
    ((∀ t, a ≠ .trackId (some t)) → r'.nextTrackId = r.nextTrackId) := by
  have key : ∀ n g o r', r.addViewToGroup n g = .ok (o, r') →
      (∀ v, o = some v → v = r.nextViewId ∧ r'.nextViewId = r.nextViewId + 1) ∧
      (o = none → r'.nextViewId = r.nextViewId) ∧ r'.nextTrackId = r.nextTrackId := by
    intro n g o r' h
    by_cases hn : n ∈ r.names.keys ∨ n = ""
    · rw [addViewToGroup_fail hn] at h; cases h; simp
    · simp only [not_or] at hn
      obtain ⟨intr, _, _, heq⟩ := addViewToGroup_spec hi (g := g) hn.1 hn.2
      rw [heq] at h; cases h
      simp
  cases op with
  | addView n =>
    simp only [step] at h
    cases hx : r.addView n with
    | ok x =>
      rw [hx] at h; cases h
      obtain ⟨r1, h1, h2⟩ := addView_eq (o := x.1) (r' := x.2) hx
      obtain ⟨k1, k2, k3⟩ := key _ _ _ _ h1
      rw [h2]
      cases hxo : x.1 with
      | none =>
        refine ⟨by simp, fun _ => k2 hxo, by simp, fun _ => k3⟩
      | some v =>
        refine ⟨?_, ?_, by simp, fun _ => k3⟩
        · intro w hw; cases hw; exact k1 v hxo
        · intro hc; exact absurd rfl (hc v)
    | abort => rw [hx] at h; cases h
    | ub => rw [hx] at h; cases h
  | addViewToGroup n g =>
    simp only [step] at h
    cases hx : r.addViewToGroup n g with
    | ok x =>
      rw [hx] at h; cases h
      obtain ⟨k1, k2, k3⟩ := key n g x.1 x.2 hx
      cases hxo : x.1 with
      | none =>
        refine ⟨by simp, fun _ => k2 hxo, by simp, fun _ => k3⟩
      | some v =>
        refine ⟨?_, ?_, by simp, fun _ => k3⟩
        · intro w hw; cases hw; exact k1 v hxo
        · intro hc; exact absurd rfl (hc v)
    | abort => rw [hx] at h; cases h
    | ub => rw [hx] at h; cases h
  | removeView v =>
    simp only [step] at h
    cases hx : r.removeView v with
    | ok x =>
      rw [hx] at h; cases h
      have : x.2.nextViewId = r.nextViewId ∧ x.2.nextTrackId = r.nextTrackId := by
        cases hV : r.views.get v with
        | none => rw [removeView_none hV] at hx; cases hx; simp
        | some V =>
          obtain ⟨X, g, s, _, _, _, heq, _⟩ := removeView_spec hi hV
          rw [heq] at hx; cases hx; simp
      simp [this.1, this.2]
    | abort => rw [hx] at h; cases h
    | ub => rw [hx] at h; cases h
  | addEmptyTrack p =>
    simp only [step, addEmptyTrack] at h
    split at h
    · cases h
    · cases h; simp
  | addTrack p o =>
    simp only [step] at h
    cases hx : r.addTrack p o with
    | ok x =>
      rw [hx] at h; cases h
      rcases addTrack_cases (o := x.1) (r' := x.2) hx with ⟨h1, h2⟩ | ⟨h2, hnd, hk⟩
      · simp [h1, h2]
      · obtain ⟨X, heq, _⟩ := addTrack_spec hi p o h2 hnd hk
        rw [heq] at hx; cases hx; simp
    | abort => rw [hx] at h; cases h
    | ub => rw [hx] at h; cases h
  | addObservation v t f =>
    simp only [step] at h
    cases hx : r.addObservation v t f with
    | ok x =>
      rw [hx] at h; cases h
      have : x.2.nextViewId = r.nextViewId ∧ x.2.nextTrackId = r.nextTrackId := by
        unfold addObservation at hx
        split at hx
        · cases hx
        · split at hx
          · cases hx
          · split at hx
            · cases hx; simp
            · split at hx
              · cases hx; simp
              · cases hx; simp
      simp [this.1, this.2]
    | abort => rw [hx] at h; cases h
    | ub => rw [hx] at h; cases h
  | removeTrack t =>
    simp only [step] at h
    cases h
    have : (removeTrack r t).2.nextViewId = r.nextViewId ∧
        (removeTrack r t).2.nextTrackId = r.nextTrackId := by
      cases hT : r.tracks.get t with
      | none => rw [removeTrack_none hT]; simp
      | some T =>
        obtain ⟨X, heq, _⟩ := removeTrack_spec hi hT
        rw [heq]; simp
    simp [this.1, this.2]
  | setViewEstimated v b =>
    simp only [step, setViewEstimated] at h
    split at h
    · cases h
    · cases h; simp
  | setTrackEstimated t b p =>
    simp only [step, setTrackEstimated] at h
    split at h
    · cases h
    · cases h; simp

theorem run_issued {r : Reconstruction F P} (hi : r.Inv) (ops : List (Op F P)) {as : List Ret}
    {r' : Reconstruction F P} (h : run r ops = .ok (as, r')) :
    (issuedViewIds as).Pairwise (· < ·) ∧ (∀ v ∈ issuedViewIds as, r.nextViewId ≤ v ∧ v < r'.nextViewId) ∧
    r.nextViewId ≤ r'.nextViewId ∧
    (issuedTrackIds as).Pairwise (· < ·) ∧ (∀ t ∈ issuedTrackIds as, r.nextTrackId ≤ t ∧ t < r'.nextTrackId) ∧
    r.nextTrackId ≤ r'.nextTrackId := by
  induction ops generalizing r as with
  | nil => simp only [run] at h; cases h; simp [issuedViewIds, issuedTrackIds]
  | cons op ops ih =>
    obtain ⟨a, r1, as', hs, hr, rfl⟩ := run_cons_ok h
    obtain ⟨i1, i2, i3, i4, i5, i6⟩ := ih (inv_step hi hs) hr
    obtain ⟨c1, c2, c3, c4⟩ := step_counters hi hs
    have hv : ∀ as', issuedViewIds (a :: as') =
        (match a with | .viewId (some v) => [v] | _ => []) ++ issuedViewIds as' := by
      intro as'
      cases a with
      | viewId o => cases o <;> rfl
      | _ => rfl
    have ht : ∀ as', issuedTrackIds (a :: as') =
        (match a with | .trackId (some v) => [v] | _ => []) ++ issuedTrackIds as' := by
      intro as'
      cases a with
      | trackId o => cases o <;> rfl
      | _ => rfl
    rw [hv, ht]
    cases a with
    | viewId o =>
      have hnt := c4 (by simp)
      rw [hnt] at i5 i6
      cases o with
      | none =>
        have hnv := c2 (by simp)
        rw [hnv] at i2 i3
        exact ⟨i1, i2, i3, i4, i5, i6⟩
      | some v =>
        obtain ⟨rfl, hnv⟩ := c1 v rfl
        rw [hnv] at i2 i3
        refine ⟨?_, ?_, by omega, i4, i5, i6⟩
        · simp only [List.singleton_append, List.pairwise_cons]
          exact ⟨fun w hw => by have := i2 w hw; omega, i1⟩
        · intro w hw
          simp only [List.singleton_append, List.mem_cons] at hw
          rcases hw with rfl | hw
          · omega
          · have := i2 w hw; omega
    | trackId o =>
      have hnv := c2 (by simp)
      rw [hnv] at i2 i3
      cases o with
      | none =>
        have hnt := c4 (by simp)
        rw [hnt] at i5 i6
        exact ⟨i1, i2, i3, i4, i5, i6⟩
      | some t =>
        obtain ⟨rfl, hnt⟩ := c3 t rfl
        rw [hnt] at i5 i6
        refine ⟨i1, i2, i3, ?_, ?_, by omega⟩
        · simp only [List.singleton_append, List.pairwise_cons]
          exact ⟨fun w hw => by have := i5 w hw; omega, i4⟩
        · intro w hw
          simp only [List.singleton_append, List.mem_cons] at hw
          rcases hw with rfl | hw
          · omega
          · have := i5 w hw; omega
    | bool b =>
      have hnt := c4 (by simp)
      have hnv := c2 (by simp)
      rw [hnv] at i2 i3
      rw [hnt] at i5 i6
      exact ⟨i1, i2, i3, i4, i5, i6⟩
    | unit =>
      have hnt := c4 (by simp)
      have hnv := c2 (by simp)
      rw [hnv] at i2 i3
      rw [hnt] at i5 i6
      exact ⟨i1, i2, i3, i4, i5, i6⟩

theorem addViewToGroup_group (r : Reconstruction F P) (k : Nat) (n : String) (g : GroupId) :
    addViewToGroup { r with nextGroupId := k } n g =
      (addViewToGroup r n g).bind fun x => .ok (x.1, { x.2 with nextGroupId := k }) := by
  unfold addViewToGroup
  simp only
  split
  · rfl
  · split
    · rfl
    · split
      · rfl
      · split <;> rfl

theorem removeTrackLoop_group (k : Nat) (t : TrackId) (vs : List ViewId) (r : Reconstruction F P) :
    removeTrackLoop t vs { r with nextGroupId := k } =
      ((removeTrackLoop t vs r).1, { (removeTrackLoop t vs r).2 with nextGroupId := k }) := by
  induction vs generalizing r with
  | nil => rfl
  | cons v vs ih =>
    simp only [removeTrackLoop]
    split
    · rfl
    · rename_i V hV
      split
      · exact ih { r with views := r.views.insert v (V.removeFeature t).2 }
      · rfl

theorem removeTrack_group (r : Reconstruction F P) (k : Nat) (t : TrackId) :
    removeTrack { r with nextGroupId := k } t =
      ((removeTrack r t).1, { (removeTrack r t).2 with nextGroupId := k }) := by
  unfold removeTrack
  simp only
  split
  · rfl
  · simp only [removeTrackLoop_group]
    split <;> rfl

theorem removeViewLoop_group (k : Nat) (v : ViewId) (ts : List TrackId) (r : Reconstruction F P) :
    removeViewLoop v ts { r with nextGroupId := k } =
      ((removeViewLoop v ts r).1, { (removeViewLoop v ts r).2 with nextGroupId := k }) := by
  induction ts generalizing r with
  | nil => rfl
  | cons t ts ih =>
    simp only [removeViewLoop]
    split
    · rfl
    · rename_i T hT
      split
      · split
        · rw [removeTrack_group { r with tracks := r.tracks.insert t (T.removeView v).2 } k t]
          exact ih _
        · exact ih { r with tracks := r.tracks.insert t (T.removeView v).2 }
      · rfl

theorem removeView_group (r : Reconstruction F P) (k : Nat) (v : ViewId) :
    removeView { r with nextGroupId := k } v =
      (removeView r v).bind fun x => .ok (x.1, { x.2 with nextGroupId := k }) := by
  unfold removeView
  simp only
  split
  · rfl
  · simp only [removeViewLoop_group]
    split
    · split
      · rfl
      · split <;> rfl
    · rfl

theorem addTrackLoop_group (k : Nat) (t : TrackId) (obs : List (ViewId × F)) (T : Track P)
    (r : Reconstruction F P) :
    addTrackLoop t obs T { r with nextGroupId := k } =
      (addTrackLoop t obs T r).bind fun x => .ok (x.1, { x.2 with nextGroupId := k }) := by
  induction obs generalizing r T with
  | nil => rfl
  | cons o obs ih =>
    obtain ⟨v, f⟩ := o
    simp only [addTrackLoop]
    split
    · rfl
    · rename_i V hV
      exact ih (T.addView v) { r with views := r.views.insert v (V.addFeature t f) }

theorem step_group (r : Reconstruction F P) (k : Nat) (op : Op F P) (h : usesAutoGroup op = false) :
    step { r with nextGroupId := k } op =
      (step r op).bind fun x => .ok (x.1, { x.2 with nextGroupId := k }) := by
  cases op with
  | addView n => simp [usesAutoGroup] at h
  | addViewToGroup n g =>
    simp only [step, addViewToGroup_group]
    cases addViewToGroup r n g <;> rfl
  | removeView v =>
    simp only [step, removeView_group]
    cases removeView r v <;> rfl
  | addEmptyTrack p =>
    simp only [step, addEmptyTrack]
    split <;> rfl
  | addTrack p o =>
    simp only [step, addTrack]
    split
    · rfl
    · split
      · rfl
      · split
        · rfl
        · simp only [addTrackLoop_group]
          cases addTrackLoop r.nextTrackId o (⟨false, p, []⟩ : Track P) r <;> rfl
  | addObservation v t f =>
    simp only [step, addObservation]
    split
    · rfl
    · split
      · rfl
      · split
        · rfl
        · split <;> rfl
  | removeTrack t =>
    simp only [step, removeTrack_group]
    rfl
  | setViewEstimated v b =>
    simp only [step, setViewEstimated]
    split <;> rfl
  | setTrackEstimated t b p =>
    simp only [step, setTrackEstimated]
    split <;> rfl

theorem groups_lt_addViewToGroup {r : Reconstruction F P} (hi : r.Inv)
    (hg : ∀ v g, r.viewGroup.get v = some g → g < r.nextGroupId) {n : String} {o : Option ViewId}
    {r' : Reconstruction F P} (h : r.addView n = .ok (o, r')) :
    ∀ v g, r'.viewGroup.get v = some g → g < r'.nextGroupId := by
  obtain ⟨r1, h1, rfl⟩ := addView_eq h
  by_cases hn : n ∈ r.names.keys ∨ n = ""
  · rw [addViewToGroup_fail hn] at h1; cases h1
    intro v g hvg; exact Nat.lt_succ_of_lt (hg v g hvg)
  · simp only [not_or] at hn
    obtain ⟨intr, _, _, heq⟩ := addViewToGroup_spec hi (g := r.nextGroupId) hn.1 hn.2
    rw [heq] at h1; cases h1
    intro v g hvg
    simp only [AMap.get_insert] at hvg
    split at hvg
    · cases hvg; exact Nat.lt_succ_self _
    · exact Nat.lt_succ_of_lt (hg v g hvg)

theorem groups_lt_step {r : Reconstruction F P} (hi : r.Inv)
    (hg : ∀ v g, r.viewGroup.get v = some g → g < r.nextGroupId) {op : Op F P} {a : Ret}
    (hop : usesExplicitGroup op = false)
    {r' : Reconstruction F P} (h : r.step op = .ok (a, r')) :
    ∀ v g, r'.viewGroup.get v = some g → g < r'.nextGroupId := by
  cases op with
  | addView n =>
    simp only [step] at h
    cases hx : r.addView n with
    | ok x => rw [hx] at h; cases h; exact groups_lt_addViewToGroup hi hg (o := x.1) (r' := x.2) hx
    | abort => rw [hx] at h; cases h
    | ub => rw [hx] at h; cases h
  | addViewToGroup n g => simp [usesExplicitGroup] at hop
  | removeView v =>
    simp only [step] at h
    cases hx : r.removeView v with
    | ok x =>
      rw [hx] at h; cases h
      cases hV : r.views.get v with
      | none => rw [removeView_none hV] at hx; cases hx; exact hg
      | some V =>
        obtain ⟨X, g, s, _, _, _, heq, _⟩ := removeView_spec hi hV
        rw [heq] at hx; cases hx
        intro w g' hw
        simp only [AMap.get_erase] at hw
        split at hw
        · cases hw
        · exact hg w g' hw
    | abort => rw [hx] at h; cases h
    | ub => rw [hx] at h; cases h
  | addEmptyTrack p =>
    simp only [step, addEmptyTrack] at h
    split at h
    · cases h
    · cases h; exact hg
  | addTrack p o =>
    simp only [step] at h
    cases hx : r.addTrack p o with
    | ok x =>
      rw [hx] at h; cases h
      rcases addTrack_cases (o := x.1) (r' := x.2) hx with ⟨h1, h2⟩ | ⟨h2, hnd, hk⟩
      · rw [h2]; exact hg
      · obtain ⟨X, heq, _⟩ := addTrack_spec hi p o h2 hnd hk
        rw [heq] at hx; cases hx; exact hg
    | abort => rw [hx] at h; cases h
    | ub => rw [hx] at h; cases h
  | addObservation v t f =>
    simp only [step] at h
    cases hx : r.addObservation v t f with
    | ok x =>
      rw [hx] at h; cases h
      unfold addObservation at hx
      split at hx
      · cases hx
      · split at hx
        · cases hx
        · split at hx
          · cases hx; exact hg
          · split at hx
            · cases hx; exact hg
            · cases hx; exact hg
    | abort => rw [hx] at h; cases h
    | ub => rw [hx] at h; cases h
  | removeTrack t =>
    simp only [step] at h
    cases h
    cases hT : r.tracks.get t with
    | none => rw [removeTrack_none hT]; exact hg
    | some T =>
      obtain ⟨X, heq, _⟩ := removeTrack_spec hi hT
      rw [heq]; exact hg
  | setViewEstimated v b =>
    simp only [step, setViewEstimated] at h
    split at h
    · cases h
    · cases h; exact hg
  | setTrackEstimated t b p =>
    simp only [step, setTrackEstimated] at h
    split at h
    · cases h
    · cases h; exact hg

end Theia
