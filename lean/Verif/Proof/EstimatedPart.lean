import Verif.Model.EstimatedPart
import Verif.Spec.EstimatedPart
import Verif.Proof.Cleanup
import Verif.Props.Reconstruction

/-!
# Lemmas on the estimated part of a reconstruction
-/

namespace Theia
namespace EstimatedPart

open Spec Reconstruction

variable {F P : Type}

theorem reachable_removeView {r r' : Reconstruction F P} (h : r.Reachable) {v : ViewId} {b : Bool}
    (he : r.removeView v = .ok (b, r')) : r'.Reachable :=
  reachable_step h (op := .removeView v) (a := .bool b) (by simp [step, he, Outcome.bind])

theorem reachable_removeTrack {r r' : Reconstruction F P} (h : r.Reachable) {t : TrackId} {b : Bool}
    (he : r.removeTrack t = (b, r')) : r'.Reachable :=
  reachable_step h (op := .removeTrack t) (a := .bool b) (by simp [step, he])

/-- The views are restricted to those that satisfy `keep`. -/
structure Restricts (r r' : Reconstruction F P) (keep : ViewId → Bool) : Prop where
  reach : r'.Reachable
  view : ∀ w, r'.view w = if keep w then r.view w else none
  trackSome : ∀ t T', r'.track t = some T' → ∃ T, r.track t = some T ∧ T' = { T with views := T.views.filter keep }
  trackNone : ∀ t T, r.track t = some T → r'.track t = none → T.views.filter keep = []
  names : ∀ n v, r'.viewIdFromName n = some v ↔ r.viewIdFromName n = some v ∧ keep v = true
  groups : ∀ v, r'.groupOf v = if keep v then r.groupOf v else none

theorem Restricts.refl {r : Reconstruction F P} (h : r.Reachable) : Restricts r r fun _ => true where
  reach := h
  view := fun w => by simp
  trackSome := fun t T' hT => ⟨T', hT, by simp⟩
  trackNone := fun t T h1 h2 => by rw [h1] at h2; cases h2
  names := fun n v => by simp
  groups := fun v => by simp

theorem Restricts.trans {r r1 r2 : Reconstruction F P} {k1 k2 : ViewId → Bool} (h1 : Restricts r r1 k1)
    (h2 : Restricts r1 r2 k2) : Restricts r r2 fun w => k1 w && k2 w where
  reach := h2.reach
  view := fun w => by
    rw [h2.view, h1.view]
    cases k1 w <;> cases k2 w <;> simp
  trackSome := fun t T' hT => by
    obtain ⟨T1, hT1, rfl⟩ := h2.trackSome t T' hT
    obtain ⟨T, hT0, rfl⟩ := h1.trackSome t T1 hT1
    refine ⟨T, hT0, ?_⟩
    simp only [List.filter_filter]
    congr 1
    exact List.filter_congr fun w _ => Bool.and_comm _ _
  trackNone := fun t T hT hn => by
    cases h : r1.track t with
    | none =>
      have := h1.trackNone t T hT h
      rw [List.filter_eq_nil_iff] at this ⊢
      intro w hw
      have := this w hw
      simp_all
    | some T1 =>
      obtain ⟨T0, hT0, rfl⟩ := h1.trackSome t T1 h
      rw [hT] at hT0
      cases hT0
      have := h2.trackNone t _ h hn
      simp only [List.filter_filter] at this
      rw [← this]
      exact List.filter_congr fun w _ => Bool.and_comm _ _
  names := fun n v => by
    rw [h2.names, h1.names, Bool.and_eq_true, and_assoc]
  groups := fun v => by
    rw [h2.groups, h1.groups]
    cases k1 v <;> cases k2 v <;> simp

theorem restricts_removeView {r : Reconstruction F P} (h : r.Reachable) {v : ViewId} {V : View F} (hV : r.view v = some V) :
    ∃ r', r.removeView v = .ok (true, r') ∧ Restricts r r' fun w => decide (w ≠ v) := by
  obtain ⟨r', he, hview, htn, htk, htd, htf, hnames, hgroups, -⟩ := C04_removeView_exact r h v V hV
  refine ⟨r', he, ?_⟩
  have hi := inv_of_reachable h
  refine ⟨reachable_removeView h he, ?_, ?_, ?_, ?_, ?_⟩
  · intro w
    rw [hview]
    by_cases hw : w = v <;> simp [hw]
  · intro t T' hT'
    cases hT : r.track t with
    | none => rw [htn t hT] at hT'; cases hT'
    | some T =>
      refine ⟨T, rfl, ?_⟩
      by_cases hv : v ∈ T.views
      · by_cases h1 : T.views = [v]
        · rw [htd t T hT h1] at hT'; cases hT'
        · rw [htf t T hT hv h1] at hT'
          exact (Option.some.inj hT').symm
      · rw [htk t T hT hv] at hT'
        have hTT : T = T' := Option.some.inj hT'
        subst hTT
        have : T.views.filter (fun w => decide (w ≠ v)) = T.views := by
          rw [List.filter_eq_self]
          intro w hw
          simp only [decide_eq_true_eq]
          rintro rfl
          exact hv hw
        rw [this]
  · intro t T hT hn
    by_cases hv : v ∈ T.views
    · by_cases h1 : T.views = [v]
      · rw [h1]; simp
      · rw [htf t T hT hv h1] at hn; cases hn
    · rw [htk t T hT hv] at hn; cases hn
  · intro n w
    rw [hnames]
    by_cases hn : n = V.name
    · rw [if_pos hn]
      have : r.viewIdFromName n = some v := (hi.name n v).2 ⟨V, hV, hn.symm⟩
      rw [this]
      simp only [reduceCtorEq, Option.some.injEq, decide_eq_true_eq, false_iff, not_and, not_not]
      exact fun h => h.symm
    · rw [if_neg hn]
      refine ⟨fun hw => ⟨hw, ?_⟩, fun hw => hw.1⟩
      simp only [decide_eq_true_eq]
      rintro rfl
      obtain ⟨V', hV', hname⟩ := (hi.name n w).1 hw
      have : V' = V := Option.some.inj (hV'.symm.trans hV)
      rw [this] at hname
      exact hn hname.symm
  · intro w
    rw [hgroups]
    by_cases hw : w = v <;> simp [hw]

/-- In the reconstruction and not estimated. -/
def unestimated (r : Reconstruction F P) (v : ViewId) : Bool :=
  match r.view v with
  | some V => !V.estimated
  | none => false

theorem viewsLoop_spec (vs : List ViewId) : ∀ {r : Reconstruction F P}, r.Reachable →
    ∃ r', viewsLoop vs r = .ok r' ∧ Restricts r r' fun w => !(decide (w ∈ vs) && unestimated r w) := by
  induction vs with
  | nil =>
    intro r h
    exact ⟨r, rfl, by simpa using Restricts.refl h⟩
  | cons v vs ih =>
    intro r h
    unfold viewsLoop
    cases hV : r.view v with
    | none =>
      obtain ⟨r', he, hr⟩ := ih h
      refine ⟨r', he, ?_⟩
      convert hr using 2 with w
      congr 1
      by_cases hw : w = v
      · subst hw; simp [unestimated, hV]
      · simp [hw]
    | some V =>
      by_cases hest : V.estimated = true
      · simp only [hest, if_true]
        obtain ⟨r', he, hr⟩ := ih h
        refine ⟨r', he, ?_⟩
        convert hr using 2 with w
        congr 1
        by_cases hw : w = v
        · subst hw; simp [unestimated, hV, hest]
        · simp [hw]
      · have hf : V.estimated = false := by simpa using hest
        obtain ⟨r1, he1, hr1⟩ := restricts_removeView h hV
        obtain ⟨r', he, hr⟩ := ih hr1.reach
        refine ⟨r', by simp [hf, he1, he], ?_⟩
        have := hr1.trans hr
        convert this using 2 with w
        by_cases hw : w = v
        · subst hw; simp [unestimated, hV, hf]
        · have : unestimated r1 w = unestimated r w := by
            unfold unestimated
            rw [hr1.view]
            simp [hw]
          simp [hw, this]

/-- The tracks are restricted to those that do not satisfy `bad`. -/
structure Drops (r r' : Reconstruction F P) (bad : TrackId → Bool) : Prop where
  reach : r'.Reachable
  track : ∀ t, r'.track t = if bad t then none else r.track t
  viewNone : ∀ v, r.view v = none → r'.view v = none
  viewSome : ∀ v V, r.view v = some V → ∃ V', r'.view v = some V' ∧ V'.name = V.name ∧ V'.estimated = V.estimated ∧
    V'.intrinsics = V.intrinsics ∧ ∀ t, V'.getFeature t = if bad t then none else V.getFeature t
  names : ∀ n, r'.viewIdFromName n = r.viewIdFromName n
  groups : ∀ v, r'.groupOf v = r.groupOf v

theorem Drops.refl {r : Reconstruction F P} (h : r.Reachable) : Drops r r fun _ => false where
  reach := h
  track := fun t => by simp
  viewNone := fun v hv => hv
  viewSome := fun v V hV => ⟨V, hV, rfl, rfl, rfl, fun t => by simp⟩
  names := fun n => rfl
  groups := fun v => rfl

theorem Drops.trans {r r1 r2 : Reconstruction F P} {b1 b2 : TrackId → Bool} (h1 : Drops r r1 b1) (h2 : Drops r1 r2 b2) :
    Drops r r2 fun t => b1 t || b2 t where
  reach := h2.reach
  track := fun t => by rw [h2.track, h1.track]; cases b1 t <;> cases b2 t <;> simp
  viewNone := fun v hv => h2.viewNone v (h1.viewNone v hv)
  viewSome := fun v V hV => by
    obtain ⟨V1, hV1, a1, a2, a3, a4⟩ := h1.viewSome v V hV
    obtain ⟨V2, hV2, c1, c2, c3, c4⟩ := h2.viewSome v V1 hV1
    refine ⟨V2, hV2, c1.trans a1, c2.trans a2, c3.trans a3, fun t => ?_⟩
    rw [c4, a4]; cases b1 t <;> cases b2 t <;> simp
  names := fun n => (h2.names n).trans (h1.names n)
  groups := fun v => (h2.groups v).trans (h1.groups v)

theorem drops_removeTrack {r : Reconstruction F P} (h : r.Reachable) {t : TrackId} {T : Track P} (hT : r.track t = some T) :
    ∃ r', r.removeTrack t = (true, r') ∧ Drops r r' fun s => decide (s = t) := by
  obtain ⟨r', he, htrack, hids, hview, hnames, hgroups, -⟩ := C04_removeTrack_exact r h t T hT
  refine ⟨r', he, reachable_removeTrack h he, ?_, ?_, ?_, hnames, hgroups⟩
  · intro s; rw [htrack]; by_cases hs : s = t <;> simp [hs]
  · intro v hv
    have h1 : v ∉ r.viewIds := AMap.get_eq_none_iff.1 hv
    rw [← hids] at h1
    exact AMap.get_eq_none_iff.2 h1
  · intro v V hV
    obtain ⟨V', hV', a1, a2, a3, a4⟩ := hview v V hV
    exact ⟨V', hV', a1, a2, a3, fun s => by rw [a4]; by_cases hs : s = t <;> simp [hs]⟩

/-- In the reconstruction but to be dropped. -/
def weak (r : Reconstruction F P) (t : TrackId) : Bool :=
  match r.track t with
  | some T => decide (T.estimated = false ∨ T.views.length < 2)
  | none => false

theorem tracksLoop_spec (ts : List TrackId) : ∀ {r : Reconstruction F P}, r.Reachable →
    ∃ r', tracksLoop ts r = .ok r' ∧ Drops r r' fun t => decide (t ∈ ts) && weak r t := by
  induction ts with
  | nil =>
    intro r h
    exact ⟨r, rfl, by simpa using Drops.refl h⟩
  | cons t ts ih =>
    intro r h
    unfold tracksLoop
    cases hT : r.track t with
    | none =>
      obtain ⟨r', he, hr⟩ := ih h
      refine ⟨r', he, ?_⟩
      convert hr using 2 with s
      by_cases hs : s = t
      · subst hs; simp [weak, hT]
      · simp [hs]
    | some T =>
      by_cases hw : T.estimated = false ∨ T.views.length < 2
      · obtain ⟨r1, he1, hr1⟩ := drops_removeTrack h hT
        obtain ⟨r', he, hr⟩ := ih hr1.reach
        refine ⟨r', by simp only [if_pos hw, he1, he], ?_⟩
        have := hr1.trans hr
        convert this using 2 with s
        by_cases hs : s = t
        · subst hs; simp only [weak, hT]; simp [hw]
        · have : weak r1 s = weak r s := by
            unfold weak
            rw [hr1.track]
            simp [hs]
          simp [hs, this]
      · obtain ⟨r', he, hr⟩ := ih h
        refine ⟨r', by simp only [if_neg hw, he], ?_⟩
        convert hr using 2 with s
        by_cases hs : s = t
        · subst hs; simp only [weak, hT]; simp [hw]
        · simp [hs]

theorem countLoop_eq {α : Type} {look : Nat → Option α} {est : α → Bool} (l : List Nat) :
    ∀ n, countLoop look est l n = n + (l.filter fun x => match look x with
        | some a => est a
        | none => false).length := by
  induction l with
  | nil => intro n; simp [countLoop]
  | cons x l ih =>
    intro n
    unfold countLoop
    cases hx : look x with
    | none => simp only [ih, List.filter_cons, hx]; simp
    | some a =>
      simp only
      rw [ih]
      cases ha : est a
      · simp [hx, ha]
      · simp [hx, ha]; omega

end EstimatedPart
end Theia
