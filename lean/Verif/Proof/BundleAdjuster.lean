import Mathlib.Data.List.Nodup
import Verif.Spec.BundleAdjuster
import Verif.Proof.SelectTracks

namespace Theia

open Spec

namespace BA

variable {F P : Type}

theorem has_pt {p : Problem F} {t : TrackId} : p.has (.pt t) = true ↔ ∃ e ∈ p.residuals, e.track = t := by
  simp [Problem.has]

theorem has_ext {p : Problem F} {v : ViewId} : p.has (.ext v) = true ↔ ∃ e ∈ p.residuals, e.view = v := by
  simp [Problem.has]

theorem has_intr {p : Problem F} {q : Nat} : p.has (.intr q) = true ↔ ∃ e ∈ p.residuals, e.ptr = q := by
  simp [Problem.has]

theorem mem_setInsert {s : List (Option GroupId)} {g x : Option GroupId} :
    x ∈ setInsert s g ↔ x = g ∨ x ∈ s := by
  unfold setInsert
  split
  · next h =>
    constructor
    · exact Or.inr
    · rintro (rfl | h')
      · exact h
      · exact h'
  · simp

theorem nodup_setInsert {s : List (Option GroupId)} {g : Option GroupId} (h : s.Nodup) :
    (setInsert s g).Nodup := by
  unfold setInsert
  split
  · exact h
  · next hg => exact List.nodup_cons.2 ⟨hg, h⟩

/-- The residuals `AddView` adds. -/
def newOfView (r : Reconstruction F P) (v : ViewId) (V : View F) (ts : List TrackId) : List (Residual F) :=
  ts.filterMap fun t =>
    if isEstimatedTrack r t then (V.getFeature t).map fun f => ⟨v, V.intrinsics, t, f⟩ else none

theorem mem_newOfView {r : Reconstruction F P} {v : ViewId} {V : View F} {ts : List TrackId} {e : Residual F} :
    e ∈ newOfView r v V ts ↔ e.view = v ∧ e.ptr = V.intrinsics ∧ e.track ∈ ts ∧
      isEstimatedTrack r e.track = true ∧ V.getFeature e.track = some e.feature := by
  unfold newOfView
  rw [List.mem_filterMap]
  constructor
  · rintro ⟨t, ht, h⟩
    split at h
    · next he =>
      rw [Option.map_eq_some_iff] at h
      obtain ⟨f, hf, rfl⟩ := h
      exact ⟨rfl, rfl, ht, he, hf⟩
    · cases h
  · rintro ⟨rfl, h2, h3, h4, h5⟩
    refine ⟨e.track, h3, ?_⟩
    rw [if_pos h4, h5, ← h2]
    rfl

theorem nodup_newOfView {r : Reconstruction F P} {v : ViewId} {V : View F} {ts : List TrackId} (h : ts.Nodup) :
    (newOfView r v V ts).Nodup := by
  unfold newOfView
  apply h.filterMap
  intro a a' b hb hb'
  simp only [Option.mem_def] at hb hb'
  split at hb
  · split at hb'
    · rw [Option.map_eq_some_iff] at hb hb'
      obtain ⟨f, _, rfl⟩ := hb
      obtain ⟨f', _, h⟩ := hb'
      exact (congrArg Residual.track h).symm
    · cases hb'
  · cases hb

theorem viewLoop_ok {r : Reconstruction F P} {v : ViewId} {V : View F} (ts : List TrackId) : ∀ p : Problem F,
    (∀ t ∈ ts, (∃ f, V.getFeature t = some f) ∧ ∃ T, r.track t = some T) →
    ∃ p', viewLoop r v V ts p = .ok p' ∧ p'.residuals = p.residuals ++ newOfView r v V ts ∧
      p'.subset = p.subset ∧
      ∀ b, b ∈ p'.constant ↔ b ∈ p.constant ∨ ∃ e ∈ newOfView r v V ts, b = .pt e.track := by
  induction ts with
  | nil => intro p _; exact ⟨p, rfl, by simp [newOfView], rfl, by simp [newOfView]⟩
  | cons t ts ih =>
    intro p h
    obtain ⟨⟨f, hf⟩, T, hT⟩ := h t List.mem_cons_self
    have h' : ∀ t ∈ ts, (∃ f, V.getFeature t = some f) ∧ ∃ T, r.track t = some T :=
      fun x hx => h x (List.mem_cons_of_mem _ hx)
    rw [viewLoop, hf]
    simp only [hT]
    split
    · next he =>
      have hest : isEstimatedTrack r t = true := SelectTracks.est_iff.2 ⟨T, hT, he⟩
      have hcons : newOfView r v V (t :: ts) = ⟨v, V.intrinsics, t, f⟩ :: newOfView r v V ts := by
        unfold newOfView
        rw [List.filterMap_cons_some (b := ⟨v, V.intrinsics, t, f⟩)]
        rw [if_pos hest, hf]
        rfl
      unfold Problem.setConstant
      rw [if_pos (by rw [has_pt]; exact ⟨⟨v, V.intrinsics, t, f⟩, by simp, rfl⟩)]
      simp only
      obtain ⟨p', h1, h2, h3, h4⟩ := ih _ h'
      refine ⟨p', h1, by rw [h2, hcons]; simp, h3, ?_⟩
      intro b
      rw [h4, hcons]
      simp only [List.mem_cons, exists_eq_or_imp]
      tauto
    · next he =>
      have hest : ¬ isEstimatedTrack r t = true := by
        intro h
        obtain ⟨T', hT', he'⟩ := SelectTracks.est_iff.1 h
        rw [hT] at hT'
        cases hT'
        exact he he'
      have hcons : newOfView r v V (t :: ts) = newOfView r v V ts := by
        unfold newOfView
        rw [List.filterMap_cons_none]
        rw [if_neg hest]
      rw [hcons]
      exact ih p h'

/-- The residuals `AddTrack` adds. -/
def newOfTrack (r : Reconstruction F P) (t : TrackId) (ov : List ViewId) (vs : List ViewId) : List (Residual F) :=
  vs.filterMap fun v =>
    match r.view v with
    | none => none
    | some V =>
      if v ∈ ov ∨ V.estimated = false then none
      else (V.getFeature t).map fun f => ⟨v, V.intrinsics, t, f⟩

theorem mem_newOfTrack {r : Reconstruction F P} {t : TrackId} {ov vs : List ViewId} {e : Residual F} :
    e ∈ newOfTrack r t ov vs ↔ e.track = t ∧ e.view ∈ vs ∧ e.view ∉ ov ∧
      ∃ V, r.view e.view = some V ∧ V.estimated = true ∧ V.intrinsics = e.ptr ∧
        V.getFeature t = some e.feature := by
  unfold newOfTrack
  rw [List.mem_filterMap]
  constructor
  · rintro ⟨v, hv, h⟩
    split at h
    · cases h
    · next V hV =>
      split at h
      · cases h
      · next hc =>
        rw [Option.map_eq_some_iff] at h
        obtain ⟨f, hf, rfl⟩ := h
        rw [not_or] at hc
        exact ⟨rfl, hv, hc.1, V, hV, by simpa using hc.2, rfl, hf⟩
  · rintro ⟨rfl, h2, h3, V, hV, he, hp, hf⟩
    refine ⟨e.view, h2, ?_⟩
    rw [hV]
    simp only
    rw [if_neg (by rw [not_or]; exact ⟨h3, by simp [he]⟩), hf, hp]
    rfl

theorem nodup_newOfTrack {r : Reconstruction F P} {t : TrackId} {ov vs : List ViewId} (h : vs.Nodup) :
    (newOfTrack r t ov vs).Nodup := by
  unfold newOfTrack
  apply h.filterMap
  intro a a' b hb hb'
  simp only [Option.mem_def] at hb hb'
  split at hb
  · cases hb
  · split at hb
    · cases hb
    · split at hb'
      · cases hb'
      · split at hb'
        · cases hb'
        · rw [Option.map_eq_some_iff] at hb hb'
          obtain ⟨f, _, rfl⟩ := hb
          obtain ⟨f', _, h⟩ := hb'
          exact (congrArg Residual.view h).symm

theorem trackLoop_ok {r : Reconstruction F P} {t : TrackId} {ov : List ViewId} (vs : List ViewId) :
    ∀ q : Problem F × List (Option GroupId),
    (∀ v ∈ vs, ∃ V, r.view v = some V ∧ ∃ f, V.getFeature t = some f) →
    ∃ q', trackLoop r t ov vs q = .ok q' ∧ q'.1.residuals = q.1.residuals ++ newOfTrack r t ov vs ∧
      q'.1.subset = q.1.subset ∧
      (∀ b, b ∈ q'.1.constant ↔ b ∈ q.1.constant ∨ ∃ e ∈ newOfTrack r t ov vs, b = .ext e.view) ∧
      (∀ g, g ∈ q'.2 ↔ g ∈ q.2 ∨ ∃ e ∈ newOfTrack r t ov vs, g = r.groupOf e.view) := by
  induction vs with
  | nil => intro q _; exact ⟨q, rfl, by simp [newOfTrack], rfl, by simp [newOfTrack], by simp [newOfTrack]⟩
  | cons v vs ih =>
    intro q h
    obtain ⟨V, hV, f, hf⟩ := h v List.mem_cons_self
    have h' : ∀ v ∈ vs, ∃ V, r.view v = some V ∧ ∃ f, V.getFeature t = some f :=
      fun x hx => h x (List.mem_cons_of_mem _ hx)
    rw [trackLoop, hV]
    simp only
    split
    · next hc =>
      have hcons : newOfTrack r t ov (v :: vs) = newOfTrack r t ov vs := by
        unfold newOfTrack
        rw [List.filterMap_cons_none]
        rw [hV]
        exact if_pos hc
      rw [hcons]
      exact ih q h'
    · next hc =>
      rw [hf]
      have hcons : newOfTrack r t ov (v :: vs) = ⟨v, V.intrinsics, t, f⟩ :: newOfTrack r t ov vs := by
        unfold newOfTrack
        rw [List.filterMap_cons_some (b := ⟨v, V.intrinsics, t, f⟩)]
        rw [hV]
        simp only
        rw [if_neg hc, hf]
        rfl
      simp only
      unfold Problem.setConstant
      rw [if_pos (by rw [has_ext]; exact ⟨⟨v, V.intrinsics, t, f⟩, by simp, rfl⟩)]
      simp only
      obtain ⟨q', h1, h2, h3, h4, h5⟩ := ih _ h'
      refine ⟨q', h1, by rw [h2, hcons]; simp, h3, ?_, ?_⟩
      · intro b
        rw [h4, hcons]
        simp only [List.mem_cons, exists_eq_or_imp]
        tauto
      · intro g
        rw [h5, hcons, mem_setInsert]
        simp only [List.mem_cons, exists_eq_or_imp]
        tauto

/-- What is known of the adjuster between the calls. -/
structure Built (r : Reconstruction F P) (a : Adjuster F) : Prop where
  nodup : a.problem.residuals.Nodup
  mem : ∀ e, e ∈ a.problem.residuals ↔ IsObservation r e ∧ (e.view ∈ a.optViews ∨ e.track ∈ a.optTracks)
  pt : ∀ t, Block.pt t ∈ a.problem.constant ↔ (∃ e ∈ a.problem.residuals, e.track = t) ∧ t ∉ a.optTracks
  ext : ∀ v, Block.ext v ∈ a.problem.constant ↔ (∃ e ∈ a.problem.residuals, e.view = v) ∧ v ∉ a.optViews
  intr : ∀ q, Block.intr q ∉ a.problem.constant
  subset : a.problem.subset = []
  views : a.optViews.Nodup ∧ ∀ v ∈ a.optViews, ∃ V, r.view v = some V ∧ V.estimated = true
  tracks : ∀ t ∈ a.optTracks, isEstimatedTrack r t = true
  groups : a.optGroups.Nodup ∧ ∀ g, g ∈ a.optGroups ↔ ∃ v ∈ a.optViews, r.groupOf v = g
  consts : ∀ g, g ∈ a.constGroups ↔ ∃ e ∈ a.problem.residuals, e.view ∉ a.optViews ∧ r.groupOf e.view = g

theorem built_new (r : Reconstruction F P) : Built r (Adjuster.new : Adjuster F) := by
  constructor <;> simp [Adjuster.new]

theorem addView_ok {r : Reconstruction F P} (hr : r.Inv) {a : Adjuster F} (ha : Built r a) (hot : a.optTracks = [])
    {v : ViewId} (hv : ∃ V, r.view v = some V) :
    ∃ a', a.addView r v = .ok a' ∧ Built r a' ∧ a'.optTracks = [] ∧
      ∀ w, w ∈ a'.optViews ↔ w ∈ a.optViews ∨ (w = v ∧ ∃ V, r.view v = some V ∧ V.estimated = true) := by
  obtain ⟨V, hV⟩ := hv
  rw [Adjuster.addView, hV]
  simp only
  split
  · next hc =>
    refine ⟨a, rfl, ha, hot, ?_⟩
    intro w
    constructor
    · exact Or.inl
    · rintro (h | ⟨rfl, V', hV', he⟩)
      · exact h
      · cases hV'
        rcases hc with hc | hc
        · rw [he] at hc; cases hc
        · exact hc
  · next hc =>
    rw [not_or] at hc
    have hest : V.estimated = true := by simpa using hc.1
    obtain ⟨p, h1, h2, h3, h4⟩ := viewLoop_ok (r := r) (v := v) (V := V) V.trackIds a.problem (by
      intro t ht
      refine ⟨AMap.mem_keys_iff.1 ht, ?_⟩
      obtain ⟨T, hT, _⟩ := (hr.sym v t).1 ⟨V, hV, ht⟩
      exact ⟨T, hT⟩)
    rw [h1]
    have hnew : ∀ e, e ∈ newOfView r v V V.trackIds ↔ IsObservation r e ∧ e.view = v := by
      intro e
      rw [mem_newOfView]
      constructor
      · rintro ⟨rfl, q1, q2, q3, q4⟩
        obtain ⟨T, hT, hTe⟩ := SelectTracks.est_iff.1 q3
        exact ⟨⟨V, T, hV, hest, q4, q1.symm, hT, hTe⟩, rfl⟩
      · rintro ⟨⟨V', T, q1, q2, q3, q4, q5, q6⟩, rfl⟩
        rw [hV] at q1
        cases q1
        exact ⟨rfl, q4.symm, AMap.mem_keys_iff.2 ⟨_, q3⟩, SelectTracks.est_iff.2 ⟨T, q5, q6⟩, q3⟩
    have hmem : ∀ e, e ∈ p.residuals ↔ IsObservation r e ∧ (e.view ∈ v :: a.optViews ∨ e.track ∈ a.optTracks) := by
      intro e
      rw [h2, List.mem_append, ha.mem, hnew, hot]
      simp only [List.not_mem_nil, or_false, List.mem_cons]
      tauto
    refine ⟨_, rfl, ?_, hot, ?_⟩
    · constructor
      · change p.residuals.Nodup
        rw [h2, List.nodup_append']
        refine ⟨ha.nodup, nodup_newOfView (hr.wfFeat v V hV), ?_⟩
        intro e he he'
        rw [ha.mem, hot] at he
        rw [hnew] at he'
        rcases he.2 with h | h
        · exact hc.2 (he'.2 ▸ h)
        · simp at h
      · exact hmem
      · intro t
        change Block.pt t ∈ p.constant ↔ (∃ e ∈ p.residuals, e.track = t) ∧ t ∉ a.optTracks
        rw [h4, ha.pt, hot, h2]
        simp only [List.not_mem_nil, not_false_eq_true, and_true, Block.pt.injEq, List.mem_append]
        constructor
        · rintro (⟨e, he, h⟩ | ⟨e, he, h⟩)
          · exact ⟨e, Or.inl he, h⟩
          · exact ⟨e, Or.inr he, h.symm⟩
        · rintro ⟨e, he | he, h⟩
          · exact Or.inl ⟨e, he, h⟩
          · exact Or.inr ⟨e, he, h.symm⟩
      · intro w
        change Block.ext w ∈ p.constant ↔ (∃ e ∈ p.residuals, e.view = w) ∧ w ∉ v :: a.optViews
        rw [h4, ha.ext]
        simp only [reduceCtorEq, and_false, exists_false, or_false]
        constructor
        · rintro ⟨⟨e, he, rfl⟩, h⟩
          rw [ha.mem, hot] at he
          rcases he.2 with h' | h'
          · exact absurd h' h
          · simp at h'
        · rintro ⟨⟨e, he, rfl⟩, h⟩
          rw [hmem, hot] at he
          rcases he.2 with h' | h'
          · exact absurd h' h
          · simp at h'
      · intro q
        change Block.intr q ∉ p.constant
        rw [h4]
        have := ha.intr q
        simp [this]
      · change p.subset = []
        rw [h3, ha.subset]
      · refine ⟨List.nodup_cons.2 ⟨hc.2, ha.views.1⟩, ?_⟩
        intro w hw
        rcases List.mem_cons.1 hw with rfl | hw
        · exact ⟨V, hV, hest⟩
        · exact ha.views.2 w hw
      · exact ha.tracks
      · refine ⟨nodup_setInsert ha.groups.1, ?_⟩
        intro g
        rw [mem_setInsert, ha.groups.2]
        simp only [List.mem_cons, exists_eq_or_imp]
        tauto
      · intro g
        change g ∈ a.constGroups ↔ ∃ e ∈ p.residuals, e.view ∉ v :: a.optViews ∧ r.groupOf e.view = g
        rw [ha.consts]
        constructor
        · rintro ⟨e, he, h, _⟩
          rw [ha.mem, hot] at he
          rcases he.2 with h' | h'
          · exact absurd h' h
          · simp at h'
        · rintro ⟨e, he, h, _⟩
          rw [hmem, hot] at he
          rcases he.2 with h' | h'
          · exact absurd h' h
          · simp at h'
    · intro w
      change w ∈ v :: a.optViews ↔ _
      simp only [List.mem_cons, Option.some.injEq, exists_eq_left', hest, and_true]
      tauto

theorem addViews_ok {r : Reconstruction F P} (hr : r.Inv) (vs : List ViewId) : ∀ {a : Adjuster F}, Built r a →
    a.optTracks = [] → (∀ v ∈ vs, ∃ V, r.view v = some V) →
    ∃ a', addViews r vs a = .ok a' ∧ Built r a' ∧ a'.optTracks = [] ∧
      ∀ w, w ∈ a'.optViews ↔ w ∈ a.optViews ∨ (w ∈ vs ∧ ∃ V, r.view w = some V ∧ V.estimated = true) := by
  induction vs with
  | nil => intro a ha h _; exact ⟨a, rfl, ha, h, by simp⟩
  | cons v vs ih =>
    intro a ha hot h
    obtain ⟨a1, h1, h2, h3, h4⟩ := addView_ok hr ha hot (h v List.mem_cons_self)
    obtain ⟨a2, g1, g2, g3, g4⟩ := ih h2 h3 (fun w hw => h w (List.mem_cons_of_mem _ hw))
    refine ⟨a2, by rw [addViews, h1]; exact g1, g2, g3, ?_⟩
    intro w
    rw [g4, h4]
    constructor
    · rintro ((h | ⟨rfl, h⟩) | ⟨h, h'⟩)
      · exact Or.inl h
      · exact Or.inr ⟨List.mem_cons_self, h⟩
      · exact Or.inr ⟨List.mem_cons_of_mem _ h, h'⟩
    · rintro (h | ⟨h, h'⟩)
      · exact Or.inl (Or.inl h)
      · rcases List.mem_cons.1 h with rfl | h
        · exact Or.inl (Or.inr ⟨rfl, h'⟩)
        · exact Or.inr ⟨h, h'⟩

theorem addTrack_ok {r : Reconstruction F P} (hr : r.Inv) {a : Adjuster F} (ha : Built r a)
    {t : TrackId} (ht : ∃ T, r.track t = some T ∧ (T.estimated = true → estimatedObservers r T ≠ [])) :
    ∃ a', a.addTrack r t = .ok a' ∧ Built r a' ∧ a'.optViews = a.optViews ∧ a'.optGroups = a.optGroups ∧
      ∀ w, w ∈ a'.optTracks ↔ w ∈ a.optTracks ∨ (w = t ∧ isEstimatedTrack r t = true) := by
  obtain ⟨T, hT, hobs⟩ := ht
  rw [Adjuster.addTrack, hT]
  simp only
  split
  · next hc =>
    refine ⟨a, rfl, ha, rfl, rfl, ?_⟩
    intro w
    constructor
    · exact Or.inl
    · rintro (h | ⟨rfl, h⟩)
      · exact h
      · obtain ⟨T', hT', he⟩ := SelectTracks.est_iff.1 h
        rw [hT] at hT'
        cases hT'
        rcases hc with hc | hc
        · rw [he] at hc; cases hc
        · exact hc
  · next hc =>
    rw [not_or] at hc
    have hest : T.estimated = true := by simpa using hc.1
    have hest' : isEstimatedTrack r t = true := SelectTracks.est_iff.2 ⟨T, hT, hest⟩
    have hfeat : ∀ v ∈ T.views, ∃ V, r.view v = some V ∧ ∃ f, V.getFeature t = some f := by
      intro v hv
      obtain ⟨V, hV, hf⟩ := (hr.sym v t).2 ⟨T, hT, hv⟩
      exact ⟨V, hV, AMap.mem_keys_iff.1 hf⟩
    obtain ⟨⟨p, gs⟩, h1, h2, h3, h4, h5⟩ := trackLoop_ok (r := r) (t := t) (ov := a.optViews) T.views
      (a.problem, a.constGroups) hfeat
    rw [h1]
    simp only at h2 h3 h4 h5 ⊢
    have hnew : ∀ e, e ∈ newOfTrack r t a.optViews T.views ↔
        IsObservation r e ∧ e.track = t ∧ e.view ∉ a.optViews := by
      intro e
      rw [mem_newOfTrack]
      constructor
      · rintro ⟨rfl, q2, q3, V, hV, q4, q5, q6⟩
        exact ⟨⟨V, T, hV, q4, q6, q5, hT, hest⟩, rfl, q3⟩
      · rintro ⟨⟨V, T', hV, q2, q3, q4, q5, q6⟩, rfl, q8⟩
        rw [hT] at q5
        cases q5
        obtain ⟨T'', hT'', hmem⟩ := (hr.sym e.view e.track).1 ⟨V, hV, AMap.mem_keys_iff.2 ⟨_, q3⟩⟩
        rw [show r.tracks.get e.track = some T from hT] at hT''
        cases hT''
        exact ⟨rfl, hmem, q8, V, hV, q2, q4, q3⟩
    have hmem : ∀ e, e ∈ p.residuals ↔ IsObservation r e ∧ (e.view ∈ a.optViews ∨ e.track ∈ t :: a.optTracks) := by
      intro e
      rw [h2, List.mem_append, ha.mem, hnew, List.mem_cons]
      tauto
    have hhas : p.has (.pt t) = true := by
      rw [has_pt]
      obtain ⟨v, hv⟩ := List.exists_mem_of_ne_nil _ (hobs hest)
      unfold estimatedObservers at hv
      rw [List.mem_filter] at hv
      obtain ⟨V, hV, f, hf⟩ := hfeat v hv.1
      rw [hV] at hv
      refine ⟨⟨v, V.intrinsics, t, f⟩, ?_, rfl⟩
      rw [hmem]
      exact ⟨⟨V, T, hV, hv.2, hf, rfl, hT, hest⟩, Or.inr List.mem_cons_self⟩
    unfold Problem.setVariable
    rw [if_pos hhas]
    refine ⟨_, rfl, ?_, rfl, rfl, ?_⟩
    · constructor
      · change p.residuals.Nodup
        rw [h2, List.nodup_append']
        refine ⟨ha.nodup, nodup_newOfTrack (hr.ndTrack t T hT), ?_⟩
        intro e he he'
        rw [ha.mem] at he
        rw [hnew] at he'
        rcases he.2 with h | h
        · exact he'.2.2 h
        · exact hc.2 (he'.2.1 ▸ h)
      · exact hmem
      · intro s
        change Block.pt s ∈ p.constant.filter _ ↔ (∃ e ∈ p.residuals, e.track = s) ∧ s ∉ t :: a.optTracks
        rw [List.mem_filter, h4, ha.pt, h2]
        simp only [reduceCtorEq, and_false, exists_false, or_false, ne_eq, Block.pt.injEq, decide_not,
          Bool.not_eq_true', decide_eq_false_iff_not, List.mem_cons, not_or, List.mem_append]
        constructor
        · rintro ⟨⟨⟨e, he, h⟩, h'⟩, hs⟩
          exact ⟨⟨e, Or.inl he, h⟩, hs, h'⟩
        · rintro ⟨⟨e, he | he, h⟩, hs, h'⟩
          · exact ⟨⟨⟨e, he, h⟩, h'⟩, hs⟩
          · exact absurd (h.symm.trans ((hnew e).1 he).2.1) hs
      · intro v
        change Block.ext v ∈ p.constant.filter _ ↔ (∃ e ∈ p.residuals, e.view = v) ∧ v ∉ a.optViews
        rw [List.mem_filter, h4, ha.ext, h2]
        simp only [Block.ext.injEq, ne_eq, reduceCtorEq, not_false_eq_true, decide_true, and_true, List.mem_append]
        constructor
        · rintro (⟨⟨e, he, h⟩, h'⟩ | ⟨e, he, h⟩)
          · exact ⟨⟨e, Or.inl he, h⟩, h'⟩
          · exact ⟨⟨e, Or.inr he, h.symm⟩, h ▸ ((hnew e).1 he).2.2⟩
        · rintro ⟨⟨e, he | he, h⟩, h'⟩
          · exact Or.inl ⟨⟨e, he, h⟩, h'⟩
          · exact Or.inr ⟨e, he, h.symm⟩
      · intro q
        change Block.intr q ∉ p.constant.filter _
        rw [List.mem_filter, h4]
        have := ha.intr q
        simp [this]
      · change p.subset = []
        rw [h3]
        exact ha.subset
      · exact ha.views
      · intro s hs
        rcases List.mem_cons.1 hs with rfl | hs
        · exact hest'
        · exact ha.tracks s hs
      · exact ha.groups
      · intro g
        change g ∈ gs ↔ ∃ e ∈ p.residuals, e.view ∉ a.optViews ∧ r.groupOf e.view = g
        rw [h5, ha.consts, h2]
        simp only [List.mem_append]
        constructor
        · rintro (⟨e, he, h⟩ | ⟨e, he, h⟩)
          · exact ⟨e, Or.inl he, h⟩
          · exact ⟨e, Or.inr he, ((hnew e).1 he).2.2, h.symm⟩
        · rintro ⟨e, he | he, h, h'⟩
          · exact Or.inl ⟨e, he, h, h'⟩
          · exact Or.inr ⟨e, he, h'.symm⟩
    · intro w
      change w ∈ t :: a.optTracks ↔ _
      rw [List.mem_cons]
      tauto

theorem addTracks_ok {r : Reconstruction F P} (hr : r.Inv) (ts : List TrackId) : ∀ {a : Adjuster F}, Built r a →
    (∀ t ∈ ts, ∃ T, r.track t = some T ∧ (T.estimated = true → estimatedObservers r T ≠ [])) →
    ∃ a', addTracks r ts a = .ok a' ∧ Built r a' ∧ a'.optViews = a.optViews ∧ a'.optGroups = a.optGroups ∧
      ∀ w, w ∈ a'.optTracks ↔ w ∈ a.optTracks ∨ (w ∈ ts ∧ isEstimatedTrack r w = true) := by
  induction ts with
  | nil => intro a ha _; exact ⟨a, rfl, ha, rfl, rfl, by simp⟩
  | cons t ts ih =>
    intro a ha h
    obtain ⟨a1, h1, h2, h3, h4, h5⟩ := addTrack_ok hr ha (h t List.mem_cons_self)
    obtain ⟨a2, g1, g2, g3, g4, g5⟩ := ih h2 (fun w hw => h w (List.mem_cons_of_mem _ hw))
    refine ⟨a2, by rw [addTracks, h1]; exact g1, g2, g3.trans h3, g4.trans h4, ?_⟩
    intro w
    rw [g5, h5]
    constructor
    · rintro ((h | ⟨rfl, h⟩) | ⟨h, h'⟩)
      · exact Or.inl h
      · exact Or.inr ⟨List.mem_cons_self, h⟩
      · exact Or.inr ⟨List.mem_cons_of_mem _ h, h'⟩
    · rintro (h | ⟨h, h'⟩)
      · exact Or.inl (Or.inl h)
      · rcases List.mem_cons.1 h with rfl | h
        · exact Or.inl (Or.inr ⟨rfl, h'⟩)
        · exact Or.inr ⟨h, h'⟩

theorem setExtrinsics_ok (o : Options) (vs : List ViewId) : ∀ p : Problem F, vs.Nodup →
    (∀ v ∈ vs, p.has (.ext v) = true) → (∀ v ∈ vs, Block.ext v ∉ p.subset) →
    ∃ p', setExtrinsics o vs p = .ok p' ∧ p'.residuals = p.residuals ∧
      (∀ b, b ∈ p'.constant ↔ b ∈ p.constant ∨
        (o.constantOrientation = true ∧ o.constantPosition = true ∧ ∃ v ∈ vs, b = .ext v)) ∧
      (∀ b, b ∈ p'.subset ↔ b ∈ p.subset ∨
        (o.constantOrientation ≠ o.constantPosition ∧ ∃ v ∈ vs, b = .ext v)) := by
  induction vs with
  | nil => intro p _ _ _; exact ⟨p, rfl, rfl, by simp, by simp⟩
  | cons v vs ih =>
    intro p hnd hhas hsub
    rw [List.nodup_cons] at hnd
    have hhas' : ∀ w ∈ vs, p.has (.ext w) = true := fun w hw => hhas w (List.mem_cons_of_mem _ hw)
    have hsub' : ∀ w ∈ vs, Block.ext w ∉ p.subset := fun w hw => hsub w (List.mem_cons_of_mem _ hw)
    rw [setExtrinsics]
    cases ho : o.constantOrientation <;> cases hp : o.constantPosition
    · obtain ⟨p', h1, h2, h3, h4⟩ := ih p hnd.2 hhas' hsub'
      rw [ho, hp] at h3 h4
      simp only [Bool.false_eq_true, false_and, if_false, or_self] at h1 ⊢
      exact ⟨p', h1, h2, by simpa using h3, by simpa using h4⟩
    · simp only [Bool.false_eq_true, false_and, if_false, or_true, if_true]
      unfold Problem.setSubset
      rw [if_pos ⟨hhas v List.mem_cons_self, hsub v List.mem_cons_self⟩]
      obtain ⟨p', h1, h2, h3, h4⟩ := ih { p with subset := .ext v :: p.subset } hnd.2 hhas' (by
        intro w hw
        simp only [List.mem_cons, Block.ext.injEq, not_or]
        exact ⟨fun h => hnd.1 (h ▸ hw), hsub' w hw⟩)
      rw [ho, hp] at h3 h4
      refine ⟨p', h1, h2, by simpa using h3, ?_⟩
      intro b
      rw [h4]
      simp only [List.mem_cons, ne_eq, Bool.false_eq_true, not_false_eq_true, true_and, exists_eq_or_imp]
      tauto
    · simp only [Bool.false_eq_true, and_false, if_false, true_or, if_true]
      unfold Problem.setSubset
      rw [if_pos ⟨hhas v List.mem_cons_self, hsub v List.mem_cons_self⟩]
      obtain ⟨p', h1, h2, h3, h4⟩ := ih { p with subset := .ext v :: p.subset } hnd.2 hhas' (by
        intro w hw
        simp only [List.mem_cons, Block.ext.injEq, not_or]
        exact ⟨fun h => hnd.1 (h ▸ hw), hsub' w hw⟩)
      rw [ho, hp] at h3 h4
      refine ⟨p', h1, h2, by simpa using h3, ?_⟩
      intro b
      rw [h4]
      simp only [List.mem_cons, ne_eq, Bool.true_eq_false, not_false_eq_true, true_and, exists_eq_or_imp]
      tauto
    · simp only [and_self, if_true]
      unfold Problem.setConstant
      rw [if_pos (hhas v List.mem_cons_self)]
      obtain ⟨p', h1, h2, h3, h4⟩ := ih { p with constant := .ext v :: p.constant } hnd.2 hhas' hsub'
      rw [ho, hp] at h3 h4
      refine ⟨p', h1, h2, ?_, by simpa using h4⟩
      intro b
      rw [h3]
      simp only [List.mem_cons, true_and, exists_eq_or_imp]
      tauto

/-- The intrinsics object of a group. -/
theorem groupIntrinsics_ok {r : Reconstruction F P} (hr : r.Inv) {v : ViewId} {V : View F}
    (hV : r.view v = some V) {g : GroupId} (hg : r.groupOf v = some g) :
    groupIntrinsics r (some g) = .ok V.intrinsics := by
  obtain ⟨s, hs, hvs⟩ := (hr.grp v g).1 hg
  have hvg : r.viewsInGroup g = s := by
    unfold Reconstruction.viewsInGroup
    rw [hs]
    rfl
  rw [groupIntrinsics, hvg]
  cases hsl : s with
  | nil => rw [hsl] at hvs; simp at hvs
  | cons w ws =>
    simp only
    have hw : r.viewGroup.get w = some g := (hr.grp w g).2 ⟨s, hs, by rw [hsl]; exact List.mem_cons_self⟩
    have hwk : w ∈ r.views.keys := (hr.grpDom w).1 (AMap.mem_keys_iff.2 ⟨g, hw⟩)
    obtain ⟨W, hW⟩ := AMap.mem_keys_iff.1 hwk
    rw [show r.view w = some W from hW]
    simp only
    rw [(hr.ptr w v W V g g hW hV hw hg).2 rfl]

theorem groupOf_some {r : Reconstruction F P} (hr : r.Inv) {v : ViewId} {V : View F}
    (hV : r.view v = some V) : ∃ g, r.groupOf v = some g :=
  AMap.mem_keys_iff.1 ((hr.grpDom v).2 (AMap.mem_keys_iff.2 ⟨V, hV⟩))

theorem setOptGroups_ok {r : Reconstruction F P} (hr : r.Inv) (o : Options) (gs : List (Option GroupId)) :
    ∀ p : Problem F, gs.Nodup →
    (∀ g ∈ gs, ∃ v V, r.view v = some V ∧ r.groupOf v = g ∧ p.has (.intr V.intrinsics) = true ∧
      Block.intr V.intrinsics ∉ p.subset) →
    ∃ p', setOptGroups r o gs p = .ok p' ∧ p'.residuals = p.residuals ∧
      (∀ b, b ∈ p'.constant ↔ b ∈ p.constant ∨
        ∃ v V g, r.view v = some V ∧ r.groupOf v = some g ∧ some g ∈ gs ∧ o.fixed g = .all ∧ b = .intr V.intrinsics) ∧
      (∀ b, b ∈ p'.subset ↔ b ∈ p.subset ∨
        ∃ v V g, r.view v = some V ∧ r.groupOf v = some g ∧ some g ∈ gs ∧ o.fixed g = .some ∧ b = .intr V.intrinsics) := by
  induction gs with
  | nil => intro p _ _; exact ⟨p, rfl, rfl, by simp, by simp⟩
  | cons g gs ih =>
    intro p hnd h
    rw [List.nodup_cons] at hnd
    obtain ⟨v, V, hV, hg, hhas, hsub⟩ := h g List.mem_cons_self
    obtain ⟨g', hg'⟩ := groupOf_some hr hV
    have hgg : g = some g' := hg.symm.trans hg'
    subst hgg
    have hgi := groupIntrinsics_ok hr hV hg'
    have hsame : ∀ w W, r.view w = some W → r.groupOf w = some g' → W.intrinsics = V.intrinsics := by
      intro w W hW hw
      exact (hr.ptr w v W V g' g' hW hV hw hg').2 rfl
    have hdiff : ∀ w W x, r.view w = some W → r.groupOf w = x → x ∈ gs → W.intrinsics ≠ V.intrinsics := by
      intro w W x hW hw hx heq
      obtain ⟨k, hk⟩ := groupOf_some hr hW
      have := (hr.ptr w v W V k g' hW hV hk hg').1 heq
      rw [← hw, hk, this] at hx
      exact hnd.1 hx
    rw [setOptGroups, hgi]
    simp only [fixIntrinsics]
    have htail : ∀ x ∈ gs, ∃ v V, r.view v = some V ∧ r.groupOf v = x ∧ p.has (.intr V.intrinsics) = true ∧
      Block.intr V.intrinsics ∉ p.subset := fun x hx => h x (List.mem_cons_of_mem _ hx)
    -- the entry of this group in the characterisation
    have hentry : ∀ (k : Fixed) b, (∃ w W x, r.view w = some W ∧ r.groupOf w = some x ∧ some x ∈ some g' :: gs ∧
        o.fixed x = k ∧ b = Block.intr W.intrinsics) ↔ (o.fixed g' = k ∧ b = .intr V.intrinsics) ∨
        ∃ w W x, r.view w = some W ∧ r.groupOf w = some x ∧ some x ∈ gs ∧ o.fixed x = k ∧ b = Block.intr W.intrinsics := by
      intro k b
      constructor
      · rintro ⟨w, W, x, q1, q2, q3, q4, q5⟩
        rcases List.mem_cons.1 q3 with q3 | q3
        · cases q3
          exact Or.inl ⟨q4, by rw [q5, hsame w W q1 q2]⟩
        · exact Or.inr ⟨w, W, x, q1, q2, q3, q4, q5⟩
      · rintro (⟨q1, q2⟩ | ⟨w, W, x, q1, q2, q3, q4⟩)
        · exact ⟨v, V, g', hV, hg', List.mem_cons_self, q1, q2⟩
        · exact ⟨w, W, x, q1, q2, List.mem_cons_of_mem _ q3, q4⟩
    cases hf : o.fixed g' with
    | all =>
      simp only
      unfold Problem.setConstant
      rw [if_pos hhas]
      obtain ⟨p', h1, h2, h3, h4⟩ := ih { p with constant := .intr V.intrinsics :: p.constant } hnd.2 htail
      refine ⟨p', h1, h2, ?_, ?_⟩
      · intro b
        rw [h3, hentry, hf]
        simp only [List.mem_cons, true_and]
        rw [or_assoc, or_left_comm]
      · intro b
        rw [h4, hentry, hf]
        simp
    | some =>
      simp only
      unfold Problem.setSubset
      rw [if_pos ⟨hhas, hsub⟩]
      obtain ⟨p', h1, h2, h3, h4⟩ := ih { p with subset := .intr V.intrinsics :: p.subset } hnd.2 (by
        intro x hx
        obtain ⟨w, W, q1, q2, q3, q4⟩ := htail x hx
        refine ⟨w, W, q1, q2, q3, ?_⟩
        simp only [List.mem_cons, Block.intr.injEq, not_or]
        exact ⟨hdiff w W x q1 q2 hx, q4⟩)
      refine ⟨p', h1, h2, ?_, ?_⟩
      · intro b
        rw [h3, hentry, hf]
        simp
      · intro b
        rw [h4, hentry, hf]
        simp only [List.mem_cons, true_and]
        rw [or_assoc, or_left_comm]
    | none =>
      simp only
      obtain ⟨p', h1, h2, h3, h4⟩ := ih p hnd.2 htail
      refine ⟨p', h1, h2, ?_, ?_⟩
      · intro b
        rw [h3, hentry, hf]
        simp
      · intro b
        rw [h4, hentry, hf]
        simp

theorem setConstGroups_ok {r : Reconstruction F P} (hr : r.Inv) (og : List (Option GroupId))
    (gs : List (Option GroupId)) : ∀ p : Problem F,
    (∀ g ∈ gs, ∃ v V, r.view v = some V ∧ r.groupOf v = g ∧ p.has (.intr V.intrinsics) = true) →
    ∃ p', setConstGroups r og gs p = .ok p' ∧ p'.residuals = p.residuals ∧ p'.subset = p.subset ∧
      ∀ b, b ∈ p'.constant ↔ b ∈ p.constant ∨
        ∃ v V, r.view v = some V ∧ r.groupOf v ∈ gs ∧ r.groupOf v ∉ og ∧ b = .intr V.intrinsics := by
  induction gs with
  | nil => intro p _; exact ⟨p, rfl, rfl, rfl, by simp⟩
  | cons g gs ih =>
    intro p h
    obtain ⟨v, V, hV, hg, hhas⟩ := h g List.mem_cons_self
    obtain ⟨g', hg'⟩ := groupOf_some hr hV
    have hgg : g = some g' := hg.symm.trans hg'
    subst hgg
    have htail : ∀ x ∈ gs, ∃ v V, r.view v = some V ∧ r.groupOf v = x ∧ p.has (.intr V.intrinsics) = true :=
      fun x hx => h x (List.mem_cons_of_mem _ hx)
    rw [setConstGroups]
    split
    · next hin =>
      obtain ⟨p', h1, h2, h3, h4⟩ := ih p htail
      refine ⟨p', h1, h2, h3, ?_⟩
      intro b
      rw [h4]
      constructor
      · rintro (q | ⟨w, W, q1, q2, q3, q4⟩)
        · exact Or.inl q
        · exact Or.inr ⟨w, W, q1, List.mem_cons_of_mem _ q2, q3, q4⟩
      · rintro (q | ⟨w, W, q1, q2, q3, q4⟩)
        · exact Or.inl q
        · rcases List.mem_cons.1 q2 with q2 | q2
          · exact absurd (q2 ▸ hin) q3
          · exact Or.inr ⟨w, W, q1, q2, q3, q4⟩
    · next hin =>
      rw [groupIntrinsics_ok hr hV hg']
      simp only
      unfold Problem.setConstant
      rw [if_pos hhas]
      obtain ⟨p', h1, h2, h3, h4⟩ := ih { p with constant := .intr V.intrinsics :: p.constant } htail
      refine ⟨p', h1, h2, h3, ?_⟩
      intro b
      rw [h4]
      simp only [List.mem_cons]
      constructor
      · rintro ((q | q) | ⟨w, W, q1, q2, q3, q4⟩)
        · exact Or.inr ⟨v, V, hV, Or.inl hg', by rw [hg']; exact hin, q⟩
        · exact Or.inl q
        · exact Or.inr ⟨w, W, q1, Or.inr q2, q3, q4⟩
      · rintro (q | ⟨w, W, q1, q2, q3, q4⟩)
        · exact Or.inl (Or.inr q)
        · rcases q2 with q2 | q2
          · exact Or.inl (Or.inl (by rw [q4, (hr.ptr w v W V g' g' q1 hV q2 hg').2 rfl]))
          · exact Or.inr ⟨w, W, q1, q2, q3, q4⟩

end BA
end Theia
