import Verif.Model.Reconstruction

/-! # Helper lemmas for `Reconstruction`: the inductive invariant -/

namespace Theia
namespace Reconstruction

variable {F P : Type}

/-- The inductive invariant behind C01-C03 (the property theorems in `Props` restate its
consequences through the queries only). -/
structure Inv (r : Reconstruction F P) : Prop where
  wfNames : r.names.WF
  wfViews : r.views.WF
  wfTracks : r.tracks.WF
  wfVG : r.viewGroup.WF
  wfGroups : r.groups.WF
  wfFeat : ∀ v V, r.views.get v = some V → V.features.WF
  ndTrack : ∀ t T, r.tracks.get t = some T → T.views.Nodup
  ndGroup : ∀ g s, r.groups.get g = some s → s.Nodup
  neGroup : ∀ g s, r.groups.get g = some s → s ≠ []
  sym : ∀ v t, (∃ V, r.views.get v = some V ∧ t ∈ V.features.keys) ↔
    (∃ T, r.tracks.get t = some T ∧ v ∈ T.views)
  name : ∀ n v, r.names.get n = some v ↔ ∃ V, r.views.get v = some V ∧ V.name = n
  nameNe : ∀ v V, r.views.get v = some V → V.name ≠ ""
  grp : ∀ v g, r.viewGroup.get v = some g ↔ ∃ s, r.groups.get g = some s ∧ v ∈ s
  grpDom : ∀ v, v ∈ r.viewGroup.keys ↔ v ∈ r.views.keys
  freshV : ∀ v ∈ r.views.keys, v < r.nextViewId
  freshT : ∀ t ∈ r.tracks.keys, t < r.nextTrackId
  ptr : ∀ v w V W g h, r.views.get v = some V → r.views.get w = some W →
    r.viewGroup.get v = some g → r.viewGroup.get w = some h →
    (V.intrinsics = W.intrinsics ↔ g = h)
  ptrFresh : ∀ v V, r.views.get v = some V → V.intrinsics < r.nextIntrinsics

theorem inv_empty : (empty : Reconstruction F P).Inv := by
  constructor <;> simp [empty]

/-! ## removeTrack -/

theorem removeTrackLoop_spec (t : TrackId) (vs : List ViewId) (r : Reconstruction F P)
    (hnd : vs.Nodup) (hw : r.views.WF)
    (h : ∀ v ∈ vs, ∃ V, r.views.get v = some V ∧ t ∈ V.features.keys) :
    ∃ X : AMap ViewId (View F), removeTrackLoop t vs r = (true, { r with views := X }) ∧
      X.keys = r.views.keys ∧
      ∀ v, X.get v = if v ∈ vs then (r.views.get v).map (fun V => { V with features := V.features.erase t })
        else r.views.get v := by
  induction vs generalizing r with
  | nil => exact ⟨r.views, rfl, rfl, by simp⟩
  | cons v vs ih =>
    obtain ⟨V, hV, ht⟩ := h v (by simp)
    have hc : V.features.contains t = true := by simpa using ht
    rw [List.nodup_cons] at hnd
    obtain ⟨X, hX, hk, hg⟩ := ih { r with views := r.views.insert v (V.removeFeature t).2 } hnd.2
      (AMap.wf_insert hw _ _) (by
        intro w hw'
        obtain ⟨W, hW, htW⟩ := h w (by simp [hw'])
        refine ⟨W, ?_, htW⟩
        have : w ≠ v := by rintro rfl; exact hnd.1 hw'
        simp [AMap.get_insert, this, hW])
    refine ⟨X, ?_, ?_, ?_⟩
    · simp only [removeTrackLoop, hV, View.removeFeature, hc, if_true]
      exact hX
    · rw [hk, AMap.keys_insert, if_pos]
      rw [AMap.mem_keys_iff]; exact ⟨V, hV⟩
    · intro w
      rw [hg w]
      simp only [AMap.get_insert, List.mem_cons]
      by_cases hwv : w = v
      · subst hwv
        simp [hnd.1, hV, View.removeFeature]
      · simp [hwv]

theorem removeTrack_none {r : Reconstruction F P} {t : TrackId} (h : r.tracks.get t = none) :
    removeTrack r t = (false, r) := by
  simp [removeTrack, h]

theorem erase_features_eq {V : View F} {t : TrackId} (h : t ∉ V.features.keys) :
    { V with features := V.features.erase t } = V := by
  rw [AMap.erase_of_not_mem h]

theorem removeTrack_spec {r : Reconstruction F P} (hi : r.Inv) {t : TrackId} {T : Track P}
    (hT : r.tracks.get t = some T) :
    ∃ X : AMap ViewId (View F),
      removeTrack r t = (true, { r with views := X, tracks := r.tracks.erase t }) ∧
      X.keys = r.views.keys ∧
      ∀ v, X.get v = (r.views.get v).map (fun V => { V with features := V.features.erase t }) := by
  obtain ⟨X, hX, hk, hg⟩ := removeTrackLoop_spec t T.views r (hi.ndTrack t T hT) hi.wfViews (by
    intro v hv
    exact (hi.sym v t).2 ⟨T, hT, hv⟩)
  refine ⟨X, ?_, hk, ?_⟩
  · simp [removeTrack, hT, hX]
  · intro v
    rw [hg v]
    split
    · rfl
    · rename_i hv
      cases hV : r.views.get v with
      | none => rfl
      | some V =>
        have : t ∉ V.features.keys := by
          intro htk
          obtain ⟨T', hT', hv'⟩ := (hi.sym v t).1 ⟨V, hV, htk⟩
          rw [hT] at hT'; cases hT'
          exact hv hv'
        simp [erase_features_eq this]

theorem inv_removeTrack {r : Reconstruction F P} (hi : r.Inv) (t : TrackId) :
    (removeTrack r t).2.Inv := by
  cases hT : r.tracks.get t with
  | none => rw [removeTrack_none hT]; exact hi
  | some T =>
    obtain ⟨X, hX, hk, hg⟩ := removeTrack_spec hi hT
    rw [hX]
    have hg' : ∀ v W, X.get v = some W → ∃ V, r.views.get v = some V ∧
        W = { V with features := V.features.erase t } := by
      intro v W hW
      rw [hg v, Option.map_eq_some_iff] at hW
      obtain ⟨V, hV, rfl⟩ := hW
      exact ⟨V, hV, rfl⟩
    constructor
    · exact hi.wfNames
    · unfold AMap.WF; rw [hk]; exact hi.wfViews
    · exact AMap.wf_erase hi.wfTracks _
    · exact hi.wfVG
    · exact hi.wfGroups
    · intro v W hW
      obtain ⟨V, hV, rfl⟩ := hg' v W hW
      exact AMap.wf_erase (hi.wfFeat v V hV) _
    · intro t' T' hT'
      simp only [AMap.get_erase] at hT'
      split at hT'
      · cases hT'
      · exact hi.ndTrack _ _ hT'
    · exact hi.ndGroup
    · exact hi.neGroup
    · intro v t'
      simp only [AMap.get_erase]
      by_cases ht : t' = t
      · subst ht
        simp only [if_true, reduceCtorEq, false_and, exists_false, iff_false, not_exists, not_and]
        intro W hW
        obtain ⟨V, hV, rfl⟩ := hg' v W hW
        simp [AMap.mem_keys_erase]
      · simp only [ht, if_false]
        rw [← hi.sym v t']
        constructor
        · rintro ⟨W, hW, hk'⟩
          obtain ⟨V, hV, rfl⟩ := hg' v W hW
          exact ⟨V, hV, (AMap.mem_keys_erase.1 hk').2⟩
        · rintro ⟨V, hV, hk'⟩
          exact ⟨_, by rw [hg v, hV]; rfl, AMap.mem_keys_erase.2 ⟨ht, hk'⟩⟩
    · intro n v
      rw [hi.name n v]
      constructor
      · rintro ⟨V, hV, hn⟩
        exact ⟨{ V with features := V.features.erase t }, by simp only; rw [hg v, hV]; rfl, hn⟩
      · rintro ⟨W, hW, hn⟩
        obtain ⟨V, hV, rfl⟩ := hg' v W hW
        exact ⟨V, hV, hn⟩
    · intro v W hW
      obtain ⟨V, hV, rfl⟩ := hg' v W hW
      exact hi.nameNe v V hV
    · exact hi.grp
    · intro v; simp only; rw [hk]; exact hi.grpDom v
    · intro v; simp only; rw [hk]; exact hi.freshV v
    · intro t' ht'
      exact hi.freshT t' (AMap.mem_keys_erase.1 ht').2
    · intro v w V W g h hV hW
      obtain ⟨V', hV', rfl⟩ := hg' v V hV
      obtain ⟨W', hW', rfl⟩ := hg' w W hW
      exact hi.ptr v w V' W' g h hV' hW'
    · intro v V hV
      obtain ⟨V', hV', rfl⟩ := hg' v V hV
      exact hi.ptrFresh v V' hV'

/-! ## removeView -/

/-- A track without views leaves everything but the track map alone. -/
theorem removeTrack_noViews {r : Reconstruction F P} {t : TrackId} {T : Track P}
    (hT : r.tracks.get t = some T) (hv : T.views = []) :
    removeTrack r t = (true, { r with tracks := r.tracks.erase t }) := by
  simp [removeTrack, hT, hv, removeTrackLoop]

/-- What happens to a track when view `v` is removed. -/
def dropView (v : ViewId) (T : Track P) : Option (Track P) :=
  if v ∈ T.views then
    if T.views.filter (fun w => decide (w ≠ v)) = [] then none
    else some { T with views := T.views.filter (fun w => decide (w ≠ v)) }
  else some T

theorem removeViewLoop_spec (v : ViewId) (ts : List TrackId) (r : Reconstruction F P)
    (hnd : ts.Nodup) (hw : r.tracks.WF)
    (h : ∀ t ∈ ts, ∃ T, r.tracks.get t = some T ∧ v ∈ T.views) :
    ∃ X : AMap TrackId (Track P), removeViewLoop v ts r = (true, { r with tracks := X }) ∧
      X.WF ∧ (∀ t, t ∈ X.keys → t ∈ r.tracks.keys) ∧
      ∀ t, X.get t = if t ∈ ts then (r.tracks.get t).bind (dropView v) else r.tracks.get t := by
  induction ts generalizing r with
  | nil => exact ⟨r.tracks, rfl, hw, fun _ h => h, by simp⟩
  | cons t ts ih =>
    obtain ⟨T, hT, hv⟩ := h t (by simp)
    rw [List.nodup_cons] at hnd
    have hkt : t ∈ r.tracks.keys := AMap.mem_keys_iff.2 ⟨T, hT⟩
    simp only [removeViewLoop, hT, Track.removeView, hv, decide_true, if_true]
    by_cases he : T.views.filter (fun w => decide (w ≠ v)) = []
    · have hl : (T.views.filter (fun w => decide (w ≠ v))).length = 0 := by rw [he]; rfl
      rw [if_pos hl]
      have hr := removeTrack_noViews (r := { r with tracks := r.tracks.insert t { T with views := T.views.filter (fun w => decide (w ≠ v)) } })
        (t := t) (T := { T with views := T.views.filter (fun w => decide (w ≠ v)) })
        (by simp [AMap.get_insert]) he
      rw [hr]
      obtain ⟨X, hX, hXw, hXk, hg⟩ := ih { r with tracks := (r.tracks.insert t { T with views := T.views.filter (fun w => decide (w ≠ v)) }).erase t } hnd.2
        (AMap.wf_erase (AMap.wf_insert hw _ _) _) (by
          intro t' ht'
          obtain ⟨T', hT', hv'⟩ := h t' (by simp [ht'])
          have : t' ≠ t := by rintro rfl; exact hnd.1 ht'
          exact ⟨T', by simp [AMap.get_erase, AMap.get_insert, this, hT'], hv'⟩)
      refine ⟨X, hX, hXw, ?_, ?_⟩
      · intro t' ht'
        have := hXk t' ht'
        simp only [AMap.mem_keys_erase, AMap.mem_keys_insert] at this
        exact this.2.resolve_left this.1
      · intro t'
        rw [hg t']
        simp only [AMap.get_erase, AMap.get_insert, List.mem_cons]
        by_cases ht : t' = t
        · subst ht
          simp only [hnd.1, if_false, if_true, true_or, hT, Option.bind_some]
          unfold dropView
          rw [if_pos hv, if_pos he]
        · simp [ht]
    · have hl : (T.views.filter (fun w => decide (w ≠ v))).length ≠ 0 := by
        intro h0; exact he (List.length_eq_zero_iff.1 h0)
      rw [if_neg hl]
      obtain ⟨X, hX, hXw, hXk, hg⟩ := ih { r with tracks := r.tracks.insert t { T with views := T.views.filter (fun w => decide (w ≠ v)) } } hnd.2
        (AMap.wf_insert hw _ _) (by
          intro t' ht'
          obtain ⟨T', hT', hv'⟩ := h t' (by simp [ht'])
          have : t' ≠ t := by rintro rfl; exact hnd.1 ht'
          exact ⟨T', by simp [AMap.get_insert, this, hT'], hv'⟩)
      refine ⟨X, hX, hXw, ?_, ?_⟩
      · intro t' ht'
        have := hXk t' ht'
        simp only [AMap.mem_keys_insert] at this
        rcases this with rfl | h2
        · exact hkt
        · exact h2
      · intro t'
        rw [hg t']
        simp only [AMap.get_insert, List.mem_cons]
        by_cases ht : t' = t
        · subst ht
          simp only [hnd.1, if_false, if_true, true_or, hT, Option.bind_some]
          unfold dropView
          rw [if_pos hv, if_neg he]
        · simp [ht]

theorem removeView_none {r : Reconstruction F P} {v : ViewId} (h : r.views.get v = none) :
    removeView r v = .ok (false, r) := by
  simp [removeView, h]

theorem removeView_spec {r : Reconstruction F P} (hi : r.Inv) {v : ViewId} {V : View F}
    (hV : r.views.get v = some V) :
    ∃ (X : AMap TrackId (Track P)) (g : GroupId) (s : List ViewId),
      r.viewGroup.get v = some g ∧ r.groups.get g = some s ∧ v ∈ s ∧
      removeView r v = .ok (true, { r with
        names := r.names.erase V.name
        viewGroup := r.viewGroup.erase v
        groups := if (s.filter (fun w => decide (w ≠ v))).length = 0 then r.groups.erase g
          else r.groups.insert g (s.filter (fun w => decide (w ≠ v)))
        views := r.views.erase v
        tracks := X }) ∧
      X.WF ∧ (∀ t, t ∈ X.keys → t ∈ r.tracks.keys) ∧
      ∀ t, X.get t = (r.tracks.get t).bind (dropView v) := by
  obtain ⟨X, hX, hXw, hXk, hg⟩ := removeViewLoop_spec v V.trackIds r (hi.wfFeat v V hV) hi.wfTracks (by
    intro t ht
    exact (hi.sym v t).1 ⟨V, hV, ht⟩)
  have hkv : v ∈ r.viewGroup.keys := (hi.grpDom v).2 (AMap.mem_keys_iff.2 ⟨V, hV⟩)
  obtain ⟨g, hgv⟩ := AMap.mem_keys_iff.1 hkv
  obtain ⟨s, hs, hvs⟩ := (hi.grp v g).1 hgv
  refine ⟨X, g, s, hgv, hs, hvs, ?_, hXw, hXk, ?_⟩
  · simp [removeView, hV, hX, hgv, hs]
  · intro t
    rw [hg t]
    split
    · rfl
    · rename_i ht
      cases hT : r.tracks.get t with
      | none => rfl
      | some T =>
        have : v ∉ T.views := by
          intro hvT
          obtain ⟨V', hV', htV⟩ := (hi.sym v t).2 ⟨T, hT, hvT⟩
          rw [hV] at hV'; cases hV'
          exact ht htV
        simp [dropView, this]

theorem dropView_eq_some {v : ViewId} {T T' : Track P} (h : dropView v T = some T') :
    (∀ w, w ∈ T'.views ↔ w ≠ v ∧ w ∈ T.views) ∧ (T.views.Nodup → T'.views.Nodup) := by
  unfold dropView at h
  split at h
  · split at h
    · cases h
    · cases h
      constructor
      · intro w; simp [and_comm]
      · exact fun h => h.filter _
  · rename_i hv
    cases h
    constructor
    · intro w
      constructor
      · intro hw; exact ⟨by rintro rfl; exact hv hw, hw⟩
      · exact And.right
    · exact id

theorem dropView_eq_none {v : ViewId} {T : Track P} (h : dropView v T = none) :
    ∀ w, w ∈ T.views → w = v := by
  unfold dropView at h
  split at h
  · split at h
    · rename_i he
      intro w hw
      rw [List.filter_eq_nil_iff] at he
      simpa using he w hw
    · cases h
  · cases h

theorem inv_removeView {r : Reconstruction F P} (hi : r.Inv) {v : ViewId} {b : Bool}
    {r' : Reconstruction F P} (h : removeView r v = .ok (b, r')) : r'.Inv := by
  cases hV : r.views.get v with
  | none => rw [removeView_none hV] at h; cases h; exact hi
  | some V =>
    obtain ⟨X, g, s, hgv, hs, hvs, heq, hXw, hXk, hX⟩ := removeView_spec hi hV
    rw [heq] at h
    cases h
    have hgw : ∀ h : GroupId, (if (s.filter (fun w => decide (w ≠ v))).length = 0 then r.groups.erase g
          else r.groups.insert g (s.filter (fun w => decide (w ≠ v)))).get h =
        if h = g then (if (s.filter (fun w => decide (w ≠ v))).length = 0 then none
          else some (s.filter (fun w => decide (w ≠ v)))) else r.groups.get h := by
      intro h
      split
      · simp [AMap.get_erase]
      · simp [AMap.get_insert]
    have hXs : ∀ t T', X.get t = some T' → ∃ T, r.tracks.get t = some T ∧ dropView v T = some T' := by
      intro t T' h
      rw [hX t, Option.bind_eq_some_iff] at h
      exact h
    constructor
    · exact AMap.wf_erase hi.wfNames _
    · exact AMap.wf_erase hi.wfViews _
    · exact hXw
    · exact AMap.wf_erase hi.wfVG _
    · simp only
      split
      · exact AMap.wf_erase hi.wfGroups _
      · exact AMap.wf_insert hi.wfGroups _ _
    · intro w W hW
      simp only [AMap.get_erase] at hW
      split at hW
      · cases hW
      · exact hi.wfFeat w W hW
    · intro t T' hT'
      obtain ⟨T, hT, hd⟩ := hXs t T' hT'
      exact (dropView_eq_some hd).2 (hi.ndTrack t T hT)
    · intro h s' hs'
      simp only [hgw] at hs'
      split at hs'
      · split at hs'
        · cases hs'
        · cases hs'; exact (hi.ndGroup g s hs).filter _
      · exact hi.ndGroup h s' hs'
    · intro h s' hs'
      simp only [hgw] at hs'
      split at hs'
      · split at hs'
        · cases hs'
        · rename_i hne
          cases hs'
          intro h0; rw [h0] at hne; exact hne rfl
      · exact hi.neGroup h s' hs'
    · intro w t
      simp only [AMap.get_erase]
      by_cases hwv : w = v
      · subst hwv
        simp only [if_true, reduceCtorEq, false_and, exists_false, false_iff, not_exists, not_and]
        intro T' hT' hw'
        obtain ⟨T, hT, hd⟩ := hXs t T' hT'
        exact ((dropView_eq_some hd).1 w).1 hw' |>.1 rfl
      · simp only [hwv, if_false]
        rw [hi.sym w t]
        constructor
        · rintro ⟨T, hT, hwT⟩
          cases hd : dropView v T with
          | none => exact absurd (dropView_eq_none hd w hwT) hwv
          | some T' =>
            exact ⟨T', by rw [hX t, hT]; exact hd, ((dropView_eq_some hd).1 w).2 ⟨hwv, hwT⟩⟩
        · rintro ⟨T', hT', hwT'⟩
          obtain ⟨T, hT, hd⟩ := hXs t T' hT'
          exact ⟨T, hT, (((dropView_eq_some hd).1 w).1 hwT').2⟩
    · intro n w
      simp only [AMap.get_erase]
      have h1 := hi.name n w
      have h2 := hi.name V.name v
      constructor
      · intro h
        split at h
        · cases h
        · rename_i hn
          obtain ⟨W, hW, hWn⟩ := h1.1 h
          have : w ≠ v := by
            rintro rfl
            rw [hV] at hW; cases hW
            exact hn hWn.symm
          exact ⟨W, by simp [this, hW], hWn⟩
      · rintro ⟨W, hW, hWn⟩
        split at hW
        · cases hW
        · rename_i hwv
          have hnw := h1.2 ⟨W, hW, hWn⟩
          split
          · rename_i hn
            subst hn
            rw [h2.2 ⟨V, hV, rfl⟩] at hnw
            cases hnw
            exact absurd rfl hwv
          · exact hnw
    · intro w W hW
      simp only [AMap.get_erase] at hW
      split at hW
      · cases hW
      · exact hi.nameNe w W hW
    · intro w h
      simp only [hgw, AMap.get_erase]
      by_cases hwv : w = v
      · subst hwv
        simp only [if_true, reduceCtorEq, false_iff, not_exists, not_and]
        intro s' hs'
        split at hs'
        · split at hs'
          · cases hs'
          · cases hs'; simp
        · rename_i hne
          intro hw'
          have := (hi.grp w h).2 ⟨s', hs', hw'⟩
          rw [hgv] at this; cases this
          exact hne rfl
      · simp only [hwv, if_false]
        rw [hi.grp w h]
        constructor
        · rintro ⟨s', hs', hw'⟩
          by_cases hh : h = g
          · subst hh
            rw [hs] at hs'; cases hs'
            have hmem : w ∈ s.filter (fun w => decide (w ≠ v)) := by simp [hw', hwv]
            have hl : (s.filter (fun w => decide (w ≠ v))).length ≠ 0 := by
              intro h0
              rw [List.length_eq_zero_iff] at h0
              rw [h0] at hmem; cases hmem
            exact ⟨s.filter (fun w => decide (w ≠ v)), by rw [if_pos rfl, if_neg hl], hmem⟩
          · exact ⟨s', by rw [if_neg hh]; exact hs', hw'⟩
        · rintro ⟨s', hs', hw'⟩
          split at hs'
          · rename_i hh
            subst hh
            split at hs'
            · cases hs'
            · cases hs'
              exact ⟨s, hs, (List.mem_filter.1 hw').1⟩
          · exact ⟨s', hs', hw'⟩
    · intro w
      simp only [AMap.mem_keys_erase]
      rw [hi.grpDom w]
    · intro w hw
      exact hi.freshV w (AMap.mem_keys_erase.1 hw).2
    · intro t ht
      exact hi.freshT t (hXk t ht)
    · intro a b A B ga gb hA hB hga hgb
      simp only [AMap.get_erase] at hA hB hga hgb
      split at hA <;> split at hB <;> try cases hA
      all_goals try cases hB
      rename_i h1 h2
      rw [if_neg h1] at hga
      rw [if_neg h2] at hgb
      exact hi.ptr a b A B ga gb hA hB hga hgb
    · intro w W hW
      simp only [AMap.get_erase] at hW
      split at hW
      · cases hW
      · exact hi.ptrFresh w W hW

/-! ## addView -/

/-- The two ways `AddView(name, group)` can end, under the invariant. -/
theorem addViewToGroup_fail {r : Reconstruction F P} {n : String} {g : GroupId}
    (h : n ∈ r.names.keys ∨ n = "") : addViewToGroup r n g = .ok (none, r) := by
  unfold addViewToGroup
  by_cases hn : n ∈ r.names.keys
  · simp [hn]
  · have : n = "" := h.resolve_left hn
    subst this
    simp [hn]

theorem addViewToGroup_spec {r : Reconstruction F P} (hi : r.Inv) {n : String} {g : GroupId}
    (h1 : n ∉ r.names.keys) (h2 : n ≠ "") :
    ∃ intr : Nat,
      (∀ w W, r.viewGroup.get w = some g → r.views.get w = some W → W.intrinsics = intr) ∧
      (((∀ w, r.viewGroup.get w ≠ some g) ∧ intr = r.nextIntrinsics) ∨
        ∃ w W, r.viewGroup.get w = some g ∧ r.views.get w = some W ∧ W.intrinsics = intr) ∧
      addViewToGroup r n g = .ok (some r.nextViewId,
        { r with
          views := r.views.insert r.nextViewId ⟨n, false, intr, .empty⟩
          names := r.names.insert n r.nextViewId
          viewGroup := r.viewGroup.insert r.nextViewId g
          groups := r.groups.insert g (r.viewsInGroup g ++ [r.nextViewId])
          nextViewId := r.nextViewId + 1
          nextIntrinsics := r.nextIntrinsics + 1 }) := by
  have hfv : r.nextViewId ∉ r.views.keys := fun h => Nat.lt_irrefl _ (hi.freshV _ h)
  have hfg : r.nextViewId ∉ r.viewGroup.keys := fun h => hfv ((hi.grpDom _).1 h)
  have hne : n.isEmpty = false := by
    rw [Bool.eq_false_iff]; intro h; exact h2 (String.isEmpty_iff.1 h)
  have hmem : r.nextViewId ∉ (r.groups.get g).getD [] := by
    cases hs : r.groups.get g with
    | none => simp
    | some s =>
      intro h
      have := (hi.grp r.nextViewId g).2 ⟨s, hs, h⟩
      exact hfg (AMap.mem_keys_iff.2 ⟨g, this⟩)
  cases hs : (r.groups.get g).getD [] with
  | nil =>
    refine ⟨r.nextIntrinsics, ?_, Or.inl ⟨?_, rfl⟩, ?_⟩
    · intro w W hw
      obtain ⟨s, hs', hws⟩ := (hi.grp w g).1 hw
      rw [hs'] at hs; simp at hs; rw [hs] at hws; cases hws
    · intro w hw
      obtain ⟨s, hs', hws⟩ := (hi.grp w g).1 hw
      rw [hs'] at hs; simp at hs; rw [hs] at hws; cases hws
    · unfold addViewToGroup
      simp [h1, hne, hs, AMap.emplace_eq_insert hfv, AMap.emplace_eq_insert hfg,
        AMap.emplace_eq_insert h1, viewsInGroup]
  | cons w ws =>
    have hgs : r.groups.get g = some (w :: ws) := by
      cases hs' : r.groups.get g with
      | none => rw [hs'] at hs; simp at hs
      | some s => rw [hs'] at hs; simp at hs; rw [hs]
    have hgw : r.viewGroup.get w = some g := (hi.grp w g).2 ⟨_, hgs, by simp⟩
    have hkw : w ∈ r.views.keys := (hi.grpDom w).1 (AMap.mem_keys_iff.2 ⟨g, hgw⟩)
    obtain ⟨W, hW⟩ := AMap.mem_keys_iff.1 hkw
    refine ⟨W.intrinsics, ?_, Or.inr ⟨w, W, hgw, hW, rfl⟩, ?_⟩
    · intro u U hu hU
      exact (hi.ptr u w U W g g hU hW hu hgw).2 rfl
    · rw [hs] at hmem
      unfold addViewToGroup
      simp [h1, hne, hgs, hW, AMap.emplace_eq_insert hfv, AMap.emplace_eq_insert hfg,
        AMap.emplace_eq_insert h1, viewsInGroup] at hmem ⊢
      simp [hmem.1, hmem.2]

theorem inv_addViewToGroup {r : Reconstruction F P} (hi : r.Inv) {n : String} {g : GroupId}
    {o : Option ViewId} {r' : Reconstruction F P} (h : addViewToGroup r n g = .ok (o, r')) :
    r'.Inv := by
  by_cases h1 : n ∈ r.names.keys ∨ n = ""
  · rw [addViewToGroup_fail h1] at h; cases h; exact hi
  · simp only [not_or] at h1
    obtain ⟨intr, hp1, hp2, heq⟩ := addViewToGroup_spec hi (g := g) h1.1 h1.2
    rw [heq] at h
    cases h
    have hfv : r.nextViewId ∉ r.views.keys := fun h => Nat.lt_irrefl _ (hi.freshV _ h)
    have hfg : r.nextViewId ∉ r.viewGroup.keys := fun h => hfv ((hi.grpDom _).1 h)
    have hnv : r.views.get r.nextViewId = none := AMap.get_eq_none_iff.2 hfv
    have hng : r.viewGroup.get r.nextViewId = none := AMap.get_eq_none_iff.2 hfg
    have hnn : r.names.get n = none := AMap.get_eq_none_iff.2 h1.1
    have hvin : ∀ w, w ∈ r.viewsInGroup g ↔ r.viewGroup.get w = some g := by
      intro w
      rw [hi.grp w g]
      unfold viewsInGroup
      cases r.groups.get g <;> simp
    have hmem : r.nextViewId ∉ r.viewsInGroup g := by
      rw [hvin, hng]; simp
    have hvnd : (r.viewsInGroup g).Nodup := by
      unfold viewsInGroup
      cases hs : r.groups.get g with
      | none => simp
      | some s => exact hi.ndGroup g s hs
    have hplt : ∀ w W, r.viewGroup.get w = some g → r.views.get w = some W → intr < r.nextIntrinsics := by
      intro w W hw hW
      rw [← hp1 w W hw hW]; exact hi.ptrFresh w W hW
    -- pointer of any old view in another group differs
    have hdiff : ∀ w W h, r.views.get w = some W → r.viewGroup.get w = some h →
        (W.intrinsics = intr ↔ h = g) := by
      intro w W h hW hh
      constructor
      · intro he
        rcases hp2 with ⟨_, hi2⟩ | ⟨u, U, hu, hU, hUi⟩
        · have := hi.ptrFresh w W hW
          omega
        · exact (hi.ptr w u W U h g hW hU hh hu).1 (he.trans hUi.symm)
      · rintro rfl; exact hp1 w W hh hW
    constructor
    · exact AMap.wf_insert hi.wfNames _ _
    · exact AMap.wf_insert hi.wfViews _ _
    · exact hi.wfTracks
    · exact AMap.wf_insert hi.wfVG _ _
    · exact AMap.wf_insert hi.wfGroups _ _
    · intro w W hW
      simp only [AMap.get_insert] at hW
      split at hW
      · cases hW; simp
      · exact hi.wfFeat w W hW
    · exact hi.ndTrack
    · intro h s hs
      simp only [AMap.get_insert] at hs
      split at hs
      · cases hs
        rw [List.nodup_append]
        refine ⟨hvnd, by simp, ?_⟩
        intro a ha b hb
        simp only [List.mem_singleton] at hb
        rintro rfl
        subst hb
        exact hmem ha
      · exact hi.ndGroup h s hs
    · intro h s hs
      simp only [AMap.get_insert] at hs
      split at hs
      · cases hs; simp
      · exact hi.neGroup h s hs
    · intro w t
      simp only [AMap.get_insert]
      rw [← hi.sym w t]
      by_cases hw : w = r.nextViewId
      · subst hw
        simp [hnv]
      · simp [hw]
    · intro m w
      simp only [AMap.get_insert]
      by_cases hw : w = r.nextViewId
      · subst hw
        simp only [if_true, Option.some.injEq]
        constructor
        · intro h
          split at h
          · rename_i hm; exact ⟨_, rfl, hm.symm⟩
          · obtain ⟨W, hW, _⟩ := (hi.name _ _).1 h
            rw [hnv] at hW; cases hW
        · rintro ⟨W, rfl, hn⟩
          simp only at hn
          simp [hn]
      · simp only [hw, if_false]
        rw [← hi.name m w]
        split
        · rename_i hm
          subst hm
          rw [hnn]
          simp only [Option.some.injEq, reduceCtorEq, iff_false]
          exact fun h => hw h.symm
        · rfl
    · intro w W hW
      simp only [AMap.get_insert] at hW
      split at hW
      · cases hW; exact h1.2
      · exact hi.nameNe w W hW
    · intro w h
      simp only [AMap.get_insert]
      by_cases hw : w = r.nextViewId
      · subst hw
        simp only [if_true, Option.some.injEq]
        constructor
        · rintro rfl
          exact ⟨_, if_pos rfl, by simp⟩
        · rintro ⟨s, hs, hws⟩
          split at hs
          · rename_i hh; exact hh.symm
          · have := (hi.grp _ h).2 ⟨s, hs, hws⟩
            rw [hng] at this; cases this
      · simp only [hw, if_false]
        rw [hi.grp w h]
        by_cases hh : h = g
        · subst hh
          simp only [if_true, Option.some.injEq, exists_eq_left', List.mem_append, List.mem_singleton,
            hw, or_false]
          rw [hvin, hi.grp w h]
        · simp [hh]
    · intro w
      simp only [AMap.mem_keys_insert]
      rw [hi.grpDom w]
    · intro w hw
      simp only [AMap.mem_keys_insert] at hw
      rcases hw with rfl | hw
      · simp
      · exact Nat.lt_succ_of_lt (hi.freshV w hw)
    · exact hi.freshT
    · intro a b A B ga gb hA hB hga hgb
      simp only [AMap.get_insert] at hA hB hga hgb
      by_cases ha : a = r.nextViewId <;> by_cases hb : b = r.nextViewId <;>
        simp only [ha, hb, if_true, if_false] at hA hB hga hgb
      · cases hA; cases hB; cases hga; cases hgb; simp
      · cases hA; cases hga
        rw [eq_comm, hdiff b B gb hB hgb, eq_comm]
      · cases hB; cases hgb
        exact hdiff a A ga hA hga
      · exact hi.ptr a b A B ga gb hA hB hga hgb
    · intro w W hW
      simp only [AMap.get_insert] at hW
      split at hW
      · cases hW
        simp only
        rcases hp2 with ⟨_, hi2⟩ | ⟨u, U, hu, hU, _⟩
        · omega
        · have := hplt u U hu hU; omega
      · exact Nat.lt_succ_of_lt (hi.ptrFresh w W hW)

theorem addView_eq {r : Reconstruction F P} {n : String} {o : Option ViewId} {r' : Reconstruction F P}
    (h : addView r n = .ok (o, r')) :
    ∃ r1, addViewToGroup r n r.nextGroupId = .ok (o, r1) ∧
      r' = { r1 with nextGroupId := r1.nextGroupId + 1 } := by
  unfold addView at h
  split at h
  · rename_i id r1 heq; cases h; exact ⟨r1, heq, rfl⟩
  · cases h
  · cases h

theorem inv_nextGroupId {r : Reconstruction F P} (hi : r.Inv) (k : Nat) :
    ({ r with nextGroupId := k } : Reconstruction F P).Inv :=
  { wfNames := hi.wfNames, wfViews := hi.wfViews, wfTracks := hi.wfTracks, wfVG := hi.wfVG,
    wfGroups := hi.wfGroups, wfFeat := hi.wfFeat, ndTrack := hi.ndTrack, ndGroup := hi.ndGroup,
    neGroup := hi.neGroup, sym := hi.sym, name := hi.name, nameNe := hi.nameNe, grp := hi.grp,
    grpDom := hi.grpDom, freshV := hi.freshV, freshT := hi.freshT, ptr := hi.ptr,
    ptrFresh := hi.ptrFresh }

theorem inv_addView {r : Reconstruction F P} (hi : r.Inv) {n : String}
    {o : Option ViewId} {r' : Reconstruction F P} (h : addView r n = .ok (o, r')) :
    r'.Inv := by
  obtain ⟨r1, h1, rfl⟩ := addView_eq h
  exact inv_nextGroupId (inv_addViewToGroup hi h1) _

/-! ## Tracks -/

theorem inv_addEmptyTrack {r : Reconstruction F P} (hi : r.Inv) {p : P}
    {t : TrackId} {r' : Reconstruction F P} (h : addEmptyTrack r p = .ok (t, r')) : r'.Inv := by
  unfold addEmptyTrack at h
  have hft : r.nextTrackId ∉ r.tracks.keys := fun h => Nat.lt_irrefl _ (hi.freshT _ h)
  have hnt : r.tracks.get r.nextTrackId = none := AMap.get_eq_none_iff.2 hft
  split at h
  · cases h
  · cases h
    rw [AMap.emplace_eq_insert hft]
    refine { hi with wfTracks := AMap.wf_insert hi.wfTracks _ _, ndTrack := ?_, sym := ?_, freshT := ?_ }
    · intro t T hT
      simp only [AMap.get_insert] at hT
      split at hT
      · cases hT; simp
      · exact hi.ndTrack t T hT
    · intro v t
      rw [hi.sym v t]
      simp only [AMap.get_insert]
      by_cases ht : t = r.nextTrackId
      · subst ht; simp [hnt]
      · simp [ht]
    · intro t ht
      simp only [AMap.mem_keys_insert] at ht
      rcases ht with rfl | ht
      · simp
      · exact Nat.lt_succ_of_lt (hi.freshT t ht)

theorem inv_addObservation {r : Reconstruction F P} (hi : r.Inv) {v : ViewId} {t : TrackId} {f : F}
    {b : Bool} {r' : Reconstruction F P} (h : addObservation r v t f = .ok (b, r')) : r'.Inv := by
  unfold addObservation at h
  cases hV : r.views.get v with
  | none => simp [hV] at h
  | some V =>
    cases hT : r.tracks.get t with
    | none => simp [hV, hT] at h
    | some T =>
      simp only [hV, hT] at h
      split at h
      · cases h; exact hi
      · rename_i hf
        split at h
        · cases h; exact hi
        · rename_i hvT
          cases h
          have hkv : v ∈ r.views.keys := AMap.mem_keys_iff.2 ⟨V, hV⟩
          have hkt : t ∈ r.tracks.keys := AMap.mem_keys_iff.2 ⟨T, hT⟩
          refine { hi with wfViews := AMap.wf_insert hi.wfViews _ _
                           wfTracks := AMap.wf_insert hi.wfTracks _ _
                           wfFeat := ?_, ndTrack := ?_, sym := ?_, name := ?_, nameNe := ?_
                           grpDom := ?_, freshV := ?_, freshT := ?_, ptr := ?_, ptrFresh := ?_ }
          · intro w W hW
            simp only [AMap.get_insert] at hW
            split at hW
            · cases hW; exact AMap.wf_insert (hi.wfFeat v V hV) _ _
            · exact hi.wfFeat w W hW
          · intro s S hS
            simp only [AMap.get_insert] at hS
            split at hS
            · cases hS
              simp only [Track.addView, hvT, if_false]
              rw [List.nodup_append]
              refine ⟨hi.ndTrack t T hT, by simp, ?_⟩
              intro a ha b hb
              simp only [List.mem_singleton] at hb
              rintro rfl; subst hb; exact hvT ha
            · exact hi.ndTrack s S hS
          · intro w s
            simp only [AMap.get_insert]
            have h0 := hi.sym w s
            by_cases hw : w = v <;> by_cases hs : s = t
            · subst hw hs
              simp [Track.addView, hvT, View.addFeature, AMap.mem_keys_insert]
            · subst hw
              simp only [if_true, Option.some.injEq, exists_eq_left', hs, if_false, ← h0, hV]
              simp [View.addFeature, AMap.mem_keys_insert, hs]
            · subst hs
              simp only [if_true, Option.some.injEq, exists_eq_left', hw, if_false, h0, hT]
              simp [Track.addView, hvT, hw]
            · simp only [hw, hs, if_false]; exact h0
          · intro n w
            rw [hi.name n w]
            simp only [AMap.get_insert]
            by_cases hw : w = v
            · subst hw; simp [hV, View.addFeature]
            · simp [hw]
          · intro w W hW
            simp only [AMap.get_insert] at hW
            split at hW
            · cases hW; exact hi.nameNe v V hV
            · exact hi.nameNe w W hW
          · intro w
            rw [hi.grpDom w, AMap.mem_keys_insert]
            constructor
            · exact Or.inr
            · rintro (rfl | h)
              · exact hkv
              · exact h
          · intro w hw
            rw [AMap.mem_keys_insert] at hw
            rcases hw with rfl | hw
            · exact hi.freshV _ hkv
            · exact hi.freshV _ hw
          · intro s hs
            rw [AMap.mem_keys_insert] at hs
            rcases hs with rfl | hs
            · exact hi.freshT _ hkt
            · exact hi.freshT _ hs
          · intro a b A B ga gb hA hB
            have aux : ∀ a A, (r.views.insert v (V.addFeature t f)).get a = some A →
                ∃ A', r.views.get a = some A' ∧ A'.intrinsics = A.intrinsics := by
              intro a A hA
              simp only [AMap.get_insert] at hA
              split at hA
              · rename_i h
                injection hA with hA
                exact ⟨V, by rw [h]; exact hV, by rw [← hA]; rfl⟩
              · exact ⟨A, hA, rfl⟩
            obtain ⟨A', hA', ha⟩ := aux a A hA
            obtain ⟨B', hB', hb⟩ := aux b B hB
            rw [← ha, ← hb]
            exact hi.ptr a b A' B' ga gb hA' hB'
          · intro w W hW
            simp only [AMap.get_insert] at hW
            split at hW
            · cases hW; exact hi.ptrFresh v V hV
            · exact hi.ptrFresh w W hW

theorem addTrackLoop_abort (t : TrackId) (obs : List (ViewId × F)) (tr : Track P)
    (r : Reconstruction F P) (h : ∃ o ∈ obs, o.1 ∉ r.views.keys) :
    addTrackLoop t obs tr r = .abort := by
  induction obs generalizing tr r with
  | nil => simp at h
  | cons o obs ih =>
    obtain ⟨v, f⟩ := o
    unfold addTrackLoop
    cases hV : r.views.get v with
    | none => rfl
    | some V =>
      have hk : v ∈ r.views.keys := AMap.mem_keys_iff.2 ⟨V, hV⟩
      simp only
      apply ih
      obtain ⟨o, ho, hok⟩ := h
      simp only [List.mem_cons] at ho
      rcases ho with rfl | ho
      · exact absurd hk hok
      · refine ⟨o, ho, ?_⟩
        simp only [AMap.mem_keys_insert]
        rintro (h2 | h2)
        · rw [h2] at hok; exact hok hk
        · exact hok h2

theorem addTrackLoop_spec (t : TrackId) (obs : List (ViewId × F)) (tr : Track P)
    (r : Reconstruction F P) (hnd : (obs.map (·.1)).Nodup)
    (hd : ∀ o ∈ obs, o.1 ∉ tr.views) (hk : ∀ o ∈ obs, o.1 ∈ r.views.keys) :
    ∃ X : AMap ViewId (View F),
      addTrackLoop t obs tr r = .ok ({ tr with views := tr.views ++ obs.map (·.1) }, { r with views := X }) ∧
      X.keys = r.views.keys ∧
      ∀ v, X.get v = match obs.find? (fun o => decide (o.1 = v)) with
        | some o => (r.views.get v).map (fun V => V.addFeature t o.2)
        | none => r.views.get v := by
  induction obs generalizing tr r with
  | nil => exact ⟨r.views, by simp [addTrackLoop], rfl, by simp⟩
  | cons o obs ih =>
    obtain ⟨v, f⟩ := o
    have hkv := hk (v, f) (by simp)
    obtain ⟨V, hV⟩ := AMap.mem_keys_iff.1 hkv
    simp only [List.map_cons, List.nodup_cons] at hnd
    have hvt : v ∉ tr.views := hd (v, f) (by simp)
    obtain ⟨X, hX, hXk, hXg⟩ := ih (tr.addView v) { r with views := r.views.insert v (V.addFeature t f) } hnd.2
      (by
        intro o ho
        simp only [Track.addView, hvt, if_false, List.mem_append, List.mem_singleton, not_or]
        refine ⟨hd o (by simp [ho]), ?_⟩
        intro h
        exact hnd.1 (h ▸ List.mem_map_of_mem (f := (·.1)) ho))
      (by
        intro o ho
        simp only [AMap.mem_keys_insert]
        exact Or.inr (hk o (by simp [ho])))
    refine ⟨X, ?_, ?_, ?_⟩
    · simp only [addTrackLoop, hV, hX]
      simp [Track.addView, hvt]
    · rw [hXk, AMap.keys_insert, if_pos hkv]
    · intro w
      rw [hXg w]
      by_cases hw : v = w
      · subst hw
        have : obs.find? (fun o => decide (o.1 = v)) = none := by
          rw [List.find?_eq_none]
          intro o ho
          simp only [decide_eq_true_eq]
          intro h
          exact hnd.1 (h ▸ List.mem_map_of_mem (f := (·.1)) ho)
        simp [this, AMap.get_insert, hV]
      · have hw' : ¬ w = v := fun h => hw h.symm
        simp [hw, hw', AMap.get_insert]

theorem addTrack_spec {r : Reconstruction F P} (hi : r.Inv) (p : P) (obs : List (ViewId × F))
    (h2 : 2 ≤ obs.length) (hnd : (obs.map (·.1)).Nodup) (hk : ∀ o ∈ obs, o.1 ∈ r.views.keys) :
    ∃ X : AMap ViewId (View F),
      addTrack r p obs = .ok (some r.nextTrackId,
        { r with
          views := X
          tracks := r.tracks.insert r.nextTrackId ⟨false, p, obs.map (·.1)⟩
          nextTrackId := r.nextTrackId + 1 }) ∧
      X.keys = r.views.keys ∧
      ∀ v, X.get v = match obs.find? (fun o => decide (o.1 = v)) with
        | some o => (r.views.get v).map (fun V => V.addFeature r.nextTrackId o.2)
        | none => r.views.get v := by
  have hft : r.nextTrackId ∉ r.tracks.keys := fun h => Nat.lt_irrefl _ (hi.freshT _ h)
  obtain ⟨X, hX, hXk, hXg⟩ := addTrackLoop_spec r.nextTrackId obs (⟨false, p, []⟩ : Track P) r hnd
    (by simp) hk
  refine ⟨X, ?_, hXk, hXg⟩
  unfold addTrack
  have h2' : ¬ obs.length < 2 := by omega
  have hdup : duplicateViewsExist obs = false := by simp [duplicateViewsExist, hnd]
  simp only [h2', if_false, hdup, AMap.contains_iff, hft, hX]
  simp [AMap.emplace_eq_insert hft]

theorem addTrack_cases {r : Reconstruction F P} {p : P} {obs : List (ViewId × F)}
    {o : Option TrackId} {r' : Reconstruction F P} (h : addTrack r p obs = .ok (o, r')) :
    (o = none ∧ r' = r) ∨
    (2 ≤ obs.length ∧ (obs.map (·.1)).Nodup ∧ ∀ o ∈ obs, o.1 ∈ r.views.keys) := by
  by_cases h2 : obs.length < 2
  · simp only [addTrack, h2, if_true] at h; cases h; exact Or.inl ⟨rfl, rfl⟩
  · by_cases hnd : (obs.map (·.1)).Nodup
    · by_cases hk : ∀ o ∈ obs, o.1 ∈ r.views.keys
      · exact Or.inr ⟨by omega, hnd, hk⟩
      · exfalso
        simp only [Classical.not_forall] at hk
        obtain ⟨x, hx, hxk⟩ := hk
        have := addTrackLoop_abort r.nextTrackId obs (⟨false, p, []⟩ : Track P) r ⟨x, hx, hxk⟩
        have hdup : duplicateViewsExist obs = false := by simp [duplicateViewsExist, hnd]
        unfold addTrack at h
        rw [if_neg h2, if_neg (by simp [hdup])] at h
        split at h
        · cases h
        · rw [this] at h; cases h
    · have hdup : duplicateViewsExist obs = true := by simp [duplicateViewsExist, hnd]
      simp only [addTrack, h2, if_false, hdup, if_true] at h
      cases h; exact Or.inl ⟨rfl, rfl⟩

theorem inv_addTrack {r : Reconstruction F P} (hi : r.Inv) {p : P} {obs : List (ViewId × F)}
    {o : Option TrackId} {r' : Reconstruction F P} (h : addTrack r p obs = .ok (o, r')) : r'.Inv := by
  rcases addTrack_cases h with ⟨_, rfl⟩ | ⟨h2, hnd, hk⟩
  · exact hi
  · obtain ⟨X, heq, hXk, hXg⟩ := addTrack_spec hi p obs h2 hnd hk
    rw [heq] at h
    cases h
    have hft : r.nextTrackId ∉ r.tracks.keys := fun h => Nat.lt_irrefl _ (hi.freshT _ h)
    have hnt : r.tracks.get r.nextTrackId = none := AMap.get_eq_none_iff.2 hft
    have hX1 : ∀ v W, X.get v = some W → ∃ V, r.views.get v = some V ∧ W.name = V.name ∧
        W.intrinsics = V.intrinsics ∧ (V.features.WF → W.features.WF) ∧
        (∀ t, t ≠ r.nextTrackId → (t ∈ W.features.keys ↔ t ∈ V.features.keys)) ∧
        (r.nextTrackId ∈ W.features.keys ↔ v ∈ obs.map (·.1)) := by
      intro v W hW
      rw [hXg v] at hW
      split at hW
      · rename_i o ho
        rw [Option.map_eq_some_iff] at hW
        obtain ⟨V, hV, rfl⟩ := hW
        refine ⟨V, hV, rfl, rfl, fun h => AMap.wf_insert h _ _, ?_, ?_⟩
        · intro t ht
          simp [View.addFeature, AMap.mem_keys_insert, ht]
        · have h1 := List.find?_some ho
          have h2 := List.mem_of_find?_eq_some ho
          simp only [decide_eq_true_eq] at h1
          subst h1
          simp only [View.addFeature, AMap.mem_keys_insert, true_or, true_iff]
          exact List.mem_map_of_mem (f := (·.1)) h2
      · rename_i ho
        refine ⟨W, hW, rfl, rfl, id, fun _ _ => Iff.rfl, ?_⟩
        rw [List.find?_eq_none] at ho
        have hno : v ∉ obs.map (·.1) := by
          intro h
          rw [List.mem_map] at h
          obtain ⟨o, ho', rfl⟩ := h
          exact absurd (ho o ho') (by simp)
        constructor
        · intro h
          obtain ⟨T, hT, _⟩ := (hi.sym v r.nextTrackId).1 ⟨W, hW, h⟩
          rw [hnt] at hT; cases hT
        · exact fun h => absurd h hno
    have hX2 : ∀ v V, r.views.get v = some V → ∃ W, X.get v = some W := by
      intro v V hV
      rw [← AMap.mem_keys_iff, hXk, AMap.mem_keys_iff]; exact ⟨V, hV⟩
    refine { hi with wfViews := ?_, wfTracks := AMap.wf_insert hi.wfTracks _ _
                     wfFeat := ?_, ndTrack := ?_, sym := ?_, name := ?_, nameNe := ?_
                     grpDom := ?_, freshV := ?_, freshT := ?_, ptr := ?_, ptrFresh := ?_ }
    · unfold AMap.WF; rw [hXk]; exact hi.wfViews
    · intro v W hW
      obtain ⟨V, hV, _, _, hwf, _⟩ := hX1 v W hW
      exact hwf (hi.wfFeat v V hV)
    · intro t T hT
      simp only [AMap.get_insert] at hT
      split at hT
      · cases hT; exact hnd
      · exact hi.ndTrack t T hT
    · intro v t
      simp only [AMap.get_insert]
      by_cases ht : t = r.nextTrackId
      · subst ht
        simp only [if_true, Option.some.injEq, exists_eq_left']
        constructor
        · rintro ⟨W, hW, hk'⟩
          obtain ⟨V, hV, _, _, _, _, h6⟩ := hX1 v W hW
          exact h6.1 hk'
        · intro hv
          have : v ∈ r.views.keys := by
            rw [List.mem_map] at hv
            obtain ⟨o, ho, rfl⟩ := hv
            exact hk o ho
          obtain ⟨V, hV⟩ := AMap.mem_keys_iff.1 this
          obtain ⟨W, hW⟩ := hX2 v V hV
          obtain ⟨_, _, _, _, _, _, h6⟩ := hX1 v W hW
          exact ⟨W, hW, h6.2 hv⟩
      · simp only [ht, if_false]
        rw [← hi.sym v t]
        constructor
        · rintro ⟨W, hW, hk'⟩
          obtain ⟨V, hV, _, _, _, h5, _⟩ := hX1 v W hW
          exact ⟨V, hV, (h5 t ht).1 hk'⟩
        · rintro ⟨V, hV, hk'⟩
          obtain ⟨W, hW⟩ := hX2 v V hV
          obtain ⟨V', hV', _, _, _, h5, _⟩ := hX1 v W hW
          rw [hV] at hV'; cases hV'
          exact ⟨W, hW, (h5 t ht).2 hk'⟩
    · intro n v
      rw [hi.name n v]
      constructor
      · rintro ⟨V, hV, hn⟩
        obtain ⟨W, hW⟩ := hX2 v V hV
        obtain ⟨V', hV', h3, _⟩ := hX1 v W hW
        rw [hV] at hV'; cases hV'
        exact ⟨W, hW, h3.trans hn⟩
      · rintro ⟨W, hW, hn⟩
        obtain ⟨V', hV', h3, _⟩ := hX1 v W hW
        exact ⟨V', hV', h3 ▸ hn⟩
    · intro v W hW
      obtain ⟨V', hV', h3, _⟩ := hX1 v W hW
      rw [h3]; exact hi.nameNe v V' hV'
    · intro v; simp only; rw [hXk]; exact hi.grpDom v
    · intro v; simp only; rw [hXk]; exact hi.freshV v
    · intro t ht
      simp only [AMap.mem_keys_insert] at ht
      rcases ht with rfl | ht
      · simp
      · exact Nat.lt_succ_of_lt (hi.freshT t ht)
    · intro a b A B ga gb hA hB
      obtain ⟨A', hA', _, ha, _⟩ := hX1 a A hA
      obtain ⟨B', hB', _, hb, _⟩ := hX1 b B hB
      rw [ha, hb]
      exact hi.ptr a b A' B' ga gb hA' hB'
    · intro v W hW
      obtain ⟨V', hV', _, h4, _⟩ := hX1 v W hW
      rw [h4]; exact hi.ptrFresh v V' hV'

theorem inv_setViewEstimated {r : Reconstruction F P} (hi : r.Inv) {v : ViewId} {b : Bool}
    {r' : Reconstruction F P} (h : setViewEstimated r v b = .ok r') : r'.Inv := by
  unfold setViewEstimated at h
  split at h
  · cases h
  · rename_i V hV
    cases h
    have hkv : v ∈ r.views.keys := AMap.mem_keys_iff.2 ⟨V, hV⟩
    have aux : ∀ w W, (r.views.insert v { V with estimated := b }).get w = some W →
        ∃ W', r.views.get w = some W' ∧ W'.name = W.name ∧ W'.intrinsics = W.intrinsics ∧
          W'.features = W.features := by
      intro w W hW
      simp only [AMap.get_insert] at hW
      split at hW
      · rename_i h; subst h; cases hW; exact ⟨V, hV, rfl, rfl, rfl⟩
      · exact ⟨W, hW, rfl, rfl, rfl⟩
    have aux2 : ∀ w W, r.views.get w = some W →
        ∃ W', (r.views.insert v { V with estimated := b }).get w = some W' ∧ W'.name = W.name ∧
          W'.features = W.features := by
      intro w W hW
      simp only [AMap.get_insert]
      by_cases h : w = v
      · subst h; rw [hV] at hW; cases hW; exact ⟨_, if_pos rfl, rfl, rfl⟩
      · exact ⟨W, by rw [if_neg h]; exact hW, rfl, rfl⟩
    have hks : ∀ w, w ∈ (r.views.insert v { V with estimated := b }).keys ↔ w ∈ r.views.keys := by
      intro w
      rw [AMap.mem_keys_insert]
      constructor
      · rintro (rfl | h)
        · exact hkv
        · exact h
      · exact Or.inr
    refine { hi with wfViews := AMap.wf_insert hi.wfViews _ _
                     wfFeat := ?_, sym := ?_, name := ?_, nameNe := ?_
                     grpDom := ?_, freshV := ?_, ptr := ?_, ptrFresh := ?_ }
    · intro w W hW
      obtain ⟨W', hW', _, _, hf⟩ := aux w W hW
      rw [← hf]; exact hi.wfFeat w W' hW'
    · intro w t
      rw [← hi.sym w t]
      constructor
      · rintro ⟨W, hW, hk⟩
        obtain ⟨W', hW', _, _, hf⟩ := aux w W hW
        exact ⟨W', hW', hf ▸ hk⟩
      · rintro ⟨W, hW, hk⟩
        obtain ⟨W', hW', _, hf⟩ := aux2 w W hW
        exact ⟨W', hW', hf ▸ hk⟩
    · intro n w
      rw [hi.name n w]
      constructor
      · rintro ⟨W, hW, hn⟩
        obtain ⟨W', hW', hf, _⟩ := aux2 w W hW
        exact ⟨W', hW', hf.trans hn⟩
      · rintro ⟨W, hW, hn⟩
        obtain ⟨W', hW', hf, _⟩ := aux w W hW
        exact ⟨W', hW', hf.trans hn⟩
    · intro w W hW
      obtain ⟨W', hW', hf, _⟩ := aux w W hW
      rw [← hf]; exact hi.nameNe w W' hW'
    · intro w; simp only; rw [hks]; exact hi.grpDom w
    · intro w hw; exact hi.freshV w ((hks w).1 hw)
    · intro a c A C ga gc hA hC
      obtain ⟨A', hA', _, ha, _⟩ := aux a A hA
      obtain ⟨C', hC', _, hc, _⟩ := aux c C hC
      rw [← ha, ← hc]
      exact hi.ptr a c A' C' ga gc hA' hC'
    · intro w W hW
      obtain ⟨W', hW', _, hf, _⟩ := aux w W hW
      rw [← hf]; exact hi.ptrFresh w W' hW'

theorem inv_setTrackEstimated {r : Reconstruction F P} (hi : r.Inv) {t : TrackId} {b : Bool} {p : P}
    {r' : Reconstruction F P} (h : setTrackEstimated r t b p = .ok r') : r'.Inv := by
  unfold setTrackEstimated at h
  split at h
  · cases h
  · rename_i T hT
    cases h
    have hkt : t ∈ r.tracks.keys := AMap.mem_keys_iff.2 ⟨T, hT⟩
    refine { hi with wfTracks := AMap.wf_insert hi.wfTracks _ _, ndTrack := ?_, sym := ?_, freshT := ?_ }
    · intro s S hS
      simp only [AMap.get_insert] at hS
      split at hS
      · cases hS; exact hi.ndTrack t T hT
      · exact hi.ndTrack s S hS
    · intro v s
      rw [hi.sym v s]
      simp only [AMap.get_insert]
      by_cases hs : s = t
      · subst hs; simp [hT]
      · simp [hs]
    · intro s hs
      simp only [AMap.mem_keys_insert] at hs
      rcases hs with rfl | hs
      · exact hi.freshT _ hkt
      · exact hi.freshT _ hs

/-! ## Every history -/

theorem inv_step {r : Reconstruction F P} (hi : r.Inv) {op : Op F P} {a : Ret}
    {r' : Reconstruction F P} (h : r.step op = .ok (a, r')) : r'.Inv := by
  cases op with
  | addView n =>
    simp only [step] at h
    cases hx : r.addView n with
    | ok x => rw [hx] at h; cases h; exact inv_addView hi (o := x.1) (r' := x.2) hx
    | abort => rw [hx] at h; cases h
    | ub => rw [hx] at h; cases h
  | addViewToGroup n g =>
    simp only [step] at h
    cases hx : r.addViewToGroup n g with
    | ok x => rw [hx] at h; cases h; exact inv_addViewToGroup hi (o := x.1) (r' := x.2) hx
    | abort => rw [hx] at h; cases h
    | ub => rw [hx] at h; cases h
  | removeView v =>
    simp only [step] at h
    cases hx : r.removeView v with
    | ok x => rw [hx] at h; cases h; exact inv_removeView hi (b := x.1) (r' := x.2) hx
    | abort => rw [hx] at h; cases h
    | ub => rw [hx] at h; cases h
  | addEmptyTrack p =>
    simp only [step] at h
    cases hx : r.addEmptyTrack p with
    | ok x => rw [hx] at h; cases h; exact inv_addEmptyTrack hi (t := x.1) (r' := x.2) hx
    | abort => rw [hx] at h; cases h
    | ub => rw [hx] at h; cases h
  | addTrack p o =>
    simp only [step] at h
    cases hx : r.addTrack p o with
    | ok x => rw [hx] at h; cases h; exact inv_addTrack hi (o := x.1) (r' := x.2) hx
    | abort => rw [hx] at h; cases h
    | ub => rw [hx] at h; cases h
  | addObservation v t f =>
    simp only [step] at h
    cases hx : r.addObservation v t f with
    | ok x => rw [hx] at h; cases h; exact inv_addObservation hi (b := x.1) (r' := x.2) hx
    | abort => rw [hx] at h; cases h
    | ub => rw [hx] at h; cases h
  | removeTrack t =>
    simp only [step] at h
    cases h
    exact inv_removeTrack hi t
  | setViewEstimated v b =>
    simp only [step] at h
    cases hx : r.setViewEstimated v b with
    | ok x => rw [hx] at h; cases h; exact inv_setViewEstimated hi hx
    | abort => rw [hx] at h; cases h
    | ub => rw [hx] at h; cases h
  | setTrackEstimated t b p =>
    simp only [step] at h
    cases hx : r.setTrackEstimated t b p with
    | ok x => rw [hx] at h; cases h; exact inv_setTrackEstimated hi hx
    | abort => rw [hx] at h; cases h
    | ub => rw [hx] at h; cases h

theorem run_cons_ok {r : Reconstruction F P} {op : Op F P} {ops : List (Op F P)} {as : List Ret}
    {r'' : Reconstruction F P} (h : run r (op :: ops) = .ok (as, r'')) :
    ∃ a r' as', r.step op = .ok (a, r') ∧ run r' ops = .ok (as', r'') ∧ as = a :: as' := by
  unfold run at h
  split at h
  · rename_i a r' hs
    split at h
    · rename_i as' r2 hr; cases h; exact ⟨a, r', as', hs, hr, rfl⟩
    · cases h
    · cases h
  · cases h
  · cases h

theorem inv_run {r : Reconstruction F P} (hi : r.Inv) (ops : List (Op F P)) {as : List Ret}
    {r' : Reconstruction F P} (h : run r ops = .ok (as, r')) : r'.Inv := by
  induction ops generalizing r as with
  | nil => simp only [run] at h; cases h; exact hi
  | cons op ops ih =>
    obtain ⟨a, r1, as', hs, hr, rfl⟩ := run_cons_ok h
    exact ih (inv_step hi hs) hr

theorem inv_of_reachable {r : Reconstruction F P} (h : r.Reachable) : r.Inv := by
  obtain ⟨ops, as, h⟩ := h
  exact inv_run inv_empty ops h

end Reconstruction
end Theia
