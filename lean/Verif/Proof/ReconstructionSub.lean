import Verif.Proof.Reconstruction

/-! # Helper lemmas for `GetSubReconstruction` -/

namespace Theia
namespace Reconstruction

variable {F P : Type}

theorem foldl_addView (vs : List ViewId) (T : Track P) (hnd : vs.Nodup) (hd : ∀ v ∈ vs, v ∉ T.views) :
    vs.foldl Track.addView T = { T with views := T.views ++ vs } := by
  induction vs generalizing T with
  | nil => simp
  | cons v vs ih =>
    rw [List.nodup_cons] at hnd
    simp only [List.foldl_cons]
    have hv : v ∉ T.views := hd v (by simp)
    rw [ih (T.addView v) hnd.2]
    · simp [Track.addView, hv]
    · intro w hw
      simp only [Track.addView, hv, if_false, List.mem_append, List.mem_singleton, not_or]
      refine ⟨hd w (by simp [hw]), ?_⟩
      rintro rfl
      exact hnd.1 hw

/-- State after the first loop. -/
structure SubViews (r : Reconstruction F P) (done : List ViewId) (ts : List TrackId)
    (dst sub : Reconstruction F P) : Prop where
  counters : sub.nextTrackId = dst.nextTrackId ∧ sub.nextViewId = dst.nextViewId ∧
    sub.nextGroupId = dst.nextGroupId ∧ sub.nextIntrinsics = dst.nextIntrinsics ∧ sub.tracks = dst.tracks
  wf : sub.views.WF ∧ sub.names.WF ∧ sub.viewGroup.WF ∧ sub.groups.WF
  views : ∀ v, sub.views.get v = if v ∈ done then r.views.get v else none
  names : ∀ n v, sub.names.get n = some v ↔ v ∈ done ∧ r.names.get n = some v
  vg : ∀ v, sub.viewGroup.get v = if v ∈ done then r.viewGroup.get v else none
  groups : ∀ g v, (∃ s, sub.groups.get g = some s ∧ v ∈ s) ↔ v ∈ done ∧ r.viewGroup.get v = some g
  ndGroup : ∀ g s, sub.groups.get g = some s → s.Nodup ∧ s ≠ []
  tsNodup : ts.Nodup
  tsMem : ∀ t, t ∈ ts ↔ ∃ v ∈ done, ∃ V, r.views.get v = some V ∧ t ∈ V.features.keys

theorem subViewsLoop_spec {r : Reconstruction F P} (hi : r.Inv) (vs : List ViewId) :
    ∀ (done : List ViewId) (ts : List TrackId) (dst sub : Reconstruction F P),
      (done ++ vs).Nodup → SubViews r done ts dst sub →
      ∃ ts' sub', subViewsLoop r vs ts sub = .ok (ts', sub') ∧ SubViews r (done ++ vs) ts' dst sub' := by
  induction vs with
  | nil =>
    intro done ts dst sub _ h
    exact ⟨ts, sub, rfl, by simpa using h⟩
  | cons v vs ih =>
    intro done ts dst sub hnd h
    have hnd' : ((done ++ [v]) ++ vs).Nodup := by simpa using hnd
    have hvd : v ∉ done := by
      rw [List.nodup_append] at hnd
      intro hv
      exact hnd.2.2 v hv v (by simp) rfl
    cases hV : r.views.get v with
    | none =>
      have hg : r.viewGroup.get v = none := by
        rw [AMap.get_eq_none_iff, hi.grpDom, ← AMap.get_eq_none_iff]; exact hV
      have hn : ∀ n, r.names.get n ≠ some v := by
        intro n hn
        obtain ⟨V, hV', _⟩ := (hi.name n v).1 hn
        rw [hV] at hV'; cases hV'
      have h' : SubViews r (done ++ [v]) ts dst sub := by
        refine { h with views := ?_, names := ?_, vg := ?_, groups := ?_, tsMem := ?_ }
        · intro w
          rw [h.views w]
          by_cases hw : w = v
          · subst hw; simp [hV]
          · simp [hw]
        · intro n w
          rw [h.names n w]
          by_cases hw : w = v
          · subst hw; simp [hn]
          · simp [hw]
        · intro w
          rw [h.vg w]
          by_cases hw : w = v
          · subst hw; simp [hg]
          · simp [hw]
        · intro g w
          rw [h.groups g w]
          by_cases hw : w = v
          · subst hw; simp [hg]
          · simp [hw]
        · intro t
          rw [h.tsMem t]
          constructor
          · rintro ⟨w, hw, V, hV', ht⟩; exact ⟨w, by simp [hw], V, hV', ht⟩
          · rintro ⟨w, hw, V, hV', ht⟩
            simp only [List.mem_append, List.mem_singleton] at hw
            rcases hw with hw | rfl
            · exact ⟨w, hw, V, hV', ht⟩
            · rw [hV] at hV'; cases hV'
      obtain ⟨ts', sub', he, hs⟩ := ih (done ++ [v]) ts dst sub hnd' h'
      refine ⟨ts', sub', ?_, by simpa using hs⟩
      simp only [subViewsLoop, hV]
      exact he
    | some V =>
      have hkg : v ∈ r.viewGroup.keys := (hi.grpDom v).2 (AMap.mem_keys_iff.2 ⟨V, hV⟩)
      obtain ⟨g, hg⟩ := AMap.mem_keys_iff.1 hkg
      have hnm : r.names.get V.name = some v := (hi.name _ _).2 ⟨V, hV, rfl⟩
      have hmem : v ∉ (sub.groups.get g).getD [] := by
        intro hv
        cases hs : sub.groups.get g with
        | none => simp [hs] at hv
        | some s =>
          rw [hs] at hv
          exact hvd ((h.groups g v).1 ⟨s, hs, hv⟩).1
      have h' : SubViews r (done ++ [v]) (ts ++ V.trackIds.filter (fun t => decide (t ∉ ts))) dst
          { sub with
            views := sub.views.insert v V
            names := sub.names.insert V.name v
            viewGroup := sub.viewGroup.insert v g
            groups := sub.groups.insert g ((sub.groups.get g).getD [] ++ [v]) } := by
        constructor
        · exact h.counters
        · exact ⟨AMap.wf_insert h.wf.1 _ _, AMap.wf_insert h.wf.2.1 _ _,
            AMap.wf_insert h.wf.2.2.1 _ _, AMap.wf_insert h.wf.2.2.2 _ _⟩
        · intro w
          simp only [AMap.get_insert, h.views w]
          by_cases hw : w = v
          · subst hw; simp [hV]
          · simp [hw]
        · intro n w
          simp only [AMap.get_insert]
          by_cases hn : n = V.name
          · subst hn
            simp only [if_true, Option.some.injEq, List.mem_append, List.mem_singleton, hnm]
            constructor
            · rintro rfl; simp
            · exact And.right
          · simp only [hn, if_false, h.names n w, List.mem_append, List.mem_singleton]
            constructor
            · rintro ⟨h1, h2⟩; exact ⟨Or.inl h1, h2⟩
            · rintro ⟨h1 | rfl, h2⟩
              · exact ⟨h1, h2⟩
              · obtain ⟨W, hW, hWn⟩ := (hi.name n w).1 h2
                rw [hV] at hW; cases hW
                exact absurd hWn.symm hn
        · intro w
          simp only [AMap.get_insert, h.vg w]
          by_cases hw : w = v
          · subst hw; simp [hg]
          · simp [hw]
        · intro g' w
          simp only [AMap.get_insert]
          have h0 := h.groups g' w
          by_cases hgg : g' = g
          · subst hgg
            simp only [if_true, Option.some.injEq, exists_eq_left', List.mem_append, List.mem_singleton]
            by_cases hw : w = v
            · subst hw; simp [hg]
            · simp only [hw, or_false]
              rw [← h0]
              cases sub.groups.get g' <;> simp
          · simp only [hgg, if_false, h0, List.mem_append, List.mem_singleton]
            constructor
            · rintro ⟨h1, h2⟩; exact ⟨Or.inl h1, h2⟩
            · rintro ⟨h1 | rfl, h2⟩
              · exact ⟨h1, h2⟩
              · rw [hg] at h2; cases h2; exact absurd rfl hgg
        · intro g' s hs
          simp only [AMap.get_insert] at hs
          split at hs
          · cases hs
            refine ⟨?_, by simp⟩
            rw [List.nodup_append]
            refine ⟨?_, by simp, ?_⟩
            · cases hs : sub.groups.get g with
              | none => simp
              | some s => exact (h.ndGroup g s hs).1
            · intro a ha b hb
              simp only [List.mem_singleton] at hb
              rintro rfl; subst hb; exact hmem ha
          · exact h.ndGroup g' s hs
        · rw [List.nodup_append]
          refine ⟨h.tsNodup, (hi.wfFeat v V hV).filter _, ?_⟩
          intro a ha b hb
          simp only [List.mem_filter, decide_eq_true_eq] at hb
          rintro rfl; exact hb.2 ha
        · intro t
          simp only [List.mem_append, List.mem_filter, decide_eq_true_eq, h.tsMem t]
          constructor
          · rintro (⟨w, hw, W, hW, ht⟩ | ⟨ht, _⟩)
            · exact ⟨w, Or.inl hw, W, hW, ht⟩
            · exact ⟨v, Or.inr (by simp), V, hV, ht⟩
          · rintro ⟨w, hw, W, hW, ht⟩
            rcases hw with hw | hw
            · exact Or.inl ⟨w, hw, W, hW, ht⟩
            · simp only [List.mem_singleton] at hw
              subst hw
              rw [hV] at hW; cases hW
              by_cases hc : ∃ v ∈ done, ∃ V, r.views.get v = some V ∧ t ∈ V.features.keys
              · exact Or.inl hc
              · exact Or.inr ⟨ht, hc⟩
      obtain ⟨ts', sub', he, hs⟩ := ih (done ++ [v]) _ dst _ hnd' h'
      refine ⟨ts', sub', ?_, by simpa using hs⟩
      simp only [subViewsLoop, hV, hg, hmem, if_false]
      exact he

/-- What the sub-reconstruction keeps of a track. -/
def restrictTrack (s : List ViewId) (T : Track P) : Track P :=
  { T with views := s.filter (fun v => decide (v ∈ T.views)) }

theorem subTracksLoop_spec (r : Reconstruction F P) (s : List ViewId) (hs : s.Nodup) (ts : List TrackId)
    (sub : Reconstruction F P) (hnd : ts.Nodup) (hd : ∀ t ∈ ts, t ∉ sub.tracks.keys) (hw : sub.tracks.WF) :
    ∃ X : AMap TrackId (Track P), subTracksLoop r s ts sub = { sub with tracks := X } ∧ X.WF ∧
      ∀ t, X.get t = if t ∈ ts then (r.tracks.get t).map (restrictTrack s) else sub.tracks.get t := by
  induction ts generalizing sub with
  | nil => exact ⟨sub.tracks, rfl, hw, by simp⟩
  | cons t ts ih =>
    rw [List.nodup_cons] at hnd
    have htk := hd t (by simp)
    have htn : sub.tracks.get t = none := AMap.get_eq_none_iff.2 htk
    cases hT : r.tracks.get t with
    | none =>
      obtain ⟨X, hX, hXw, hXg⟩ := ih sub hnd.2 (fun t' ht' => hd t' (by simp [ht'])) hw
      refine ⟨X, by simp only [subTracksLoop, hT]; exact hX, hXw, ?_⟩
      intro t'
      rw [hXg t']
      by_cases ht' : t' = t
      · subst ht'; simp [hnd.1, hT, htn]
      · simp [ht']
    | some T =>
      have hfold : (commonViews s T.views).foldl Track.addView ⟨T.estimated, T.payload, []⟩ =
          restrictTrack s T := by
        rw [foldl_addView]
        · simp [restrictTrack, commonViews]
        · exact hs.filter _
        · simp
      obtain ⟨X, hX, hXw, hXg⟩ := ih { sub with tracks := sub.tracks.emplace t (restrictTrack s T) } hnd.2
        (by
          intro t' ht'
          simp only [AMap.mem_keys_emplace, not_or]
          refine ⟨?_, hd t' (by simp [ht'])⟩
          rintro rfl; exact hnd.1 ht')
        (AMap.wf_emplace hw _ _)
      refine ⟨X, by simp only [subTracksLoop, hT, hfold]; exact hX, hXw, ?_⟩
      intro t'
      rw [hXg t']
      simp only [AMap.emplace_eq_insert htk, AMap.get_insert]
      by_cases ht' : t' = t
      · subst ht'; simp [hnd.1, hT]
      · simp [ht']

theorem getSub_spec {r : Reconstruction F P} (hi : r.Inv) (s : List ViewId) (hs : s.Nodup) :
    ∃ sub : Reconstruction F P, getSubReconstruction r s empty = .ok sub ∧
      sub.nextTrackId = r.nextTrackId ∧ sub.nextViewId = r.nextViewId ∧
      sub.nextGroupId = r.nextGroupId ∧
      (∀ v, sub.views.get v = if v ∈ s then r.views.get v else none) ∧
      (∀ n v, sub.names.get n = some v ↔ v ∈ s ∧ r.names.get n = some v) ∧
      (∀ v, sub.viewGroup.get v = if v ∈ s then r.viewGroup.get v else none) ∧
      (∀ t, sub.tracks.get t = (r.tracks.get t).bind
        (fun T => if ∃ v ∈ s, v ∈ T.views then some (restrictTrack s T) else none)) ∧
      sub.Inv := by
  let dst : Reconstruction F P := { (empty : Reconstruction F P) with
    nextTrackId := r.nextTrackId, nextViewId := r.nextViewId, nextGroupId := r.nextGroupId
    nextIntrinsics := max (empty : Reconstruction F P).nextIntrinsics r.nextIntrinsics }
  have h0 : SubViews r [] [] dst dst := by
    constructor <;> simp [dst, empty]
  obtain ⟨ts, sub1, he, h1⟩ := subViewsLoop_spec hi s [] [] dst dst (by simpa using hs) h0
  simp only [List.nil_append] at h1
  obtain ⟨hc1, hc2, hc3, hc4, hc5⟩ := h1.counters
  have hte : sub1.tracks = .empty := by rw [hc5]; rfl
  obtain ⟨X, hX, hXw, hXg⟩ := subTracksLoop_spec r s hs ts sub1 h1.tsNodup (by simp [hte])
    (by rw [hte]; exact AMap.wf_empty)
  have hXg' : ∀ t, X.get t = (r.tracks.get t).bind
        (fun T => if ∃ v ∈ s, v ∈ T.views then some (restrictTrack s T) else none) := by
    intro t
    rw [hXg t, hte]
    cases hT : r.tracks.get t with
    | none => simp
    | some T =>
      simp only [Option.map_some, Option.bind_some, AMap.get_empty]
      have : t ∈ ts ↔ ∃ v ∈ s, v ∈ T.views := by
        rw [h1.tsMem t]
        constructor
        · rintro ⟨v, hv, V, hV, ht⟩
          obtain ⟨T', hT', hvT⟩ := (hi.sym v t).1 ⟨V, hV, ht⟩
          rw [hT] at hT'; cases hT'
          exact ⟨v, hv, hvT⟩
        · rintro ⟨v, hv, hvT⟩
          exact ⟨v, hv, (hi.sym v t).2 ⟨T, hT, hvT⟩⟩
      simp only [this]
  refine ⟨{ sub1 with tracks := X }, ?_, hc1, hc2, hc3, h1.views, h1.names, h1.vg, hXg', ?_⟩
  · unfold getSubReconstruction
    simp only
    rw [show subViewsLoop r s [] _ = .ok (ts, sub1) from he]
    simp [hX]
  · have hv : ∀ v V, sub1.views.get v = some V ↔ v ∈ s ∧ r.views.get v = some V := by
      intro v V
      rw [h1.views v]
      split <;> simp [*]
    have hvg : ∀ v g, sub1.viewGroup.get v = some g ↔ v ∈ s ∧ r.viewGroup.get v = some g := by
      intro v V
      rw [h1.vg v]
      split <;> simp [*]
    have hXs : ∀ t T', X.get t = some T' → ∃ T, r.tracks.get t = some T ∧ T' = restrictTrack s T := by
      intro t T' hT'
      rw [hXg' t, Option.bind_eq_some_iff] at hT'
      obtain ⟨T, hT, h⟩ := hT'
      split at h
      · cases h; exact ⟨T, hT, rfl⟩
      · cases h
    constructor
    · exact h1.wf.2.1
    · exact h1.wf.1
    · exact hXw
    · exact h1.wf.2.2.1
    · exact h1.wf.2.2.2
    · intro v V hV
      exact hi.wfFeat v V ((hv v V).1 hV).2
    · intro t T' hT'
      obtain ⟨T, hT, rfl⟩ := hXs t T' hT'
      exact hs.filter _
    · intro g s' hs'
      exact (h1.ndGroup g s' hs').1
    · intro g s' hs'
      exact (h1.ndGroup g s' hs').2
    · intro v t
      constructor
      · rintro ⟨V, hV, ht⟩
        obtain ⟨hvs, hV'⟩ := (hv v V).1 hV
        obtain ⟨T, hT, hvT⟩ := (hi.sym v t).1 ⟨V, hV', ht⟩
        refine ⟨restrictTrack s T, ?_, by simp [restrictTrack, hvs, hvT]⟩
        simp only [hXg' t, hT, Option.bind_some]
        exact if_pos ⟨v, hvs, hvT⟩
      · rintro ⟨T', hT', hvT'⟩
        obtain ⟨T, hT, rfl⟩ := hXs t T' hT'
        simp only [restrictTrack, List.mem_filter, decide_eq_true_eq] at hvT'
        obtain ⟨V, hV, ht⟩ := (hi.sym v t).2 ⟨T, hT, hvT'.2⟩
        exact ⟨V, (hv v V).2 ⟨hvT'.1, hV⟩, ht⟩
    · intro n v
      simp only
      rw [h1.names n v, hi.name n v]
      constructor
      · rintro ⟨h1, V, h2, h3⟩; exact ⟨V, (hv v V).2 ⟨h1, h2⟩, h3⟩
      · rintro ⟨V, h2, h3⟩
        exact ⟨((hv v V).1 h2).1, V, ((hv v V).1 h2).2, h3⟩
    · intro v V hV
      exact hi.nameNe v V ((hv v V).1 hV).2
    · intro v g
      simp only
      rw [hvg v g, h1.groups g v]
    · intro v
      simp only [AMap.mem_keys_iff]
      constructor
      · rintro ⟨g, hg⟩
        obtain ⟨h2, h3⟩ := (hvg v g).1 hg
        obtain ⟨V, hV⟩ := AMap.mem_keys_iff.1 ((hi.grpDom v).1 (AMap.mem_keys_iff.2 ⟨g, h3⟩))
        exact ⟨V, (hv v V).2 ⟨h2, hV⟩⟩
      · rintro ⟨V, hV⟩
        obtain ⟨h2, h3⟩ := (hv v V).1 hV
        obtain ⟨g, hg⟩ := AMap.mem_keys_iff.1 ((hi.grpDom v).2 (AMap.mem_keys_iff.2 ⟨V, h3⟩))
        exact ⟨g, (hvg v g).2 ⟨h2, hg⟩⟩
    · intro v hvk
      obtain ⟨V, hV⟩ := AMap.mem_keys_iff.1 hvk
      have := hi.freshV v (AMap.mem_keys_iff.2 ⟨V, ((hv v V).1 hV).2⟩)
      simp only [hc2]
      exact this
    · intro t htk
      obtain ⟨T', hT'⟩ := AMap.mem_keys_iff.1 htk
      obtain ⟨T, hT, _⟩ := hXs t T' hT'
      have := hi.freshT t (AMap.mem_keys_iff.2 ⟨T, hT⟩)
      simp only [hc1]
      exact this
    · intro a b A B ga gb hA hB hga hgb
      exact hi.ptr a b A B ga gb ((hv a A).1 hA).2 ((hv b B).1 hB).2 ((hvg a ga).1 hga).2 ((hvg b gb).1 hgb).2
    · intro v V hV
      have := hi.ptrFresh v V ((hv v V).1 hV).2
      simp only [hc4]
      exact Nat.lt_of_lt_of_le this (Nat.le_max_right _ _)

end Reconstruction
end Theia
