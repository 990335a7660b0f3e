import Verif.Proof.Builder
import Verif.Props.TrackBuilder

/-!
# Lemmas on filling a builder
-/

namespace Theia
namespace Builder

open Spec Reconstruction EstimatedPart Global

variable {F P M O X I : Type} [DecidableEq F]

/-! ### New views -/

/-- What adding a view changes. -/
structure ViewAdded (r : Reconstruction F P) (v : ViewId) (r' : Reconstruction F P) : Prop where
  reach : r'.Reachable
  fresh : r.view v = none
  names : ∀ n w, r.viewIdFromName n = some w → r'.viewIdFromName n = some w
  tracks : ∀ t, r'.track t = r.track t
  new : ∃ V, r'.view v = some V ∧ V.estimated = false
  old : ∀ w, w ≠ v → r'.view w = r.view w

omit [DecidableEq F] in
theorem viewAdded_group {r r' : Reconstruction F P} (h : r.Reachable) {n : String} {g : GroupId} {v : ViewId}
    (he : r.addViewToGroup n g = .ok (some v, r')) : ViewAdded r v r' := by
  have hi := inv_of_reachable h
  have hn : ¬ (n ∈ r.names.keys ∨ n = "") := by
    intro hn
    rw [addViewToGroup_fail hn] at he
    cases he
  rw [not_or] at hn
  have hr : r'.Reachable := reachable_step h (op := .addViewToGroup n g) (a := .viewId (some v)) (by simp [Reconstruction.step, he, Outcome.bind])
  obtain ⟨intr, _, _, heq⟩ := addViewToGroup_spec hi (g := g) hn.1 hn.2
  rw [heq] at he
  cases he
  have hfresh : r.views.get r.nextViewId = none := AMap.get_eq_none_iff.2 fun hk => Nat.lt_irrefl _ (hi.freshV _ hk)
  refine ⟨hr, hfresh, ?_, fun t => rfl, ⟨_, by simp [view, AMap.get_insert]; rfl, rfl⟩, ?_⟩
  · intro m w hm
    have : m ≠ n := by
      rintro rfl
      exact hn.1 (AMap.mem_keys_iff.2 ⟨w, hm⟩)
    simp only [viewIdFromName, AMap.get_insert] at hm ⊢
    rw [if_neg this]
    exact hm
  · intro w hw
    simp only [view, AMap.get_insert]
    rw [if_neg hw]

omit [DecidableEq F] in
theorem viewAdded {r r' : Reconstruction F P} (h : r.Reachable) {n : String} {g : Option GroupId} {v : ViewId}
    (he : newView r n g = .ok (some v, r')) : ViewAdded r v r' := by
  cases g with
  | some g => exact viewAdded_group h he
  | none =>
    have hr : r'.Reachable := reachable_step h (op := .addView n) (a := .viewId (some v)) (by
      have he' : r.addView n = .ok (some v, r') := he
      simp [Reconstruction.step, he', Outcome.bind])
    obtain ⟨r1, h1, rfl⟩ := addView_eq he
    obtain ⟨_, a2, a3, a4, a5, a6⟩ := viewAdded_group h h1
    exact ⟨hr, a2, a3, a4, a5, a6⟩

omit [DecidableEq F] in
theorem viewFailed {r r' : Reconstruction F P} (h : r.Reachable) {n : String} {g : Option GroupId}
    (he : newView r n g = .ok (none, r')) : r'.Reachable ∧ (∀ n, r'.viewIdFromName n = r.viewIdFromName n) ∧
      (∀ t, r'.track t = r.track t) ∧ ∀ v, r'.view v = r.view v := by
  have hgrp : ∀ {g : GroupId} {r1 : Reconstruction F P}, r.addViewToGroup n g = .ok (none, r1) → r1 = r := by
    intro g r1 he
    by_cases hn : n ∈ r.names.keys ∨ n = ""
    · rw [addViewToGroup_fail hn] at he
      cases he
      rfl
    · rw [not_or] at hn
      obtain ⟨intr, _, _, heq⟩ := addViewToGroup_spec (inv_of_reachable h) (g := g) hn.1 hn.2
      rw [heq] at he
      cases he
  cases g with
  | some g =>
    rw [hgrp he]
    exact ⟨h, fun _ => rfl, fun _ => rfl, fun _ => rfl⟩
  | none =>
    have hr : r'.Reachable := reachable_step h (op := .addView n) (a := .viewId none) (by
      have he' : r.addView n = .ok (none, r') := he
      simp [Reconstruction.step, he', Outcome.bind])
    obtain ⟨r1, h1, rfl⟩ := addView_eq he
    rw [hgrp h1] at *
    exact ⟨hr, fun _ => rfl, fun _ => rfl, fun _ => rfl⟩

/-! ### The calls -/

variable {swap : I → Outcome I} {o : Options} {minL maxL : Nat} {seen used : List (Matched F I)} {s s' : State F P M O X I}

/-- The names, the calibration and the reconstruction change without changing what the matches refer to. -/
theorem hasMatches_of (h : HasMatches swap o minL maxL seen used s) (hr : s'.scene.recon.Reachable)
    (hnew : NothingEstimated s'.scene.recon) (htr : ∀ t, s'.scene.recon.track t = none)
    (hnames : ∀ n v, s.scene.recon.viewIdFromName n = some v → s'.scene.recon.viewIdFromName n = some v)
    (hcal : ∀ m ∈ used, ∀ a b, MatchedViews s.scene.recon m a b → a ≠ b → s'.calibrated a = s.calibrated a ∧
      s'.calibrated b = s.calibrated b)
    (hg : s'.graph = s.graph) (ht : s'.tracks = s.tracks) : HasMatches swap o minL maxL seen used s' where
  reach := hr
  new := hnew
  noTracks := htr
  sub := h.sub
  all := h.all
  names m hm := by
    obtain ⟨a, b, h1, h2, h3⟩ := h.names m hm
    refine ⟨a, b, ⟨hnames _ _ h1.1, hnames _ _ h1.2⟩, h2, fun hab => ?_⟩
    obtain ⟨e1, e2⟩ := hcal m hm a b h1 hab
    rw [e1, e2]
    exact h3 hab
  graph := by
    obtain ⟨es, h1, h2⟩ := h.graph
    refine ⟨es, h1.imp ?_, by rw [hg, h2]⟩
    rintro m e ⟨⟨a1, a2⟩, a3⟩
    exact ⟨⟨hnames _ _ a1, hnames _ _ a2⟩, a3⟩
  tracks := by
    obtain ⟨b0, b, h1, h2, h3⟩ := h.tracks
    refine ⟨b0, b, h1, ?_, by rw [ht, h3]⟩
    rw [← h2]
    congr 1
    refine List.flatMap_congr fun m hm => ?_
    obtain ⟨a, b, ⟨e1, e2⟩, _⟩ := h.names m hm
    unfold correspondencesOf
    rw [e1, e2, hnames _ _ e1, hnames _ _ e2]

theorem hasMatches_image (h : HasMatches swap o minL maxL seen used s) {name : Option String} {group : Option GroupId}
    {prior : Option Bool} {b : Bool} (he : addImage s name group prior = .ok (b, s')) :
    HasMatches swap o minL maxL seen used s' := by
  unfold addImage at he
  cases name with
  | none => cases he
  | some n =>
    simp only at he
    split at he
    · cases he
    · cases he
    · rename_i r hn
      cases he
      obtain ⟨h1, h2, h3, h4⟩ := viewFailed h.reach hn
      refine hasMatches_of h h1 ⟨?_, ?_⟩ ?_ ?_ (fun _ _ _ _ _ _ => ⟨rfl, rfl⟩) rfl rfl
      · intro v V hV
        exact h.new.1 v V ((h4 v).symm.trans hV)
      · intro t T hT
        exact h.new.2 t T ((h3 t).symm.trans hT)
      · intro t
        exact (h3 t).trans (h.noTracks t)
      · intro m v hm
        exact (h2 m).trans hm
    · rename_i v r hn
      split at he
      · cases he
        have hv := viewAdded h.reach hn
        have hne : ∀ n w, s.scene.recon.viewIdFromName n = some w → w ≠ v := by
          rintro n w hw rfl
          obtain ⟨W, hW, _⟩ := name_view h.reach hw
          rw [hv.fresh] at hW
          cases hW
        refine hasMatches_of h hv.reach ⟨?_, ?_⟩ ?_ hv.names ?_ rfl rfl
        · intro w W hW
          by_cases hw : w = v
          · subst hw
            obtain ⟨V, hV, e⟩ := hv.new
            rw [hV] at hW
            cases hW
            exact e
          · exact h.new.1 w W ((hv.old w hw).symm.trans hW)
        · intro t T hT
          exact h.new.2 t T ((hv.tracks t).symm.trans hT)
        · intro t
          exact (hv.tracks t).trans (h.noTracks t)
        · intro m hm a b hab _
          simp only
          rw [if_neg (hne _ _ hab.1), if_neg (hne _ _ hab.2)]
          exact ⟨rfl, rfl⟩
      · cases he

theorem addAll_append (l1 l2 : List ((ViewId × F) × (ViewId × F))) : ∀ (b b1 : TrackBuilder F), b.addAll l1 = .ok b1 →
    b.addAll (l1 ++ l2) = b1.addAll l2 := by
  induction l1 with
  | nil =>
    intro b b1 h
    rw [TrackBuilder.addAll] at h
    cases h
    rfl
  | cons c l1 ih =>
    intro b b1 h
    rw [TrackBuilder.addAll] at h
    rw [List.cons_append, TrackBuilder.addAll]
    cases hc : b.addCorrespondence c.1 c.2 with
    | abort => rw [hc] at h; cases h
    | ub => rw [hc] at h; cases h
    | ok b2 =>
      rw [hc] at h
      exact ih b2 b1 h

theorem hasMatches_match (h : HasMatches swap o minL maxL seen used s) {n1 n2 : String} {info : I} {fs : List (F × F)}
    (he : addMatch swap o s n1 n2 info fs = .ok s') :
    ∃ used', HasMatches swap o minL maxL (seen ++ [(n1, n2, info, fs)]) used' s' := by
  unfold addMatch at he
  split at he
  · rename_i a b ha hb
    split at he
    · rename_i hskip
      cases he
      rw [Bool.and_eq_true] at hskip
      refine ⟨used, { h with sub := ?_, all := ?_ }⟩
      · exact h.sub.trans (List.sublist_append_left _ _)
      · intro hf
        rw [hskip.1] at hf
        cases hf
    · rename_i hskip
      split at he
      · cases he
      · cases he
      · rename_i info' hinfo
        split at he
        · cases he
        · cases he
        · rename_i tb htb
          cases he
          obtain ⟨b0, b1, t1, t2, t3⟩ := h.tracks
          obtain ⟨es, g1, g2⟩ := h.graph
          have htb' : ∃ b2, tb = some b2 ∧ b1.addAll (fs.map fun f => ((a, f.1), (b, f.2))) = .ok b2 := by
            rw [t3] at htb
            unfold addTracks at htb
            split at htb
            · cases htb
              exact ⟨b1, rfl, rfl⟩
            · rename_i e; cases e
            · rename_i e
              cases e
              split at htb
              · cases htb
              · cases htb
              · rename_i b2 hb2
                cases htb
                exact ⟨b2, rfl, hb2⟩
          obtain ⟨b2, rfl, hb2⟩ := htb'
          refine ⟨used ++ [(n1, n2, info, fs)], ⟨h.reach, h.new, h.noTracks, ?_, ?_, ?_, ?_, ?_⟩⟩
          · exact h.sub.append (List.Sublist.refl _)
          · intro hf
            rw [h.all hf]
          · intro m hm
            rcases List.mem_append.1 hm with hm | hm
            · exact h.names m hm
            · rw [List.mem_singleton.1 hm]
              refine ⟨a, b, ⟨ha, hb⟩, ?_, ?_⟩
              · rintro hfs rfl
                cases fs with
                | nil => exact hfs rfl
                | cons f fs =>
                  rw [List.map_cons, TrackBuilder.addAll, C16_same_view_aborts] at hb2
                  cases hb2
              · intro _ hc
                simp only [hc, Bool.true_and, Bool.or_eq_true, Bool.not_eq_true'] at hskip
                simpa [not_or] using hskip
          · refine ⟨es ++ [(a, b, info')], ?_, ?_⟩
            · refine List.rel_append g1 (.cons ⟨⟨ha, hb⟩, ?_⟩ .nil)
              unfold orientedInfo at hinfo
              simp only
              split at hinfo
              · rename_i hlt
                rw [if_pos hlt, hinfo]
              · rename_i hlt
                rw [if_neg hlt]
                cases hinfo
                rfl
            · rw [g2, List.map_append, List.map_singleton, run_snoc]
              rfl
          · refine ⟨b0, b2, t1, ?_, rfl⟩
            rw [List.flatMap_append, addAll_append _ _ _ _ t2, ← hb2]
            simp [correspondencesOf, ha, hb]
  · cases he

theorem hasMatches_matches (found : List (Matched F I)) : ∀ {seen used} {s s' : State F P M O X I},
    HasMatches swap o minL maxL seen used s → addMatches swap o found s = .ok s' →
    ∃ used', HasMatches swap o minL maxL (seen ++ found) used' s' := by
  induction found with
  | nil =>
    intro seen used s s' h he
    rw [addMatches] at he
    cases he
    exact ⟨used, by simpa using h⟩
  | cons m found ih =>
    intro seen used s s' h he
    obtain ⟨n1, n2, info, fs⟩ := m
    rw [addMatches] at he
    split at he
    · cases he
    · cases he
    · rename_i s1 hm
      obtain ⟨used1, h1⟩ := hasMatches_match h hm
      obtain ⟨used', h2⟩ := ih h1 he
      exact ⟨used', by simpa using h2⟩

omit [DecidableEq F] in
theorem addPriors_same (ps : List (String × Bool)) : ∀ {s s' : State F P M O X I}, addPriors ps s = .ok s' →
    s'.scene = s.scene ∧ s'.graph = s.graph ∧ s'.tracks = s.tracks := by
  induction ps with
  | nil =>
    intro s s' h
    rw [addPriors] at h
    cases h
    exact ⟨rfl, rfl, rfl⟩
  | cons x ps ih =>
    intro s s' h
    obtain ⟨n, b⟩ := x
    rw [addPriors] at h
    split at h
    · cases h
    · have := ih h
      exact this

theorem hasMatches_noViews (h : HasMatches swap o minL maxL seen used s) (hg : s.graph.numViews = 0) {m : Matched F I}
    (hm : m ∈ used) {a b : ViewId} (hab : MatchedViews s.scene.recon m a b) : a = b := by
  by_contra hne
  obtain ⟨es, h1, h2⟩ := h.graph
  obtain ⟨e, he, hedge⟩ : ∃ e ∈ es, EdgeOf swap s.scene.recon m e := by
    have : ∀ {l : List (Matched F I)} {l' : List (ViewId × ViewId × I)}, List.Forall₂ (EdgeOf swap s.scene.recon) l l' →
        m ∈ l → ∃ e ∈ l', EdgeOf swap s.scene.recon m e := by
      intro l l' hl
      induction hl with
      | nil => intro h; cases h
      | cons hab _ ih =>
        intro hm
        rcases List.mem_cons.1 hm with rfl | hm
        · exact ⟨_, by simp, hab⟩
        · obtain ⟨e, he, h⟩ := ih hm
          exact ⟨e, by simp [he], h⟩
    exact this h1 hm
  have ha : e.1 = a := Option.some.inj (hedge.1.1.symm.trans hab.1)
  have hb : e.2.1 = b := Option.some.inj (hedge.1.2.symm.trans hab.2)
  have hview : (s.graph).hasView a = true := by
    rw [h2]
    have : ∀ (l : List (ViewId × ViewId × I)), e ∈ l → ∀ ops : List (ViewGraph.Op I),
        a ∈ (ViewGraph.run (ops ++ l.map fun e => .addEdge e.1 e.2.1 e.2.2)).vertices.keys := by
      intro l hl ops
      induction l generalizing ops with
      | nil => cases hl
      | cons e' l ih =>
        rw [List.map_cons, List.append_cons]
        rcases List.mem_cons.1 hl with rfl | hl
        · clear ih
          have hstart : a ∈ (ViewGraph.run (ops ++ [.addEdge e.1 e.2.1 e.2.2])).vertices.keys := by
            rw [run_snoc, ViewGraph.step, ha, hb]
            simp only [ViewGraph.addEdge, if_neg hne]
            simp [AMap.mem_keys_insert]
          generalize ops ++ [ViewGraph.Op.addEdge e.1 e.2.1 e.2.2] = ops' at hstart
          induction l generalizing ops' with
          | nil => simpa using hstart
          | cons e' l ih =>
            rw [List.map_cons, List.append_cons]
            refine ih (by simp) _ ?_
            rw [run_snoc, ViewGraph.step]
            simp only [ViewGraph.addEdge]
            split
            · exact hstart
            · simp [AMap.mem_keys_insert, hstart]
        · exact ih hl _
    have := this es he []
    rw [List.nil_append] at this
    exact AMap.contains_iff.2 this
  have : s.graph.vertices.keys = [] := by
    unfold ViewGraph.numViews at hg
    rw [AMap.size_eq_length_keys] at hg
    exact List.eq_nil_of_length_eq_zero hg
  have hk := AMap.contains_iff.1 hview
  rw [this] at hk
  cases hk

theorem hasMatches_extract (h : HasMatches swap o minL maxL seen used s) {ps : List (String × Bool)} {found : List (Matched F I)}
    (he : extractAndMatch swap o ps found s = .ok s') : ∃ used', HasMatches swap o minL maxL (seen ++ found) used' s' := by
  unfold extractAndMatch at he
  split at he
  · rename_i hg
    split at he
    · split at he
      · cases he
      · cases he
      · rename_i s1 hp
        obtain ⟨e1, e2, e3⟩ := addPriors_same ps hp
        refine hasMatches_matches found (hasMatches_of h ?_ ?_ ?_ ?_ ?_ e2 e3) he
        · rw [e1]; exact h.reach
        · rw [e1]; exact h.new
        · rw [e1]; exact h.noTracks
        · rw [e1]; exact fun _ _ h => h
        · intro m hm a b hab hne
          exact absurd (hasMatches_noViews h hg hm hab) hne
    · cases he
  · cases he

theorem hasMatches_fill (ops : List (Op F I)) : ∀ {seen used} {s s' : State F P M O X I},
    HasMatches swap o minL maxL seen used s → fill swap o ops s = .ok s' →
    ∃ used', HasMatches swap o minL maxL (seen ++ matchesOf ops) used' s' := by
  induction ops with
  | nil =>
    intro seen used s s' h he
    rw [fill] at he
    cases he
    exact ⟨used, by simpa [matchesOf] using h⟩
  | cons op ops ih =>
    intro seen used s s' h he
    rw [fill] at he
    split at he
    · cases he
    · cases he
    · rename_i s1 hs
      cases op with
      | image n g p =>
        rw [step] at hs
        split at hs
        · cases hs
        · cases hs
        · rename_i b s2 hi
          cases hs
          exact ih (hasMatches_image h hi) he
      | matched n1 n2 i fs =>
        obtain ⟨used1, h1⟩ := hasMatches_match h hs
        obtain ⟨used2, h2⟩ := ih h1 he
        exact ⟨used2, by simpa [matchesOf] using h2⟩
      | extract ps found =>
        obtain ⟨used1, h1⟩ := hasMatches_extract h hs
        obtain ⟨used2, h2⟩ := ih h1 he
        exact ⟨used2, by simpa [matchesOf] using h2⟩

theorem hasMatches_create {heap : Nat → M} {orientation : ViewId → O} {position : ViewId → X}
    (he : create heap orientation position minL maxL = .ok s) : HasMatches swap o minL maxL [] [] s := by
  unfold create at he
  split at he
  · cases he
  · cases he
  · rename_i b hb
    cases he
    refine ⟨⟨[], [], rfl⟩, ⟨?_, ?_⟩, ?_, .refl _, fun _ => rfl, by simp, ⟨[], .nil, rfl⟩, ⟨b, b, hb, rfl, rfl⟩⟩
    · intro v V hV; cases hV
    · intro t T hT; cases hT
    · intro t; rfl

end Builder
end Theia
