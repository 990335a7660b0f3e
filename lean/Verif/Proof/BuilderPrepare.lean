import Verif.Proof.BuilderFill
import Verif.Model.BuilderEstimators
import Verif.Props.Global
import Verif.Props.Incremental

/-!
# Lemmas on preparing a reconstruction, and on the estimators
-/

namespace Theia
namespace Builder

open Spec Reconstruction EstimatedPart Global
open Incremental (TwoView)

section
variable {F P M O X I : Type}

/-- The views that are left if only calibrated ones are wanted. -/
def wanted (o : Options) (s : State F P M O X I) (v : ViewId) : Bool := !o.onlyCalibrated || s.calibrated v

/-- What removing the uncalibrated views does. -/
structure Calibrated (o : Options) (s s' : State F P M O X I) : Prop where
  part : IsPart s.scene.recon s'.scene.recon
  view : ∀ v, s'.scene.recon.view v = if wanted o s v then s.scene.recon.view v else none
  trackSome : ∀ t T', s'.scene.recon.track t = some T' → ∃ T, s.scene.recon.track t = some T ∧
    T' = { T with views := T.views.filter (wanted o s) }
  trackNone : ∀ t T, s.scene.recon.track t = some T → s'.scene.recon.track t = none → T.views.filter (wanted o s) = []
  cut : Cut s.graph s'.graph (wanted o s)
  heap : s'.scene.heap = s.scene.heap
  rest : s'.calibrated = s.calibrated

variable {order : List Nat → List Nat}

theorem calibratedOnly_ok (hord : ∀ l, (order l).Perm l) (o : Options) {s : State F P M O X I} (hr : s.scene.recon.Reachable)
    (hg : IsRun s.graph) (hgv : GraphViews s.graph s.scene.recon) : ∃ s', calibratedOnly order o s = .ok s' ∧ Calibrated o s s' := by
  unfold calibratedOnly
  cases ho : o.onlyCalibrated with
  | false =>
    have e : wanted o s = fun _ => true := by funext v; simp [wanted, ho]
    refine ⟨s, rfl, ⟨.refl hr, ?_, ?_, ?_, ?_, rfl, rfl⟩⟩
    · simp [e]
    · intro t T hT; exact ⟨T, hT, by simp [e]⟩
    · intro t T h1 h2; rw [h1] at h2; cases h2
    · rw [e]; exact .refl hg
  | true =>
    obtain ⟨r', g', he, h1, h2, -⟩ := removeViews_ok true false (fun v _ => !s.calibrated v) (order s.scene.recon.viewIds) hr hg
      (fun _ => ⟨(hord _).nodup_iff.2 (inv_of_reachable hr).wfViews,
        fun v hv => AMap.mem_keys_iff.1 ((hord _).mem_iff.1 hv)⟩)
    have h2 := h2 rfl
    rw [kept_all hord] at h1 h2
    have e : ∀ v V, s.scene.recon.view v = some V → (!flagged (fun v _ => !s.calibrated v) s.scene.recon v) = wanted o s v := by
      intro v V hV
      simp [flagged, hV, wanted, ho]
    have hf : ∀ t T, s.scene.recon.track t = some T →
        T.views.filter (fun v => !flagged (fun v _ => !s.calibrated v) s.scene.recon v) = T.views.filter (wanted o s) := by
      intro t T hT
      refine List.filter_congr fun v hv => ?_
      obtain ⟨V, hV⟩ := track_view hr hT hv
      exact e v V hV
    simp only [if_true]
    unfold removeUncalibrated
    rw [he]
    refine ⟨_, rfl, ⟨isPart_restricts hr h1, ?_, ?_, ?_, ?_, rfl, rfl⟩⟩
    · intro v
      simp only
      rw [h1.view]
      cases hV : s.scene.recon.view v with
      | none => simp
      | some V => rw [e v V hV]
    · intro t T' hT'
      obtain ⟨T, hT, rfl⟩ := h1.trackSome t T' hT'
      exact ⟨T, hT, by rw [hf t T hT]⟩
    · intro t T hT hn
      rw [← hf t T hT]
      exact h1.trackNone t T hT hn
    · refine ⟨h2.run, ?_, ?_⟩
      · intro w
        rw [h2.views]
        refine and_congr_right fun hw => ?_
        obtain ⟨W, hW⟩ := hgv w (AMap.contains_iff.1 hw)
        rw [e w W hW]
      · intro a b
        simp only
        rw [h2.edges]
        cases hi : s.graph.getEdge a b with
        | none => simp
        | some i =>
          obtain ⟨ha, hb⟩ := hg.ends hi
          obtain ⟨A, hA⟩ := hgv a (AMap.contains_iff.1 ha)
          obtain ⟨B, hB⟩ := hgv b (AMap.contains_iff.1 hb)
          rw [e a A hA, e b B hB]

theorem calibrated_fresh {o : Options} {s s' : State F P M O X I} (hf : Fresh s.graph s.scene.recon) (h : Calibrated o s s') :
    Fresh s'.graph s'.scene.recon where
  graph := h.cut.run
  ids v hv := hf.ids v ((h.cut.views v).1 hv).1
  reach := h.part.reach
  new := by
    refine ⟨fun v V hV => ?_, fun t T hT => ?_⟩
    · rw [h.view] at hV
      split at hV
      · exact hf.new.1 v V hV
      · cases hV
    · obtain ⟨T', hT', rfl⟩ := h.trackSome t T hT
      exact hf.new.2 t T' hT'
  views v hv := by
    obtain ⟨h1, h2⟩ := (h.cut.views v).1 (AMap.contains_iff.2 hv)
    obtain ⟨V, hV⟩ := hf.views v (AMap.contains_iff.1 h1)
    exact ⟨V, by rw [h.view, if_pos h2, hV]⟩

variable [DecidableEq F] {swap : I → Outcome I} {o : Options} {minL maxL : Nat} {seen used : List (Matched F I)}
  {s : State F P M O X I}

omit [DecidableEq F] in
theorem reachable_buildLoop (rev : AMap Nat (ViewId × F)) (m : Nat) (p : P) (cs : List (Nat × List Nat)) :
    ∀ {r r' : Reconstruction F P}, r.Reachable → TrackBuilder.buildLoop rev m p cs r = .ok r' → r'.Reachable := by
  induction cs with
  | nil =>
    intro r r' h he
    rw [TrackBuilder.buildLoop] at he
    cases he
    exact h
  | cons c cs ih =>
    intro r r' h he
    rw [TrackBuilder.buildLoop] at he
    split at he
    · exact ih h he
    · split at he
      · cases he
      · cases he
      · rename_i track _
        split at he
        · cases he
        · cases he
        · cases he
        · rename_i t r1 h1
          exact ih (reachable_step h (op := .addTrack p track) (a := .trackId (some t)) (by simp [Reconstruction.step, h1, Outcome.bind])) he

omit [DecidableEq F] in
theorem reachable_buildTracks {b : TrackBuilder F} {p : P} {r r' : Reconstruction F P} (h : r.Reachable)
    (he : b.buildTracks p r = .ok r') : r'.Reachable := by
  unfold TrackBuilder.buildTracks at he
  split at he
  · cases he
  · cases he
  · split at he
    · cases he
    · cases he
    · exact reachable_buildLoop _ _ _ _ h he

/-- A correspondence of a used match is between two different wanted views. -/
theorem correspondence_views (h : HasMatches swap o minL maxL seen used s) {c : (ViewId × F) × (ViewId × F)}
    (hc : c ∈ used.flatMap (correspondencesOf s.scene.recon)) :
    c.1.1 ≠ c.2.1 ∧ wanted o s c.1.1 = true ∧ wanted o s c.2.1 = true ∧ (∃ V, s.scene.recon.view c.1.1 = some V) ∧
      ∃ V, s.scene.recon.view c.2.1 = some V := by
  obtain ⟨m, hm, hcm⟩ := List.mem_flatMap.1 hc
  obtain ⟨a, b, ⟨h1, h2⟩, h3, h4⟩ := h.names m hm
  unfold correspondencesOf at hcm
  rw [h1, h2] at hcm
  obtain ⟨f, hf, rfl⟩ := List.mem_map.1 hcm
  have hne := h3 (List.ne_nil_of_mem hf)
  obtain ⟨A, hA, _⟩ := name_view h.reach h1
  obtain ⟨B, hB, _⟩ := name_view h.reach h2
  refine ⟨hne, ?_, ?_, ⟨A, hA⟩, B, hB⟩
  · simp only [wanted]
    cases ho : o.onlyCalibrated with
    | false => rfl
    | true => simp [(h4 hne ho).1]
  · simp only [wanted]
    cases ho : o.onlyCalibrated with
    | false => rfl
    | true => simp [(h4 hne ho).2]

omit [DecidableEq F] in
theorem run_views (es : List (ViewId × ViewId × I)) (v : ViewId)
    (hv : v ∈ (ViewGraph.run (es.map fun e => ViewGraph.Op.addEdge e.1 e.2.1 e.2.2)).vertices.keys) :
    ∃ e ∈ es, e.1 ≠ e.2.1 ∧ (v = e.1 ∨ v = e.2.1) := by
  induction es using List.reverseRecOn with
  | nil => simp [ViewGraph.run, ViewGraph.empty, AMap.empty, AMap.keys] at hv
  | append_singleton es e ih =>
    rw [List.map_append, List.map_singleton, run_snoc, ViewGraph.step] at hv
    simp only [ViewGraph.addEdge] at hv
    split at hv
    · obtain ⟨e', he', h⟩ := ih hv
      exact ⟨e', by simp [he'], h⟩
    · rename_i hne
      simp only [AMap.mem_keys_insert] at hv
      rcases hv with hv | hv | hv
      · exact ⟨e, by simp, hne, .inr hv⟩
      · exact ⟨e, by simp, hne, .inl hv⟩
      · obtain ⟨e', he', h⟩ := ih hv
        exact ⟨e', by simp [he'], h⟩

/-- The views of the view graph are wanted and in the reconstruction. -/
theorem graph_views (h : HasMatches swap o minL maxL seen used s) {v : ViewId} (hv : v ∈ s.graph.viewIds) :
    wanted o s v = true ∧ ∃ V, s.scene.recon.view v = some V := by
  obtain ⟨es, h1, h2⟩ := h.graph
  have hv' : v ∈ s.graph.vertices.keys := hv
  rw [h2] at hv'
  obtain ⟨e, he, hne, hor⟩ := run_views es v hv'
  obtain ⟨m, hm, hedge⟩ : ∃ m ∈ used, EdgeOf swap s.scene.recon m e := by
    have : ∀ {l : List (Matched F I)} {l' : List (ViewId × ViewId × I)}, List.Forall₂ (EdgeOf swap s.scene.recon) l l' →
        e ∈ l' → ∃ m ∈ l, EdgeOf swap s.scene.recon m e := by
      intro l l' hl
      induction hl with
      | nil => intro h; cases h
      | cons hab _ ih =>
        intro hm
        rcases List.mem_cons.1 hm with rfl | hm
        · exact ⟨_, by simp, hab⟩
        · obtain ⟨m, hm, h⟩ := ih hm
          exact ⟨m, by simp [hm], h⟩
    exact this h1 he
  obtain ⟨a, b, ⟨e1, e2⟩, _, h4⟩ := h.names m hm
  have ha : e.1 = a := Option.some.inj (hedge.1.1.symm.trans e1)
  have hb : e.2.1 = b := Option.some.inj (hedge.1.2.symm.trans e2)
  rw [ha, hb] at hne hor
  obtain ⟨A, hA, _⟩ := name_view h.reach e1
  obtain ⟨B, hB, _⟩ := name_view h.reach e2
  unfold wanted
  rcases hor with rfl | rfl
  · refine ⟨?_, A, hA⟩
    cases ho : o.onlyCalibrated with
    | false => rfl
    | true => simp [(h4 hne ho).1]
  · refine ⟨?_, B, hB⟩
    cases ho : o.onlyCalibrated with
    | false => rfl
    | true => simp [(h4 hne ho).2]

/-- What `prepare` does after a history of calls. -/
theorem prepare_ok (hord : ∀ l, (order l).Perm l) (hmin : 2 ≤ minL) (hmax : 0 < maxL)
    (h : HasMatches swap o minL maxL seen used s) (hids : ValidIds s.graph) (h2 : 2 ≤ s.graph.numViews) (p : P) :
    ∃ s1 added r1, prepare order o p s = .ok s1 ∧ TracksAdded s.scene.recon p added r1 ∧
      (∀ a ∈ added, (a.2.map (·.1)).Nodup ∧ 2 ≤ a.2.length ∧ a.2.length ≤ maxL ∧
        (∀ x ∈ a.2, IsNode (used.flatMap (correspondencesOf s.scene.recon)) x) ∧
        ∀ x ∈ a.2, ∀ y ∈ a.2, Connected (used.flatMap (correspondencesOf s.scene.recon)) x y) ∧
      added.Pairwise (fun a a' => ∀ x ∈ a.2, x ∉ a'.2) ∧
      IsPart r1 s1.scene.recon ∧ (∀ v, s1.scene.recon.view v = if wanted o s v then r1.view v else none) ∧
      (∀ t, s1.scene.recon.track t = r1.track t) ∧ (∀ v, s1.graph.hasView v = s.graph.hasView v) ∧
      (∀ a b, s1.graph.getEdge a b = s.graph.getEdge a b) ∧ s1.scene.heap = s.scene.heap ∧
      Fresh s1.graph s1.scene.recon := by
  obtain ⟨b0', b', t1, t2, t3⟩ := h.tracks
  obtain ⟨b0, b, r1, added, c1, c2, c3, c4, c5, c6, -⟩ := track_builder_main minL maxL hmin hmax
    (used.flatMap (correspondencesOf s.scene.recon)) (fun c hc => (correspondence_views h hc).1) s.scene.recon h.reach
    (by
      rintro x ⟨c, hc, hx⟩
      obtain ⟨_, _, _, hA, hB⟩ := correspondence_views h hc
      rcases hx with rfl | rfl
      · exact hA
      · exact hB) p
  rw [t1] at c1
  cases c1
  rw [t2] at c2
  cases c2
  have hr1 := reachable_buildTracks h.reach c3
  have hg : IsRun s.graph := by
    obtain ⟨es, _, e⟩ := h.graph
    exact ⟨_, e⟩
  have hview : ∀ v, (∃ V, s.scene.recon.view v = some V) → ∃ V, r1.view v = some V := by
    rintro v ⟨V, hV⟩
    obtain ⟨V', hV', _⟩ := c4.views v V hV
    exact ⟨V', hV'⟩
  have hf1 : Fresh s.graph r1 := by
    refine ⟨hg, hids, hr1, ⟨?_, ?_⟩, fun v hv => hview v (graph_views h hv).2⟩
    · intro v V' hV'
      have : v ∈ s.scene.recon.viewIds := by
        rw [← c4.viewIds]
        exact AMap.mem_keys_iff.2 ⟨V', hV'⟩
      obtain ⟨V, hV⟩ := AMap.mem_keys_iff.1 this
      obtain ⟨V1, hV1, _, e, _⟩ := c4.views v V hV
      rw [hV'] at hV1
      cases hV1
      rw [e]
      exact h.new.1 v V hV
    · intro t T hT
      by_cases ht : t ∈ added.map (·.1)
      · obtain ⟨a, ha, rfl⟩ := List.mem_map.1 ht
        rw [c4.new a ha] at hT
        cases hT
        rfl
      · rw [c4.old t ht, h.noTracks] at hT
        cases hT
  obtain ⟨s1, e1, hcal⟩ := calibratedOnly_ok hord o (s := { s with scene := { s.scene with recon := r1 } }) hr1 hg hf1.views
  have hw : wanted o { s with scene := { s.scene with recon := r1 } } = wanted o s := rfl
  have hcut := hcal.cut
  have hviews : ∀ v, s1.graph.hasView v = s.graph.hasView v := by
    intro v
    cases hv : s.graph.hasView v with
    | true => exact (hcut.views v).2 ⟨hv, by rw [hw]; exact (graph_views h (AMap.contains_iff.1 hv)).1⟩
    | false =>
      cases hv' : s1.graph.hasView v with
      | false => rfl
      | true =>
        have := ((hcut.views v).1 hv').1
        rw [hv] at this
        cases this
  refine ⟨s1, added, r1, ?_, c4, c5, c6, hcal.part, hcal.view, ?_, hviews, ?_, hcal.heap, calibrated_fresh hf1 hcal⟩
  · unfold prepare
    rw [if_neg (by omega)]
    have hz : s.scene.recon.numTracks = 0 := by
      unfold numTracks
      rw [AMap.size_eq_length_keys, List.length_eq_zero_iff, List.eq_nil_iff_forall_not_mem]
      intro t ht
      obtain ⟨T, hT⟩ := AMap.mem_keys_iff.1 ht
      have := h.noTracks t
      unfold track at this
      rw [hT] at this
      cases this
    have hb : buildTracks p s = .ok { s with scene := { s.scene with recon := r1 } } := by
      unfold buildTracks
      rw [if_pos hz]
      simp only [t3, c3]
    rw [hb, Outcome.ok_bind]
    exact e1
  · intro t
    have hall : ∀ T, r1.track t = some T → 2 ≤ T.views.length ∧ T.views.filter (wanted o s) = T.views := by
      intro T hT
      by_cases ht : t ∈ added.map (·.1)
      · obtain ⟨a, ha, rfl⟩ := List.mem_map.1 ht
        rw [c4.new a ha] at hT
        cases hT
        obtain ⟨_, a2, _, a4, _⟩ := c5 a ha
        refine ⟨by simpa using a2, ?_⟩
        rw [List.filter_eq_self]
        intro v hv
        obtain ⟨x, hx, rfl⟩ := List.mem_map.1 hv
        obtain ⟨c, hc, hor⟩ := a4 x hx
        obtain ⟨_, w1, w2, _⟩ := correspondence_views h hc
        rcases hor with rfl | rfl
        · exact w1
        · exact w2
      · rw [c4.old t ht, h.noTracks] at hT
        cases hT
    cases hT : r1.track t with
    | none =>
      cases hT' : s1.scene.recon.track t with
      | none => rfl
      | some T' =>
        obtain ⟨T, hT1, _⟩ := hcal.trackSome t T' hT'
        rw [hT] at hT1
        cases hT1
    | some T =>
      obtain ⟨hlen, hfil⟩ := hall T hT
      cases hT' : s1.scene.recon.track t with
      | none =>
        have := hcal.trackNone t T hT hT'
        rw [hw, hfil] at this
        rw [this] at hlen
        simp at hlen
      | some T' =>
        obtain ⟨T1, hT1, e⟩ := hcal.trackSome t T' hT'
        have : T1 = T := Option.some.inj (hT1.symm.trans hT)
        subst this
        rw [e, hw, hfil]
  · intro a b
    rw [hcut.edges]
    cases hi : s.graph.getEdge a b with
    | none => simp
    | some i =>
      obtain ⟨ha, hb⟩ := hg.ends hi
      rw [hw, (graph_views h (AMap.contains_iff.1 ha)).1, (graph_views h (AMap.contains_iff.1 hb)).1]
      simp

end

/-! ### The estimators -/

section
variable {F P M O X L N W D C E : Type} [DecidableEq C]

theorem incremental_sound {num : Nat → Incremental.Numerics F P M O X L N W D C} (hn : ∀ k, WellBehaved (num k))
    {o : Incremental.Options} (ho : ValidOptions o) (fuel : Nat) : SoundEstimator (incremental num o fuel) := by
  intro k g scene b g' scene' hf h
  obtain ⟨ops, rfl⟩ := hf.graph
  obtain ⟨x, h1, h2⟩ := C72_estimate (num k) (hn k) o ho ops scene hf.reach hf.new hf.views fuel
  unfold incremental at h
  rw [h1] at h
  cases x with
  | none => cases h
  | some y =>
    obtain ⟨summary, s⟩ := y
    cases h
    obtain ⟨a1, a2, a3, _⟩ := h2 summary s rfl
    exact ⟨⟨ops, rfl⟩, fun _ h => h, a1, a2, a3⟩

theorem global_ok {num : Nat → Global.Numerics F P M O X L N W D C E} (hn : ∀ k, GlobalWellBehaved (num k))
    (hp : ∀ k, ¬ NeedsPairs (num k)) {o : Global.Options} (ho : 0 ≤ o.rotationTolerance) (hth : 1 ≤ o.numThreads) (k : Nat)
    {g : ViewGraph (TwoView O X L)} {scene : Localize.Scene F P M O X} (hf : Fresh g scene.recon) :
    ∃ b g' scene', global num o k g scene = .ok (b, g', scene') ∧ (∃ ops, g' = ViewGraph.run ops) ∧
      (∀ v, g'.hasView v = true → g.hasView v = true) ∧ scene'.recon.Reachable ∧ SameStructure scene.recon scene'.recon ∧
      TracksConstrained scene'.recon ∧
      (∀ a b i, g'.getEdge a b = some i → o.minMatches ≤ i.verifiedMatches ∧ ∃ i' x, g.getEdge a b = some i' ∧
        i = { i' with position2 := x }) ∧
      (∀ v, IsEstimated scene'.recon v → IsNode (pairsOf g') v) ∧
      (strongPairs o.minMatches g ≠ [] → ∃ component, BiggestComponent (strongPairs o.minMatches g) component ∧
        ∀ v, IsNode (pairsOf g') v → v ∈ component) ∧
      (b = true → strongPairs o.minMatches g ≠ [] ∨ ∀ v, ¬ IsEstimated scene'.recon v) := by
  obtain ⟨ops, rfl⟩ := hf.graph
  rcases C73_estimate_partial (num k) (hn k) o ho hth ops hf.ids scene hf.reach hf.new hf.views with
    ⟨summary, s, h1, a1, a2, a3, a4, a5, a6, _, a7, a8, _⟩ | h
  · refine ⟨summary.success, s.graph, s.scene, ?_, a4, a5, a1, a2, a3, a6, a7, a8, ?_⟩
    · unfold global
      rw [h1]
    · intro _
      by_cases hst : strongPairs o.minMatches (ViewGraph.run ops) = []
      · right
        intro v hv
        obtain ⟨w, i, hi⟩ := (IsRun.node a4).1 (a7 v hv)
        obtain ⟨hm, i', x, hi', rfl⟩ := a6 v w i hi
        have hrun : IsRun (ViewGraph.run ops) := ⟨ops, rfl⟩
        have hmem : ∀ a b, a < b → (ViewGraph.run ops).getEdge a b = some i' → False := by
          intro a b hab hi
          have : (a, b) ∈ strongPairs o.minMatches (ViewGraph.run ops) :=
            (mem_filter_pairs hrun).2 ⟨hab, i', hi, by simpa using hm⟩
          rw [hst] at this
          cases this
        rcases lt_or_gt_of_ne (hrun.ne hi') with hlt | hlt
        · exact hmem v w hlt hi'
        · exact hmem w v hlt (by rw [hrun.comm]; exact hi')
      · exact .inl hst
  · exact absurd h (hp k)

theorem global_sound {num : Nat → Global.Numerics F P M O X L N W D C E} (hn : ∀ k, GlobalWellBehaved (num k))
    (hp : ∀ k, ¬ NeedsPairs (num k)) {o : Global.Options} (ho : 0 ≤ o.rotationTolerance) (hth : 1 ≤ o.numThreads) :
    SoundEstimator (global num o) := by
  intro k g scene b g' scene' hf h
  obtain ⟨b1, g1, s1, h1, a1, a2, a3, a4, a5, _⟩ := global_ok hn hp ho hth k hf
  rw [h] at h1
  cases h1
  exact ⟨a1, a2, a3, a4, a5⟩

theorem global_returns {num : Nat → Global.Numerics F P M O X L N W D C E} (hn : ∀ k, GlobalWellBehaved (num k))
    (hp : ∀ k, ¬ NeedsPairs (num k)) {o : Global.Options} (ho : 0 ≤ o.rotationTolerance) (hth : 1 ≤ o.numThreads) :
    ReturningEstimator (global num o) := by
  intro k g scene hf
  obtain ⟨b1, g1, s1, h1, _⟩ := global_ok hn hp ho hth k hf
  exact ⟨_, h1⟩

/-- The edges of a view graph with enough matches are among those of another. -/
theorem strong_node {o : Global.Options} {g g' : ViewGraph (TwoView O X L)} (hg : IsRun g) (hg' : IsRun g')
    (he : ∀ a b i, g'.getEdge a b = some i → o.minMatches ≤ i.verifiedMatches ∧ ∃ i' x, g.getEdge a b = some i' ∧
      i = { i' with position2 := x }) {v : ViewId} (hv : IsNode (pairsOf g') v) : IsNode (strongPairs o.minMatches g) v := by
  obtain ⟨w, i, hi⟩ := hg'.node.1 hv
  obtain ⟨hm, i', x, hi', rfl⟩ := he v w i hi
  rcases lt_or_gt_of_ne (hg.ne hi') with hlt | hlt
  · exact ⟨(v, w), (mem_filter_pairs hg).2 ⟨hlt, i', hi', by simpa using hm⟩, .inl rfl⟩
  · exact ⟨(w, v), (mem_filter_pairs hg).2 ⟨hlt, i', by rw [hg.comm]; exact hi', by simpa using hm⟩, .inr rfl⟩

theorem node_of_strong {m : Int} {g g' : ViewGraph (TwoView O X L)} (hg : IsRun g) (hg' : IsRun g')
    (he : ∀ a b i, g'.getEdge a b = some i → g.getEdge a b = some i) {v : ViewId} (hv : IsNode (strongPairs m g') v) :
    IsNode (pairsOf g) v := by
  obtain ⟨⟨a, b⟩, hab, hv⟩ := hv
  obtain ⟨hlt, i, hi, _⟩ := (mem_filter_pairs hg').1 hab
  exact ⟨(a, b), hg.mem_pairs.2 ⟨hlt, i, he a b i hi⟩, hv⟩

variable {num : Nat → Global.Numerics F P M O X L N W D C E} {order : List Nat → List Nat}

/-- A pass with the global estimator. -/
theorem global_pass (hord : ∀ l, (order l).Perm l) (hn : ∀ k, GlobalWellBehaved (num k)) (hp : ∀ k, ¬ NeedsPairs (num k))
    {o : Global.Options} (ho : 0 ≤ o.rotationTolerance) (hth : 1 ≤ o.numThreads) {k : Nat}
    {s s' : State F P M O X (TwoView O X L)} {x : Output F P M O X} (hf : Fresh s.graph s.scene.recon)
    (h : pass order (global num o) k s = .ok (some x, s')) :
    ∃ g : ViewGraph (TwoView O X L), (∀ v, IsNode (pairsOf g) v → IsNode (strongPairs o.minMatches s.graph) v) ∧
      (strongPairs o.minMatches s.graph ≠ [] → ∃ component, BiggestComponent (strongPairs o.minMatches s.graph) component ∧
        ∀ v, IsNode (pairsOf g) v → v ∈ component) ∧
      (∀ v V, x.recon.view v = some V → IsNode (pairsOf g) v) ∧
      ∀ v, IsNode (strongPairs o.minMatches s'.graph) v → IsNode (pairsOf g) v := by
  obtain ⟨b, g, scene, e, a1, a2, a3, a4, a5, a6, a7, a8, _⟩ := global_ok hn hp ho hth k hf
  cases b with
  | false => rw [pass_fail e] at h; cases h
  | true =>
    obtain ⟨x1, s1, e1, p1, _, _, p2, _, p3⟩ := pass_ok hord (global_sound hn hp ho hth) hf e
    rw [h] at e1
    cases e1
    exact ⟨g, fun v hv => strong_node hf.graph a1 a6 hv, a8, fun v V hV => a7 v (p2 v V hV),
      fun v hv => node_of_strong a1 p1.fresh.graph p3 hv⟩

/-- All reconstructions are of views in pairs with enough matches. -/
theorem global_loop (hord : ∀ l, (order l).Perm l) (hn : ∀ k, GlobalWellBehaved (num k)) (hp : ∀ k, ¬ NeedsPairs (num k))
    {o : Global.Options} (ho : 0 ≤ o.rotationTolerance) (hth : 1 ≤ o.numThreads) (bo : Options) (S : ViewId → Prop) :
    ∀ fuel k (s : State F P M O X (TwoView O X L)) out b res s', Fresh s.graph s.scene.recon →
    loop order (global num o) bo fuel k s out = .ok (some (b, res, s')) →
    (∀ v, IsNode (strongPairs o.minMatches s.graph) v → S v) →
    ∃ new, res = out ++ new ∧ ∀ x ∈ new, ∀ v V, x.recon.view v = some V → S v := by
  intro fuel
  induction fuel with
  | zero => intro k s out b res s' _ h; cases h
  | succ fuel ih =>
    intro k s out b res s' hf h hS
    rw [loop] at h
    split at h
    · split at h
      · cases h
      · cases h
      · cases h
        exact ⟨[], by simp, by simp⟩
      · rename_i x s1 e
        obtain ⟨g, h1, _, h3, h4⟩ := global_pass hord hn hp ho hth hf e
        have hx : ∀ v V, x.recon.view v = some V → S v := fun v V hV => hS v (h1 v (h3 v V hV))
        split at h
        · cases h
          exact ⟨[x], rfl, by simpa using hx⟩
        · split at h
          · cases h
            exact ⟨[x], rfl, by simpa using hx⟩
          · have hf1 := (pass_passed hord (global_sound hn hp ho hth) hf e).fresh
            obtain ⟨new, e1, e2⟩ := ih _ _ _ _ _ _ hf1 h fun v hv => hS v (h1 v (h4 v hv))
            refine ⟨x :: new, by rw [e1]; simp, ?_⟩
            intro y hy
            rcases List.mem_cons.1 hy with rfl | hy
            · exact hx
            · exact e2 y hy
    · cases h
      exact ⟨[], by simp, by simp⟩

theorem global_component (hord : ∀ l, (order l).Perm l) (hn : ∀ k, GlobalWellBehaved (num k)) (hp : ∀ k, ¬ NeedsPairs (num k))
    {o : Global.Options} (ho : 0 ≤ o.rotationTolerance) (hth : 1 ≤ o.numThreads) (bo : Options) (fuel k : Nat)
    (s : State F P M O X (TwoView O X L)) (out : List (Output F P M O X)) (b : Bool) (res : List (Output F P M O X))
    (s' : State F P M O X (TwoView O X L)) (hf : Fresh s.graph s.scene.recon)
    (h : loop order (global num o) bo fuel k s out = .ok (some (b, res, s'))) (hst : strongPairs o.minMatches s.graph ≠ []) :
    ∃ new component, res = out ++ new ∧ BiggestComponent (strongPairs o.minMatches s.graph) component ∧
      ∀ x ∈ new, ∀ v V, x.recon.view v = some V → v ∈ component := by
  cases fuel with
  | zero => cases h
  | succ fuel =>
    obtain ⟨b1, g1, scene1, e1, _, _, _, _, _, _, _, c, _⟩ := global_ok hn hp ho hth k hf
    obtain ⟨comp0, hcomp0, _⟩ := c hst
    rw [loop] at h
    split at h
    · split at h
      · cases h
      · cases h
      · cases h
        exact ⟨[], comp0, by simp, hcomp0, by simp⟩
      · rename_i x s1 e
        obtain ⟨g, _, h2, h3, h4⟩ := global_pass hord hn hp ho hth hf e
        obtain ⟨comp, hcomp, hin⟩ := h2 hst
        have hx : ∀ v V, x.recon.view v = some V → v ∈ comp := fun v V hV => hin v (h3 v V hV)
        split at h
        · cases h
          exact ⟨[x], comp, rfl, hcomp, by simpa using hx⟩
        · split at h
          · cases h
            exact ⟨[x], comp, rfl, hcomp, by simpa using hx⟩
          · have hf1 := (pass_passed hord (global_sound hn hp ho hth) hf e).fresh
            obtain ⟨new, e1, e2⟩ := global_loop hord hn hp ho hth bo (· ∈ comp) _ _ _ _ _ _ _ hf1 h
              fun v hv => hin v (h4 v hv)
            refine ⟨x :: new, comp, by rw [e1]; simp, hcomp, ?_⟩
            intro y hy
            rcases List.mem_cons.1 hy with rfl | hy
            · exact hx
            · exact e2 y hy
    · cases h
      exact ⟨[], comp0, by simp, hcomp0, by simp⟩

end
end Builder
end Theia
