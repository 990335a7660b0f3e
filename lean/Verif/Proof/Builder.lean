import Verif.Spec.Builder
import Verif.Proof.Global
import Verif.Proof.EstimatedPart
import Verif.Proof.EstimatorUtils

/-!
# Lemmas on building reconstructions
-/

namespace Theia
namespace Builder

open Spec Reconstruction EstimatedPart Global

variable {F P M O X I : Type}

/-- In the reconstruction and to be removed. -/
def flagged (bad : ViewId → View F → Bool) (r : Reconstruction F P) (v : ViewId) : Bool :=
  match r.view v with
  | some V => bad v V
  | none => false

/-- The view graph without some views. -/
structure Cut (g g' : ViewGraph I) (keep : ViewId → Bool) : Prop where
  run : IsRun g'
  views : ∀ w, g'.hasView w = true ↔ g.hasView w = true ∧ keep w = true
  edges : ∀ a b, g'.getEdge a b = if keep a && keep b then g.getEdge a b else none

theorem Cut.refl {g : ViewGraph I} (h : IsRun g) : Cut g g fun _ => true where
  run := h
  views w := by simp
  edges a b := by simp

theorem Cut.trans {g g1 g2 : ViewGraph I} {k1 k2 : ViewId → Bool} (h1 : Cut g g1 k1) (h2 : Cut g1 g2 k2) :
    Cut g g2 fun w => k1 w && k2 w where
  run := h2.run
  views w := by rw [h2.views, h1.views, Bool.and_eq_true, and_assoc]
  edges a b := by
    rw [h2.edges, h1.edges]
    cases k1 a <;> cases k1 b <;> cases k2 a <;> cases k2 b <;> simp

theorem cut_removeView {g : ViewGraph I} (h : IsRun g) (v : ViewId) : Cut g (g.removeView v).2 fun w => decide (w ≠ v) where
  run := h.removeView v
  views w := by
    have := (ViewGraph.removeView_all h.inv v).2.2 w
    unfold ViewGraph.hasView
    rw [AMap.contains_iff, AMap.contains_iff, this]
    simp [and_comm]
  edges a b := by
    have := (ViewGraph.removeView_all h.inv v).2.1 (ordPair a b)
    unfold ViewGraph.getEdge
    rw [this]
    have : ((ordPair a b).1 = v ∨ (ordPair a b).2 = v) ↔ (a = v ∨ b = v) := by
      unfold ordPair
      split <;> simp [or_comm]
    simp only [this]
    by_cases h1 : a = v
    · simp [h1]
    · by_cases h2 : b = v <;> simp [h1, h2]

/-- The views not removed. -/
def kept (bad : ViewId → View F → Bool) (r : Reconstruction F P) (vs : List ViewId) (w : ViewId) : Bool :=
  !(decide (w ∈ vs) && flagged bad r w)

theorem removeViews_ok (both checked : Bool) (bad : ViewId → View F → Bool) (vs : List ViewId) :
    ∀ {r : Reconstruction F P} {g : ViewGraph I}, r.Reachable → IsRun g →
      (checked = false → vs.Nodup ∧ ∀ v ∈ vs, ∃ V, r.view v = some V) →
      ∃ r' g', removeViews both checked bad vs r g = .ok (r', g') ∧ Restricts r r' (kept bad r vs) ∧
        (both = true → Cut g g' (kept bad r vs)) ∧ (both = false → g' = g) := by
  induction vs with
  | nil =>
    intro r g h hg _
    have e : kept bad r [] = fun _ => true := by funext w; simp [kept]
    rw [e]
    exact ⟨r, g, rfl, .refl h, fun _ => .refl hg, fun _ => rfl⟩
  | cons v vs ih =>
    intro r g h hg hc
    rw [removeViews]
    cases hV : r.view v with
    | none =>
      cases checked with
      | false =>
        obtain ⟨V, hV'⟩ := (hc rfl).2 v (by simp)
        rw [hV] at hV'
        cases hV'
      | true =>
        simp only [if_true]
        obtain ⟨r', g', he, h1, h2, h3⟩ := ih h hg (by simp)
        have e : kept bad r (v :: vs) = kept bad r vs := by
          funext w
          unfold kept
          by_cases hw : w = v
          · subst hw; simp [flagged, hV]
          · simp [hw]
        rw [e]
        exact ⟨r', g', he, h1, h2, h3⟩
    | some V =>
      simp only
      have hc' : checked = false → vs.Nodup ∧ v ∉ vs ∧ ∀ w ∈ vs, ∃ W, r.view w = some W := fun h =>
        ⟨(List.nodup_cons.1 (hc h).1).2, (List.nodup_cons.1 (hc h).1).1, fun w hw => (hc h).2 w (by simp [hw])⟩
      by_cases hb : bad v V = true
      · rw [if_pos hb]
        obtain ⟨r1, he1, hr1⟩ := restricts_removeView h hV
        rw [he1]
        simp only
        have hg1 : IsRun (if both then (g.removeView v).2 else g) := by
          split
          · exact hg.removeView v
          · exact hg
        obtain ⟨r', g', he, h1, h2, h3⟩ := ih hr1.reach hg1 (fun hf => by
          obtain ⟨n1, n2, n3⟩ := hc' hf
          refine ⟨n1, fun w hw => ?_⟩
          obtain ⟨W, hW⟩ := n3 w hw
          refine ⟨W, ?_⟩
          rw [hr1.view, if_pos, hW]
          simp only [decide_eq_true_eq]
          rintro rfl
          exact n2 hw)
        have e : kept bad r (v :: vs) = fun w => decide (w ≠ v) && kept bad r1 vs w := by
          funext w
          unfold kept
          by_cases hw : w = v
          · subst hw; simp [flagged, hV, hb]
          · have : flagged bad r1 w = flagged bad r w := by
              unfold flagged
              rw [hr1.view]
              simp [hw]
            simp [hw, this]
        rw [e]
        refine ⟨r', g', he, hr1.trans h1, ?_, ?_⟩
        · rintro rfl
          have := h2 rfl
          rw [if_pos rfl] at this
          exact (cut_removeView hg v).trans this
        · rintro rfl
          exact h3 rfl
      · rw [if_neg hb]
        obtain ⟨r', g', he, h1, h2, h3⟩ := ih h hg (fun hf => ⟨(hc' hf).1, (hc' hf).2.2⟩)
        have e : kept bad r (v :: vs) = kept bad r vs := by
          funext w
          unfold kept
          by_cases hw : w = v
          · subst hw; simp [flagged, hV, hb]
          · simp [hw]
        rw [e]
        exact ⟨r', g', he, h1, h2, h3⟩

/-- In the reconstruction and to be removed. -/
def flaggedTrack (bad : Track P → Bool) (r : Reconstruction F P) (t : TrackId) : Bool :=
  match r.track t with
  | some T => bad T
  | none => false

theorem removeTracks_ok (bad : Track P → Bool) (ts : List TrackId) : ∀ {r : Reconstruction F P}, r.Reachable →
    Drops r (removeTracks bad ts r) fun t => decide (t ∈ ts) && flaggedTrack bad r t := by
  induction ts with
  | nil =>
    intro r h
    simpa [removeTracks] using Drops.refl h
  | cons t ts ih =>
    intro r h
    rw [removeTracks]
    cases hT : r.track t with
    | none =>
      simp only
      convert ih h using 2 with s
      by_cases hs : s = t
      · subst hs; simp [flaggedTrack, hT]
      · simp [hs]
    | some T =>
      simp only
      by_cases hb : bad T = true
      · rw [if_pos hb]
        obtain ⟨r1, he1, hr1⟩ := drops_removeTrack h hT
        rw [he1]
        convert hr1.trans (ih hr1.reach) using 2 with s
        by_cases hs : s = t
        · subst hs; simp [flaggedTrack, hT, hb]
        · have : flaggedTrack bad r1 s = flaggedTrack bad r s := by
            unfold flaggedTrack
            rw [hr1.track]
            simp [hs]
          simp [hs, this]
      · rw [if_neg hb]
        convert ih h using 2 with s
        by_cases hs : s = t
        · subst hs; simp [flaggedTrack, hT, hb]
        · simp [hs]

/-! ### Parts -/

theorem feature_track {r : Reconstruction F P} (h : r.Reachable) {v : ViewId} {V : View F} (hV : r.view v = some V) {t : TrackId}
    {f : F} (hf : V.getFeature t = some f) : ∃ T, r.track t = some T ∧ v ∈ T.views :=
  ((inv_of_reachable h).sym v t).1 ⟨V, hV, AMap.mem_keys_iff.2 ⟨f, hf⟩⟩

theorem track_view {r : Reconstruction F P} (h : r.Reachable) {t : TrackId} {T : Track P} (hT : r.track t = some T) {v : ViewId}
    (hv : v ∈ T.views) : ∃ V, r.view v = some V := by
  obtain ⟨V, hV, _⟩ := ((inv_of_reachable h).sym v t).2 ⟨T, hT, hv⟩
  exact ⟨V, hV⟩

theorem name_view {r : Reconstruction F P} (h : r.Reachable) {n : String} {v : ViewId} (hn : r.viewIdFromName n = some v) :
    ∃ V, r.view v = some V ∧ V.name = n := ((inv_of_reachable h).name n v).1 hn

theorem group_view {r : Reconstruction F P} (h : r.Reachable) {v : ViewId} {g : GroupId} (hg : r.groupOf v = some g) :
    ∃ V, r.view v = some V :=
  AMap.mem_keys_iff.1 (((inv_of_reachable h).grpDom v).1 (AMap.mem_keys_iff.2 ⟨g, hg⟩))

theorem _root_.Theia.Spec.IsPart.refl {r : Reconstruction F P} (h : r.Reachable) : IsPart r r where
  reach := h
  view v V hV := ⟨V, hV, rfl, rfl, fun t f => ⟨fun hf => ⟨hf, by
    obtain ⟨T, hT, _⟩ := feature_track h hV hf
    exact ⟨T, hT⟩⟩, And.left⟩⟩
  track t T hT := ⟨T, hT, fun v => ⟨fun hv => ⟨hv, track_view h hT hv⟩, And.left⟩⟩
  names n v := ⟨fun hn => ⟨hn, (name_view h hn).imp fun _ => And.left⟩, And.left⟩
  groups v g := ⟨fun hg => ⟨hg, group_view h hg⟩, And.left⟩

theorem _root_.Theia.Spec.IsPart.trans {r p q : Reconstruction F P} (h1 : IsPart r p) (h2 : IsPart p q) : IsPart r q where
  reach := h2.reach
  view v V' hV' := by
    obtain ⟨V1, hV1, a1, a2, a3⟩ := h2.view v V' hV'
    obtain ⟨V, hV, b1, b2, b3⟩ := h1.view v V1 hV1
    refine ⟨V, hV, a1.trans b1, a2.trans b2, fun t f => ?_⟩
    rw [a3, b3]
    refine ⟨fun h => ⟨h.1.1, h.2⟩, fun h => ⟨⟨h.1, ?_⟩, h.2⟩⟩
    obtain ⟨T, hT⟩ := h.2
    obtain ⟨T1, hT1, _⟩ := h2.track t T hT
    exact ⟨T1, hT1⟩
  track t T' hT' := by
    obtain ⟨T1, hT1, a⟩ := h2.track t T' hT'
    obtain ⟨T, hT, b⟩ := h1.track t T1 hT1
    refine ⟨T, hT, fun v => ?_⟩
    rw [a, b]
    refine ⟨fun h => ⟨h.1.1, h.2⟩, fun h => ⟨⟨h.1, ?_⟩, h.2⟩⟩
    obtain ⟨V, hV⟩ := h.2
    obtain ⟨V1, hV1, _⟩ := h2.view v V hV
    exact ⟨V1, hV1⟩
  names n v := by
    rw [h2.names, h1.names]
    refine ⟨fun h => ⟨h.1.1, h.2⟩, fun h => ⟨⟨h.1, ?_⟩, h.2⟩⟩
    obtain ⟨V, hV⟩ := h.2
    obtain ⟨V1, hV1, _⟩ := h2.view v V hV
    exact ⟨V1, hV1⟩
  groups v g := by
    rw [h2.groups, h1.groups]
    refine ⟨fun h => ⟨h.1.1, h.2⟩, fun h => ⟨⟨h.1, ?_⟩, h.2⟩⟩
    obtain ⟨V, hV⟩ := h.2
    obtain ⟨V1, hV1, _⟩ := h2.view v V hV
    exact ⟨V1, hV1⟩

/-- A view of a reconstruction with the same structure. -/
theorem view_back {r r' : Reconstruction F P} (h : SameStructure r r') {v : ViewId} {V' : View F} (hV' : r'.view v = some V') :
    ∃ V b, r.view v = some V ∧ V' = { V with estimated := b } := by
  have : v ∈ r.viewIds := by
    rw [← h.viewIds]
    exact AMap.mem_keys_iff.2 ⟨V', hV'⟩
  obtain ⟨V, hV⟩ := AMap.mem_keys_iff.1 this
  obtain ⟨b, hb⟩ := h.views v V hV
  exact ⟨V, b, hV, Option.some.inj (hV'.symm.trans hb)⟩

theorem track_back {r r' : Reconstruction F P} (h : SameStructure r r') {t : TrackId} {T' : Track P} (hT' : r'.track t = some T') :
    ∃ T b p, r.track t = some T ∧ T' = { T with estimated := b, payload := p } := by
  have : t ∈ r.trackIds := by
    rw [← h.trackIds]
    exact AMap.mem_keys_iff.2 ⟨T', hT'⟩
  obtain ⟨T, hT⟩ := AMap.mem_keys_iff.1 this
  obtain ⟨b, p, hb⟩ := h.tracks t T hT
  exact ⟨T, b, p, hT, Option.some.inj (hT'.symm.trans hb)⟩

theorem isPart_same {r r' : Reconstruction F P} (h' : r'.Reachable) (h : SameStructure r r') : IsPart r r' where
  reach := h'
  view v V' hV' := by
    obtain ⟨V, b, hV, rfl⟩ := view_back h hV'
    refine ⟨V, hV, rfl, rfl, fun t f => ⟨fun hf => ⟨hf, ?_⟩, And.left⟩⟩
    obtain ⟨T, hT, _⟩ := feature_track h' hV' hf
    exact ⟨T, hT⟩
  track t T' hT' := by
    obtain ⟨T, b, p, hT, rfl⟩ := track_back h hT'
    exact ⟨T, hT, fun v => ⟨fun hv => ⟨hv, track_view h' hT' hv⟩, And.left⟩⟩
  names n v := by
    rw [h.names]
    refine ⟨fun hn => ⟨hn, ?_⟩, And.left⟩
    rw [← h.names] at hn
    exact (name_view h' hn).imp fun _ => And.left
  groups v g := by
    rw [h.groupOf]
    refine ⟨fun hg => ⟨hg, ?_⟩, And.left⟩
    rw [← h.groupOf] at hg
    exact group_view h' hg

theorem isPart_restricts {r r' : Reconstruction F P} (h0 : r.Reachable) {keep : ViewId → Bool} (h : Restricts r r' keep) :
    IsPart r r' where
  reach := h.reach
  view v V' hV' := by
    have := h.view v
    rw [hV'] at this
    by_cases hk : keep v = true
    · rw [if_pos hk] at this
      refine ⟨V', this.symm, rfl, rfl, fun t f => ⟨fun hf => ⟨hf, ?_⟩, And.left⟩⟩
      obtain ⟨T, hT, _⟩ := feature_track h.reach hV' hf
      exact ⟨T, hT⟩
    · rw [if_neg hk] at this
      cases this
  track t T' hT' := by
    obtain ⟨T, hT, rfl⟩ := h.trackSome t T' hT'
    refine ⟨T, hT, fun v => ?_⟩
    simp only [List.mem_filter]
    refine and_congr_right fun hv => ?_
    obtain ⟨V, hV⟩ := track_view h0 hT hv
    rw [h.view]
    by_cases hk : keep v = true
    · simp [hk, hV]
    · simp [hk]
  names n v := by
    rw [h.names]
    refine and_congr_right fun hn => ?_
    obtain ⟨V, hV, _⟩ := name_view h0 hn
    rw [h.view]
    by_cases hk : keep v = true
    · simp [hk, hV]
    · simp [hk]
  groups v g := by
    rw [h.groups]
    by_cases hk : keep v = true
    · rw [if_pos hk]
      refine ⟨fun hg => ⟨hg, ?_⟩, And.left⟩
      rw [h.view, if_pos hk]
      exact group_view h0 hg
    · simp [hk, h.view]

theorem isPart_drops {r r' : Reconstruction F P} (h0 : r.Reachable) {bad : TrackId → Bool} (h : Drops r r' bad) :
    IsPart r r' where
  reach := h.reach
  view v V' hV' := by
    cases hV : r.view v with
    | none => rw [h.viewNone v hV] at hV'; cases hV'
    | some V =>
      obtain ⟨V1, hV1, a1, a2, a3, a4⟩ := h.viewSome v V hV
      rw [hV'] at hV1
      cases hV1
      refine ⟨V, rfl, a1, a3, fun t f => ?_⟩
      rw [a4]
      by_cases hb : bad t = true
      · simp [hb, h.track]
      · rw [if_neg hb]
        refine ⟨fun hf => ⟨hf, ?_⟩, And.left⟩
        obtain ⟨T, hT, _⟩ := feature_track h0 hV hf
        exact ⟨T, by rw [h.track, if_neg hb, hT]⟩
  track t T' hT' := by
    have := h.track t
    rw [hT'] at this
    by_cases hb : bad t = true
    · rw [if_pos hb] at this; cases this
    · rw [if_neg hb] at this
      exact ⟨T', this.symm, fun v => ⟨fun hv => ⟨hv, track_view h.reach hT' hv⟩, And.left⟩⟩
  names n v := by
    rw [h.names]
    refine ⟨fun hn => ⟨hn, ?_⟩, And.left⟩
    rw [← h.names] at hn
    exact (name_view h.reach hn).imp fun _ => And.left
  groups v g := by
    rw [h.groups]
    refine ⟨fun hg => ⟨hg, ?_⟩, And.left⟩
    rw [← h.groups] at hg
    exact group_view h.reach hg

/-! ### One pass -/

variable {order : List Nat → List Nat}

theorem kept_all (hord : ∀ l, (order l).Perm l) (bad : ViewId → View F → Bool) (r : Reconstruction F P) :
    kept bad r (order r.viewIds) = fun w => !flagged bad r w := by
  funext w
  unfold kept flagged
  cases h : r.view w with
  | none => simp
  | some V =>
    have : w ∈ order r.viewIds := (hord _).mem_iff.2 (AMap.mem_keys_iff.2 ⟨V, h⟩)
    simp [this]

theorem flaggedTrack_all (hord : ∀ l, (order l).Perm l) (bad : Track P → Bool) (r : Reconstruction F P) :
    (fun t => decide (t ∈ order r.trackIds) && flaggedTrack bad r t) = flaggedTrack bad r := by
  funext t
  unfold flaggedTrack
  cases h : r.track t with
  | none => simp
  | some T =>
    have : t ∈ order r.trackIds := (hord _).mem_iff.2 (AMap.mem_keys_iff.2 ⟨T, h⟩)
    simp [this]

theorem estimatedPart_ok (hord : ∀ l, (order l).Perm l) {g : ViewGraph I} (hg : IsRun g) {r : Reconstruction F P}
    (hr : r.Reachable) (hc : TracksConstrained r) :
    ∃ p, estimatedPart order g r = .ok p ∧ IsPart r p ∧ AllEstimated p ∧ IsEstimatedPart r p := by
  obtain ⟨r1, g1, he, h1, -, -⟩ := removeViews_ok false true (fun _ V => !V.estimated) (order r.viewIds) hr hg (by simp)
  rw [kept_all hord] at h1
  have h2 := removeTracks_ok (fun T => !T.estimated) (order r1.trackIds) h1.reach
  rw [flaggedTrack_all hord] at h2
  unfold estimatedPart
  rw [he]
  refine ⟨_, rfl, (isPart_restricts hr h1).trans (isPart_drops h1.reach h2), ?_⟩
  generalize removeTracks (fun T => !T.estimated) (order r1.trackIds) r1 = p at h2
  have hview : ∀ v V', p.view v = some V' → ∃ V, r.view v = some V ∧ V.estimated = true ∧ V'.estimated = true := by
    intro v V' hV'
    obtain ⟨V1, hV1, -⟩ := (isPart_drops h1.reach h2).view v V' hV'
    obtain ⟨V2, hV2, -, b, -⟩ := h2.viewSome v V1 hV1
    rw [hV'] at hV2
    cases hV2
    have := h1.view v
    rw [hV1] at this
    cases hV : r.view v with
    | none => simp [hV] at this
    | some V =>
      rw [hV] at this
      cases hb : V.estimated with
      | false => simp [flagged, hV, hb] at this
      | true =>
        simp only [flagged, hV, hb, Bool.not_true, Bool.not_false, if_true] at this
        have e : V1 = V := Option.some.inj this
        exact ⟨V, rfl, hb, by rw [b, e, hb]⟩
  have hest : ∀ v, ViewEstimated r v ↔ (match r.view v with
      | some V => V.estimated
      | none => false) = true := by
    intro v
    unfold ViewEstimated
    cases hV : r.view v <;> simp
  have hkeep : ∀ v V, r.view v = some V → ((!flagged (fun _ V => !V.estimated) r v) = true ↔ V.estimated = true) := by
    intro v V hV
    simp [flagged, hV]
  have hkept : ∀ t T, r.track t = some T → (TrackKept r t ↔ T.estimated = true) := by
    intro t T hT
    constructor
    · rintro ⟨T', hT', he, _⟩
      rw [hT] at hT'
      cases hT'
      exact he
    · intro he
      have hlen := hc t T hT he
      have hnd : (estimatedObservers r T).Nodup := ((inv_of_reachable hr).ndTrack t T hT).filter _
      obtain ⟨v, w, l, hl⟩ : ∃ v w l, estimatedObservers r T = v :: w :: l := by
        match h : estimatedObservers r T, hlen with
        | v :: w :: l, _ => exact ⟨v, w, l, rfl⟩
      have hv : v ∈ estimatedObservers r T := by rw [hl]; simp
      have hw : w ∈ estimatedObservers r T := by rw [hl]; simp
      rw [hl] at hnd
      simp only [estimatedObservers, List.mem_filter] at hv hw
      refine ⟨T, hT, he, v, w, ?_, hv.1, hw.1, (hest v).2 hv.2, (hest w).2 hw.2⟩
      rintro rfl
      simp at hnd
  have hfilter : ∀ t T, r.track t = some T → T.views.filter (fun w => !flagged (fun _ V => !V.estimated) r w) =
      estimatedObservers r T := by
    intro t T hT
    refine List.filter_congr fun w hw => ?_
    obtain ⟨W, hW⟩ := track_view hr hT hw
    simp [flagged, hW]
  have htrack : ∀ t T, r.track t = some T → T.estimated = true →
      p.track t = some { T with views := estimatedObservers r T } := by
    intro t T hT he
    rw [h2.track]
    cases hT1 : r1.track t with
    | none =>
      have := h1.trackNone t T hT hT1
      rw [hfilter t T hT] at this
      have hlen := hc t T hT he
      rw [this] at hlen
      simp at hlen
    | some T1 =>
      obtain ⟨T0, hT0, rfl⟩ := h1.trackSome t T1 hT1
      rw [hT] at hT0
      cases hT0
      rw [hfilter t T hT]
      simp [flaggedTrack, hT1, he]
  have htracks : ∀ t T', p.track t = some T' → ∃ T, r.track t = some T ∧ T.estimated = true ∧
      T' = { T with views := estimatedObservers r T } := by
    intro t T' hT'
    have := hT'
    rw [h2.track] at this
    cases hT1 : r1.track t with
    | none => simp [hT1] at this
    | some T1 =>
      obtain ⟨T, hT, e⟩ := h1.trackSome t T1 hT1
      rw [hfilter t T hT] at e
      cases hb : T1.estimated with
      | false => simp [flaggedTrack, hT1, hb] at this
      | true =>
        simp only [flaggedTrack, hT1, hb, Bool.not_true] at this
        have e' : T1 = T' := by simpa using this
        refine ⟨T, hT, ?_, by rw [← e', e]⟩
        rw [e] at hb
        exact hb
  refine ⟨⟨fun v V' hV' => (hview v V' hV').elim fun V h => h.2.2, ?_⟩, ?_⟩
  · intro t T' hT'
    obtain ⟨T, hT, he, rfl⟩ := htracks t T' hT'
    exact ⟨he, hc t T hT he⟩
  · refine ⟨fun v V' hV' => (hview v V' hV').imp fun V h => ⟨h.1, h.2.1⟩, ?_, ?_, ?_, ?_, ?_⟩
    · intro v V hV he
      have hV1 : r1.view v = some V := by rw [h1.view, if_pos ((hkeep v V hV).2 he), hV]
      obtain ⟨V', hV', a1, a2, a3, a4⟩ := h2.viewSome v V hV1
      refine ⟨V', hV', a1, a2.trans he, a3, fun t f => ?_⟩
      rw [a4]
      constructor
      · intro h
        split at h
        · cases h
        · rename_i hb
          obtain ⟨T1, hT1, _⟩ := feature_track h1.reach hV1 h
          obtain ⟨T, hT, e⟩ := h1.trackSome t T1 hT1
          refine ⟨h, (hkept t T hT).2 ?_⟩
          have : T1.estimated = true := by simpa [flaggedTrack, hT1] using hb
          rw [e] at this
          exact this
      · rintro ⟨hf, hk⟩
        obtain ⟨T, hT, _⟩ := feature_track hr hV hf
        have hT' := htrack t T hT ((hkept t T hT).1 hk)
        rw [if_neg, hf]
        intro hb
        rw [h2.track, if_pos hb] at hT'
        cases hT'
    · intro t T' hT'
      obtain ⟨T, hT, he, _⟩ := htracks t T' hT'
      exact (hkept t T hT).2 he
    · intro t T hT hk
      have he := (hkept t T hT).1 hk
      refine ⟨_, htrack t T hT he, he, rfl, ((inv_of_reachable hr).ndTrack t T hT).filter _, fun v => ?_⟩
      simp only [estimatedObservers, List.mem_filter]
      exact and_congr_right fun _ => (hest v).symm
    · intro n v
      rw [h2.names, h1.names]
      refine and_congr_right fun hn => ?_
      obtain ⟨V, hV, _⟩ := name_view hr hn
      rw [hkeep v V hV, hest, hV]
    · intro v g
      rw [h2.groups, h1.groups]
      constructor
      · intro h
        split at h
        · rename_i hk
          obtain ⟨V, hV⟩ := group_view hr h
          exact ⟨h, V, hV, (hkeep v V hV).1 hk⟩
        · cases h
      · rintro ⟨h, V, hV, he⟩
        rw [if_pos ((hkeep v V hV).2 he), h]

theorem removeEstimated_ok (hord : ∀ l, (order l).Perm l) {g : ViewGraph I} (hg : IsRun g) {r : Reconstruction F P}
    (hr : r.Reachable) :
    ∃ r' g', removeEstimated order r g = .ok (r', g') ∧ IsPart r r' ∧ NothingEstimated r' ∧
      (∀ v V, r.view v = some V → V.estimated = false → ∃ V', r'.view v = some V') ∧
      (∀ v V', r'.view v = some V' → ∃ V, r.view v = some V ∧ V.estimated = false) ∧
      (∀ t T', r'.track t = some T' → ∃ T, r.track t = some T ∧ T.estimated = false) ∧
      Cut g g' fun v => !flagged (fun _ V => V.estimated) r v := by
  obtain ⟨r1, g1, he, h1, h3, -⟩ := removeViews_ok true true (fun _ V => V.estimated) (order r.viewIds) hr hg (by simp)
  rw [kept_all hord] at h1 h3
  have h2 := removeTracks_ok (fun T => T.estimated) (order r1.trackIds) h1.reach
  rw [flaggedTrack_all hord] at h2
  unfold removeEstimated
  rw [he]
  have hview : ∀ v V', (removeTracks (fun T => T.estimated) (order r1.trackIds) r1).view v = some V' →
      ∃ V, r.view v = some V ∧ V.estimated = false ∧ V'.estimated = false := by
    intro v V' hV'
    obtain ⟨V1, hV1, -⟩ := (isPart_drops h1.reach h2).view v V' hV'
    obtain ⟨V2, hV2, -, b, -⟩ := h2.viewSome v V1 hV1
    rw [hV'] at hV2
    cases hV2
    have := h1.view v
    rw [hV1] at this
    rw [b]
    cases hV : r.view v with
    | none => simp [hV] at this
    | some V =>
      rw [hV] at this
      cases hb : V.estimated with
      | true => simp [flagged, hV, hb] at this
      | false =>
        simp only [flagged, hV, hb, Bool.not_false, if_true] at this
        have e : V1 = V := Option.some.inj this
        exact ⟨V, rfl, hb, by rw [e, hb]⟩
  have htrack : ∀ t T', (removeTracks (fun T => T.estimated) (order r1.trackIds) r1).track t = some T' →
      ∃ T, r.track t = some T ∧ T.estimated = false ∧ T'.estimated = false := by
    intro t T' hT'
    rw [h2.track] at hT'
    cases hT1 : r1.track t with
    | none => simp [hT1] at hT'
    | some T1 =>
      cases hb : T1.estimated with
      | true => simp [flaggedTrack, hT1, hb] at hT'
      | false =>
        simp only [flaggedTrack, hT1, hb] at hT'
        have e : T1 = T' := by simpa using hT'
        obtain ⟨T, hT, e'⟩ := h1.trackSome t T1 hT1
        refine ⟨T, hT, ?_, by rw [← e, hb]⟩
        rw [e'] at hb
        exact hb
  refine ⟨_, _, rfl, (isPart_restricts hr h1).trans (isPart_drops h1.reach h2),
    ⟨fun v V' h => (hview v V' h).elim fun _ h => h.2.2, fun t T' h => (htrack t T' h).elim fun _ h => h.2.2⟩, ?_,
    fun v V' h => (hview v V' h).imp fun _ h => ⟨h.1, h.2.1⟩, fun t T' h => (htrack t T' h).imp fun _ h => ⟨h.1, h.2.1⟩, h3 rfl⟩
  intro v V hV he
  have hV1 : r1.view v = some V := by rw [h1.view, hV]; simp [flagged, hV, he]
  obtain ⟨V', hV', _⟩ := h2.viewSome v V hV1
  exact ⟨V', hV'⟩

variable {est : Estimator F P M O X I}

/-- What a successful pass does. -/
structure Passed (est : Estimator F P M O X I) (s : State F P M O X I) (x : Output F P M O X) (s' : State F P M O X I) : Prop where
  fresh : Fresh s'.graph s'.scene.recon
  out : IsPart s.scene.recon x.recon
  all : AllEstimated x.recon
  rest : IsPart s.scene.recon s'.scene.recon
  apart : Apart x.recon s'.scene.recon
  cover : ∀ v V, s.scene.recon.view v = some V → (∃ V', x.recon.view v = some V') ∨ ∃ V', s'.scene.recon.view v = some V'
  comes : ComesFrom est x
  heap : s'.scene.heap = x.intrinsics

theorem pass_fail {k : Nat} {s : State F P M O X I} {g : ViewGraph I} {scene : Localize.Scene F P M O X}
    (h : est k s.graph s.scene = .ok (false, g, scene)) :
    pass order est k s = .ok (none, { s with scene := scene, graph := g }) := by
  unfold pass
  rw [h, Outcome.ok_bind]
  rfl

theorem pass_ok (hord : ∀ l, (order l).Perm l) (hs : SoundEstimator est) {k : Nat} {s : State F P M O X I}
    (hf : Fresh s.graph s.scene.recon) {g : ViewGraph I} {scene : Localize.Scene F P M O X}
    (h : est k s.graph s.scene = .ok (true, g, scene)) :
    ∃ x s', pass order est k s = .ok (some x, s') ∧ Passed est s x s' ∧ x.intrinsics = scene.heap ∧
      (∀ v, ViewEstimated scene.recon v → s'.scene.recon.view v = none) ∧
      (∀ v V, x.recon.view v = some V → ViewEstimated scene.recon v) ∧
      (∀ v, s'.graph.hasView v = true → g.hasView v = true) ∧
      (∀ a b i, s'.graph.getEdge a b = some i → g.getEdge a b = some i) := by
  obtain ⟨hg, hsub, hr, hsame, htr⟩ := hs k _ _ _ _ _ hf h
  obtain ⟨p, e1, p1, p2, p3⟩ := estimatedPart_ok hord hg hr htr
  obtain ⟨r', g', e2, q1, q2, q3, q4, q5, q6⟩ := removeEstimated_ok hord hg hr
  have hpart := isPart_same hr hsame
  refine ⟨⟨p, scene.orientation, scene.position, scene.heap⟩, { s with scene := { scene with recon := r' }, graph := g' }, ?_, ?_,
    rfl, ?_, ?_, fun v hv => ((q6.views v).1 hv).1, ?_⟩
  · unfold pass
    rw [h, Outcome.ok_bind]
    simp only [if_true]
    rw [e1, Outcome.ok_bind, e2, Outcome.ok_bind]
  · refine ⟨⟨q6.run, ?_, q1.reach, q2, ?_⟩, hpart.trans p1, p2, hpart.trans q1, ⟨?_, ?_⟩, ?_, ?_, rfl⟩
    · intro v hv
      exact hf.ids v (hsub v ((q6.views v).1 hv).1)
    · intro v hv
      have hv' := (q6.views v).1 (AMap.contains_iff.2 hv)
      have h1 : v ∈ s.graph.viewIds := AMap.contains_iff.1 (hsub v hv'.1)
      obtain ⟨V, hV⟩ := hf.views v h1
      obtain ⟨b, hb⟩ := hsame.views v V hV
      refine q3 v _ hb ?_
      have := hv'.2
      rw [flagged, hb] at this
      simpa using this
    · intro v V' hV'
      obtain ⟨V, hV, he⟩ := p3.views v V' hV'
      cases hn : r'.view v with
      | none => rfl
      | some V1 =>
        obtain ⟨V2, hV2, he2⟩ := q4 v V1 hn
        rw [hV] at hV2
        cases hV2
        rw [he] at he2
        cases he2
    · intro t T' hT'
      obtain ⟨T, hT, he, _⟩ := p3.tracks t T' hT'
      cases hn : r'.track t with
      | none => rfl
      | some T1 =>
        obtain ⟨T2, hT2, he2⟩ := q5 t T1 hn
        rw [hT] at hT2
        cases hT2
        rw [he] at he2
        cases he2
    · intro v V hV
      obtain ⟨b, hb⟩ := hsame.views v V hV
      cases b with
      | true =>
        obtain ⟨V', hV', _⟩ := p3.view v _ hb rfl
        exact .inl ⟨V', hV'⟩
      | false => exact .inr (q3 v _ hb rfl)
    · exact ⟨k, _, _, _, _, hf, h, p3, rfl, rfl, rfl⟩
  · rintro v ⟨V, hV, he⟩
    cases hn : r'.view v with
    | none => rfl
    | some V1 =>
      obtain ⟨V2, hV2, he2⟩ := q4 v V1 hn
      rw [hV] at hV2
      cases hV2
      rw [he] at he2
      cases he2
  · intro v V hV
    exact p3.views v V hV
  · intro a b i hi
    have hi' : g'.getEdge a b = some i := hi
    rw [q6.edges] at hi'
    split at hi'
    · exact hi'
    · cases hi'

/-! ### The loop -/

/-- What the loop does to the reconstructions. -/
structure Built (est : Estimator F P M O X I) (r : Reconstruction F P) (new : List (Output F P M O X)) (last : Reconstruction F P) :
    Prop where
  parts : ∀ x ∈ new, IsPart r x.recon ∧ AllEstimated x.recon ∧ ComesFrom est x
  rest : IsPart r last
  apart : (new.map (·.recon) ++ [last]).Pairwise Apart
  cover : ∀ v V, r.view v = some V → ∃ p ∈ new.map (·.recon) ++ [last], ∃ V', p.view v = some V'

theorem Built.nil {r rest : Reconstruction F P} (h : IsPart r rest)
    (hc : ∀ v V, r.view v = some V → ∃ V', rest.view v = some V') : Built est r [] rest where
  parts := by simp
  rest := h
  apart := by simp
  cover v V hV := ⟨rest, by simp, hc v V hV⟩

theorem apart_part {r p q : Reconstruction F P} (h : Apart p q) (hq : IsPart q r) : Apart p r := by
  refine ⟨fun v V hV => ?_, fun t T hT => ?_⟩
  · cases hn : r.view v with
    | none => rfl
    | some W =>
      obtain ⟨W', hW', _⟩ := hq.view v W hn
      rw [h.1 v V hV] at hW'
      cases hW'
  · cases hn : r.track t with
    | none => rfl
    | some W =>
      obtain ⟨W', hW', _⟩ := hq.track t W hn
      rw [h.2 t T hT] at hW'
      cases hW'

theorem Built.cons {s s' : State F P M O X I} {x : Output F P M O X} (h : Passed est s x s') {new : List (Output F P M O X)}
    {rest : Reconstruction F P} (hb : Built est s'.scene.recon new rest) : Built est s.scene.recon (x :: new) rest where
  parts y hy := by
    rcases List.mem_cons.1 hy with rfl | hy
    · exact ⟨h.out, h.all, h.comes⟩
    · obtain ⟨h1, h2⟩ := hb.parts y hy
      exact ⟨h.rest.trans h1, h2⟩
  rest := h.rest.trans hb.rest
  apart := by
    rw [List.map_cons, List.cons_append, List.pairwise_cons]
    refine ⟨fun p hp => apart_part h.apart ?_, hb.apart⟩
    rcases List.mem_append.1 hp with hp | hp
    · obtain ⟨y, hy, rfl⟩ := List.mem_map.1 hp
      exact (hb.parts y hy).1
    · rw [List.mem_singleton.1 hp]
      exact hb.rest
  cover v V hV := by
    rcases h.cover v V hV with h1 | ⟨V', hV'⟩
    · exact ⟨x.recon, by simp, h1⟩
    · obtain ⟨p, hp, h2⟩ := hb.cover v V' hV'
      exact ⟨p, by rw [List.map_cons, List.cons_append]; exact List.mem_cons_of_mem _ hp, h2⟩

/-- What the loop returns. -/
structure Looped (est : Estimator F P M O X I) (o : Options) (s : State F P M O X I) (out : List (Output F P M O X)) (b : Bool)
    (result : List (Output F P M O X)) (s' : State F P M O X I) (new : List (Output F P M O X)) : Prop where
  res : result = out ++ new
  built : Built est s.scene.recon new s'.scene.recon
  value : b = true ↔ out ≠ [] ∨ new ≠ [] ∨ s.scene.recon.numViews ≤ 1
  largest : o.largestOnly = true → new.length ≤ 1
  stopped : o.largestOnly = false → s'.scene.recon.numViews < 3 ∨
    ∃ k g scene, Fresh g scene.recon ∧ est k g scene = .ok (false, s'.graph, s'.scene)

theorem loop_ok (hord : ∀ l, (order l).Perm l) (hs : SoundEstimator est) (o : Options) : ∀ fuel k (s : State F P M O X I) out b res
    s', Fresh s.graph s.scene.recon → loop order est o fuel k s out = .ok (some (b, res, s')) →
    ∃ new, Looped est o s out b res s' new := by
  intro fuel
  induction fuel with
  | zero => intro k s out b res s' _ h; cases h
  | succ fuel ih =>
    intro k s out b res s' hf h
    rw [loop] at h
    by_cases hv : s.scene.recon.numViews > 1
    · rw [if_pos hv] at h
      have hv' : ¬ s.scene.recon.numViews ≤ 1 := by omega
      cases he : est k s.graph s.scene with
      | abort => rw [pass, he] at h; cases h
      | ub => rw [pass, he] at h; cases h
      | ok y =>
        obtain ⟨ok, g, scene⟩ := y
        cases ok with
        | false =>
          rw [pass_fail he] at h
          simp only [Outcome.ok.injEq, Option.some.injEq, Prod.mk.injEq] at h
          obtain ⟨h1, h2, h3⟩ := h
          subst h1 h2 h3
          obtain ⟨_, _, hr, hsame, _⟩ := hs k _ _ _ _ _ hf he
          refine ⟨[], ⟨by simp, .nil (isPart_same hr hsame) ?_, ?_, by simp, fun _ => .inr ⟨k, _, _, hf, he⟩⟩⟩
          · intro v V hV
            obtain ⟨b, hb⟩ := hsame.views v V hV
            exact ⟨_, hb⟩
          · simp only [decide_eq_true_eq, gt_iff_lt, List.length_pos_iff, ne_eq, not_true_eq_false, hv', or_false]
        | true =>
          obtain ⟨x, s1, e, hp, _⟩ := pass_ok hord hs hf he
          rw [e] at h
          simp only at h
          by_cases hl : o.largestOnly = true
          · rw [if_pos hl] at h
            simp only [Outcome.ok.injEq, Option.some.injEq, Prod.mk.injEq] at h
            obtain ⟨h1, h2, h3⟩ := h
            subst h1 h2 h3
            refine ⟨[x], ⟨rfl, .cons hp (.nil (.refl hp.rest.reach) fun v V hV => ⟨V, hV⟩), by simp, by simp, ?_⟩⟩
            rw [hl]
            simp
          · rw [if_neg hl] at h
            by_cases hn : s1.scene.recon.numViews < 3
            · rw [if_pos hn] at h
              simp only [Outcome.ok.injEq, Option.some.injEq, Prod.mk.injEq] at h
              obtain ⟨h1, h2, h3⟩ := h
              subst h1 h2 h3
              exact ⟨[x], ⟨rfl, .cons hp (.nil (.refl hp.rest.reach) fun v V hV => ⟨V, hV⟩), by simp, by simp, fun _ => .inl hn⟩⟩
            · rw [if_neg hn] at h
              obtain ⟨new, hl'⟩ := ih _ _ _ _ _ _ hp.fresh h
              refine ⟨x :: new, ⟨by rw [hl'.res]; simp, .cons hp hl'.built, ?_, fun h => absurd h hl, hl'.stopped⟩⟩
              have := hl'.value
              simp only [ne_eq, List.append_eq_nil_iff, List.cons_ne_nil, and_false, not_false_eq_true, true_or, iff_true] at this
              simp [this]
    · rw [if_neg hv] at h
      simp only [Outcome.ok.injEq, Option.some.injEq, Prod.mk.injEq] at h
      obtain ⟨h1, h2, h3⟩ := h
      subst h1 h2 h3
      refine ⟨[], ⟨by simp, .nil (.refl hf.reach) fun v V hV => ⟨V, hV⟩, ?_, by simp, fun _ => .inl (by omega)⟩⟩
      simp only [true_iff]
      right; right; omega

theorem loop_returns (hord : ∀ l, (order l).Perm l) (hs : SoundEstimator est) (hret : ReturningEstimator est) (o : Options) :
    ∀ fuel k (s : State F P M O X I) out, Fresh s.graph s.scene.recon → ∃ y, loop order est o fuel k s out = .ok y := by
  intro fuel
  induction fuel with
  | zero => intro k s out _; exact ⟨none, rfl⟩
  | succ fuel ih =>
    intro k s out hf
    rw [loop]
    by_cases hv : s.scene.recon.numViews > 1
    · rw [if_pos hv]
      obtain ⟨⟨ok, g, scene⟩, he⟩ := hret k _ _ hf
      cases ok with
      | false =>
        rw [pass_fail he]
        exact ⟨_, rfl⟩
      | true =>
        obtain ⟨x, s1, e, hp, _⟩ := pass_ok hord hs hf he
        rw [e]
        simp only
        split
        · exact ⟨_, rfl⟩
        · split
          · exact ⟨_, rfl⟩
          · exact ih _ _ _ hp.fresh
    · rw [if_neg hv]
      exact ⟨_, rfl⟩

theorem numViews_lt {r p : Reconstruction F P} (h : IsPart r p) {v : ViewId} {V : View F} (hV : r.view v = some V)
    (hn : p.view v = none) : p.numViews < r.numViews := by
  have h1 : p.viewIds.Nodup := (inv_of_reachable h.reach).wfViews
  have hsub : v :: p.viewIds ⊆ r.viewIds := by
    intro w hw
    rcases List.mem_cons.1 hw with rfl | hw
    · exact AMap.mem_keys_iff.2 ⟨V, hV⟩
    · obtain ⟨W, hW⟩ := AMap.mem_keys_iff.1 hw
      obtain ⟨W', hW', _⟩ := h.view w W hW
      exact AMap.mem_keys_iff.2 ⟨W', hW'⟩
  have h2 : (v :: p.viewIds).Nodup := List.nodup_cons.2 ⟨AMap.get_eq_none_iff.1 hn, h1⟩
  have := (h2.subperm hsub).length_le
  simp only [List.length_cons] at this
  unfold numViews
  rw [AMap.size_eq_length_keys, AMap.size_eq_length_keys]
  exact this

theorem loop_ends (hord : ∀ l, (order l).Perm l) (hs : SoundEstimator est) (hp : ProductiveEstimator est) (o : Options) :
    ∀ fuel k (s : State F P M O X I) out, Fresh s.graph s.scene.recon → s.scene.recon.numViews < fuel →
      loop order est o fuel k s out ≠ .ok none := by
  intro fuel
  induction fuel with
  | zero => intro k s out _ h; omega
  | succ fuel ih =>
    intro k s out hf hlt
    rw [loop]
    by_cases hv : s.scene.recon.numViews > 1
    · rw [if_pos hv]
      cases he : est k s.graph s.scene with
      | abort => rw [pass, he]; simp [Bind.bind, Outcome.bind]
      | ub => rw [pass, he]; simp [Bind.bind, Outcome.bind]
      | ok y =>
        obtain ⟨ok, g, scene⟩ := y
        cases ok with
        | false =>
          rw [pass_fail he]
          simp
        | true =>
          obtain ⟨x, s1, e, hpass, _, hgone, _⟩ := pass_ok hord hs hf he
          rw [e]
          simp only
          split
          · simp
          · split
            · simp
            · refine ih _ _ _ hpass.fresh ?_
              obtain ⟨v, hvest⟩ := hp k _ _ _ _ hf he
              obtain ⟨_, _, _, hsame, _⟩ := hs k _ _ _ _ _ hf he
              obtain ⟨V', hV', _⟩ := id hvest
              obtain ⟨V, b, hV, _⟩ := view_back hsame hV'
              have := numViews_lt hpass.rest hV (hgone v hvest)
              omega
    · rw [if_neg hv]
      simp

/-! ### Intrinsics objects -/

theorem pass_heap (hord : ∀ l, (order l).Perm l) (hs : SoundEstimator est) (hc : ConfinedEstimator est) {k : Nat}
    {s s' : State F P M O X I} {x : Option (Output F P M O X)} (hf : Fresh s.graph s.scene.recon)
    (h : pass order est k s = .ok (x, s')) (i : Nat) (hi : ∀ v V, s.scene.recon.view v = some V → V.intrinsics ≠ i) :
    s'.scene.heap i = s.scene.heap i := by
  cases he : est k s.graph s.scene with
  | abort => rw [pass, he] at h; cases h
  | ub => rw [pass, he] at h; cases h
  | ok y =>
    obtain ⟨ok, g, scene⟩ := y
    have hh := hc k _ _ _ _ _ he i hi
    cases ok with
    | false =>
      rw [pass_fail he] at h
      cases h
      exact hh
    | true =>
      obtain ⟨x1, s1, e, hp, e2, _⟩ := pass_ok hord hs hf he
      rw [e] at h
      cases h
      rw [hp.heap, e2]
      exact hh

theorem loop_heap (hord : ∀ l, (order l).Perm l) (hs : SoundEstimator est) (hc : ConfinedEstimator est) (o : Options) :
    ∀ fuel k (s : State F P M O X I) out b res s', Fresh s.graph s.scene.recon →
    loop order est o fuel k s out = .ok (some (b, res, s')) → ∀ i, (∀ v V, s.scene.recon.view v = some V → V.intrinsics ≠ i) →
    s'.scene.heap i = s.scene.heap i := by
  intro fuel
  induction fuel with
  | zero => intro k s out b res s' _ h; cases h
  | succ fuel ih =>
    intro k s out b res s' hf h i hi
    rw [loop] at h
    split at h
    · split at h
      · cases h
      · cases h
      · rename_i s1 e
        cases h
        exact pass_heap hord hs hc hf e i hi
      · rename_i x s1 e
        have h1 := pass_heap hord hs hc hf e i hi
        split at h
        · cases h; exact h1
        · split at h
          · cases h; exact h1
          · rw [← h1]
            have hp : Passed est s x s1 := by
              cases he : est k s.graph s.scene with
              | abort => rw [pass, he] at e; cases e
              | ub => rw [pass, he] at e; cases e
              | ok y =>
                obtain ⟨ok, g, scene⟩ := y
                cases ok with
                | false => rw [pass_fail he] at e; cases e
                | true =>
                  obtain ⟨x1, s2, e', hp, _⟩ := pass_ok hord hs hf he
                  rw [e] at e'
                  cases e'
                  exact hp
            refine ih _ _ _ _ _ _ hp.fresh h i ?_
            intro v V hV
            obtain ⟨V', hV', _, e3, _⟩ := hp.rest.view v V hV
            rw [e3]
            exact hi v V' hV'
    · cases h
      rfl

theorem pass_passed (hord : ∀ l, (order l).Perm l) (hs : SoundEstimator est) {k : Nat} {s s1 : State F P M O X I}
    {x : Output F P M O X} (hf : Fresh s.graph s.scene.recon) (e : pass order est k s = .ok (some x, s1)) : Passed est s x s1 := by
  cases he : est k s.graph s.scene with
  | abort => rw [pass, he] at e; cases e
  | ub => rw [pass, he] at e; cases e
  | ok y =>
    obtain ⟨ok, g, scene⟩ := y
    cases ok with
    | false => rw [pass_fail he] at e; cases e
    | true =>
      obtain ⟨x1, s2, e', hp, _⟩ := pass_ok hord hs hf he
      rw [e] at e'
      cases e'
      exact hp

/-- The intrinsics objects of a reconstruction that are not shared outside it are as when it was built. -/
def KeepsOwn (r : Reconstruction F P) (heap : Nat → M) (x : Output F P M O X) : Prop :=
  ∀ v V, x.recon.view v = some V →
    (∀ w W, r.view w = some W → W.intrinsics = V.intrinsics → ∃ W', x.recon.view w = some W') →
    heap V.intrinsics = x.intrinsics V.intrinsics

theorem loop_intrinsics (hord : ∀ l, (order l).Perm l) (hs : SoundEstimator est) (hc : ConfinedEstimator est) (o : Options) :
    ∀ fuel k (s : State F P M O X I) out b res s', Fresh s.graph s.scene.recon →
    loop order est o fuel k s out = .ok (some (b, res, s')) →
    ∃ new, res = out ++ new ∧ ∀ x ∈ new, KeepsOwn s.scene.recon s'.scene.heap x := by
  intro fuel
  induction fuel with
  | zero => intro k s out b res s' _ h; cases h
  | succ fuel ih =>
    intro k s out b res s' hf h
    rw [loop] at h
    split at h
    · split at h
      · cases h
      · cases h
      · rename_i s1 e
        cases h
        exact ⟨[], by simp, by simp⟩
      · rename_i x s1 e
        have hp := pass_passed hord hs hf e
        have hown : KeepsOwn s.scene.recon s1.scene.heap x := fun v V hV _ => by rw [hp.heap]
        split at h
        · cases h
          exact ⟨[x], rfl, by simpa using hown⟩
        · split at h
          · cases h
            exact ⟨[x], rfl, by simpa using hown⟩
          · obtain ⟨new, h1, h2⟩ := ih _ _ _ _ _ _ hp.fresh h
            refine ⟨x :: new, by rw [h1]; simp, ?_⟩
            intro y hy
            rcases List.mem_cons.1 hy with rfl | hy
            · intro v V hV hall
              rw [← hp.heap]
              refine loop_heap hord hs hc o _ _ _ _ _ _ _ hp.fresh h _ ?_
              intro w W hW hi
              obtain ⟨W', hW', _, e2, _⟩ := hp.rest.view w W hW
              obtain ⟨W2, hW2⟩ := hall w W' hW' (by rw [← e2]; exact hi)
              rw [hp.apart.1 w W2 hW2] at hW
              cases hW
            · intro v V hV hall
              refine h2 y hy v V hV fun w W hW hi => ?_
              obtain ⟨W', hW', _, e2, _⟩ := hp.rest.view w W hW
              exact hall w W' hW' (by rw [← e2]; exact hi)
    · cases h
      exact ⟨[], by simp, by simp⟩

end Builder
end Theia
