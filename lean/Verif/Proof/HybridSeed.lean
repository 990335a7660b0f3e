import Verif.Proof.Hybrid

/-!
# Proofs about the initial pair of hybrid reconstruction
-/

namespace Theia
namespace Hybrid

open Spec
open Incremental (TwoView State Summary Frame Inv Good Seeded)

variable {F P M O X L N W D C : Type}

/-! ### The order of the pairs -/

theorem bucket_eq {a : ℚ} (ha : 0 ≤ a) : bucket a = angleClass a := by
  unfold bucket angleClass
  set m : ℚ := min a 45 with hm
  have hm0 : 0 ≤ m := le_min ha (by norm_num)
  have hcast : min (a : ℝ) 45 = (m : ℝ) := by rw [hm]; push_cast; rfl
  rw [hcast, round_eq]
  set k := Nat.sqrt ⌊16 * m⌋₊ with hk
  have h1 : ((k * k : ℕ) : ℚ) ≤ 16 * m :=
    (Nat.le_floor_iff (by positivity)).1 (Nat.sqrt_le _)
  have h2 : 16 * m < (((k + 1) * (k + 1) : ℕ) : ℚ) :=
    (Nat.floor_lt (by positivity)).1 (Nat.lt_succ_sqrt _)
  have h1' : ((k : ℝ)) * k ≤ 16 * (m : ℝ) := by exact_mod_cast h1
  have h2' : 16 * (m : ℝ) < ((k : ℝ) + 1) * (k + 1) := by exact_mod_cast h2
  have hs0 := Real.sqrt_nonneg (m : ℝ)
  have hs := Real.mul_self_sqrt (show (0 : ℝ) ≤ m by exact_mod_cast hm0)
  have hlo : (k : ℝ) ≤ 4 * Real.sqrt m := by
    by_contra h
    push Not at h
    nlinarith
  have hhi : 4 * Real.sqrt m < (k : ℝ) + 1 := by
    by_contra h
    push Not at h
    nlinarith [Nat.cast_nonneg (α := ℝ) k]
  symm
  rw [Int.floor_eq_iff]
  have e1 : 2 * ((k + 1) / 2) ≤ k + 1 := by omega
  have e2 : k + 2 ≤ 2 * ((k + 1) / 2) + 2 := by omega
  have e1' : 2 * (((k + 1) / 2 : ℕ) : ℝ) ≤ k + 1 := by exact_mod_cast e1
  have e2' : (k : ℝ) + 2 ≤ 2 * (((k + 1) / 2 : ℕ) : ℝ) + 2 := by exact_mod_cast e2
  rw [Int.cast_natCast]
  constructor <;> linarith

variable {num : Numerics F P M O X L N W D C} {o : Options} {r0 : Reconstruction F P} {g : ViewGraph (TwoView O X L)}
  {qs : AMap ViewId O}

theorem startAngle_nonneg (hn : HybridWellBehaved num) (scene : Localize.Scene F P M O X) (a b : ViewId) :
    0 ≤ startAngle num qs scene a b := by
  have h : ∀ p k q l, 0 ≤ (num.angle p k q l).getD 0 := by
    intro p k q l
    obtain ⟨x, hx, h0⟩ := hn.angle p k q l
    rw [hx]
    exact h0
  unfold startAngle
  split
  · exact h _ _ _ _
  · exact le_refl _

theorem pairAngle_ok (hn : HybridWellBehaved num) {scene : Localize.Scene F P M O X} {pair : ViewId × ViewId}
    (h1 : ∃ V, scene.recon.view pair.1 = some V) (h2 : ∃ V, scene.recon.view pair.2 = some V) :
    pairAngle num qs scene pair = .ok (bucket (startAngle num qs scene pair.1 pair.2)) := by
  obtain ⟨V1, hV1⟩ := h1
  obtain ⟨V2, hV2⟩ := h2
  obtain ⟨x, hx, _⟩ := hn.angle (scene.orientation pair.1) (scene.heap V1.intrinsics) (scene.orientation pair.2)
    (scene.heap V2.intrinsics)
  unfold pairAngle startAngle AMap.contains
  rw [hV1, hV2]
  cases qs.get pair.1 <;> cases qs.get pair.2 <;> simp [hx]

theorem criteria_ok (hn : HybridWellBehaved num) {scene : Localize.Scene F P M O X}
    (es : List ((Nat × Nat) × TwoView O X L))
    (hes : ∀ e ∈ es, (∃ V, scene.recon.view e.1.1 = some V) ∧ ∃ V, scene.recon.view e.1.2 = some V) :
    criteria num qs scene es = .ok ((es.filter fun e => decide ((100 : Int) < e.2.verifiedMatches)).map fun e =>
      (-bucket (startAngle num qs scene e.1.1 e.1.2), -e.2.verifiedMatches, e.1)) := by
  induction es with
  | nil => rfl
  | cons e es ih =>
    obtain ⟨pair, info⟩ := e
    obtain ⟨h1, h2⟩ := hes _ List.mem_cons_self
    rw [criteria, pairAngle_ok hn h1 h2, ih (fun e he => hes e (List.mem_cons_of_mem _ he))]
    simp only [Outcome.ok_bind, Incremental.minInitialTracks]
    by_cases h : (100 : Int) < info.verifiedMatches <;> simp [h]

/-- The candidates, in the order in which they are tried. -/
theorem candidatePairs_ok (hn : HybridWellBehaved num) (hinv : g.Inv) {scene : Localize.Scene F P M O X}
    (hgv : GraphViews g scene.recon) :
    ∃ pairs, candidatePairs num qs g scene = .ok pairs ∧
      (∀ p, p ∈ pairs ↔ ∃ info, p.1 < p.2 ∧ g.getEdge p.1 p.2 = some info ∧ (100 : Int) < info.verifiedMatches) ∧
      pairs.Pairwise fun p q => ∀ i j, g.getEdge p.1 p.2 = some i → g.getEdge q.1 q.2 = some j →
        BetterStart num qs scene p.1 p.2 i q.1 q.2 j := by
  have hlt : ∀ e ∈ g.allEdges, e.1.1 < e.1.2 := fun e he => hinv.lt _ (List.mem_map.2 ⟨e, he, rfl⟩)
  have hget : ∀ e ∈ g.allEdges, g.getEdge e.1.1 e.1.2 = some e.2 := by
    intro e he
    unfold ViewGraph.getEdge
    rw [ordPair_of_lt (hlt e he)]
    exact AMap.get_of_mem_entries hinv.wfE he
  have hviews : ∀ e ∈ g.allEdges, (∃ V, scene.recon.view e.1.1 = some V) ∧ ∃ V, scene.recon.view e.1.2 = some V := by
    intro e he
    have hk : ordPair e.1.1 e.1.2 ∈ g.edges.keys := by
      rw [ordPair_of_lt (hlt e he)]
      exact List.mem_map.2 ⟨e, he, rfl⟩
    exact ⟨hgv _ (hinv.dom e.1.1 e.1.2 hk), hgv _ (hinv.dom' (a := e.1.1) hk)⟩
  unfold candidatePairs
  rw [criteria_ok hn g.allEdges hviews]
  simp only [Outcome.ok_bind]
  refine ⟨_, rfl, ?_, ?_⟩
  · intro p
    simp only [List.mem_map, List.mem_insertionSort, List.mem_filter, decide_eq_true_eq]
    constructor
    · rintro ⟨c, ⟨e, ⟨he, hm⟩, rfl⟩, rfl⟩
      exact ⟨e.2, hlt e he, hget e he, hm⟩
    · rintro ⟨info, hp, he, hm⟩
      unfold ViewGraph.getEdge at he
      rw [ordPair_of_lt hp] at he
      exact ⟨_, ⟨(p, info), ⟨AMap.mem_entries_of_get he, hm⟩, rfl⟩, rfl⟩
  · have ht : IsTrans (Int × Int × (Nat × Nat)) (fun a b => Incremental.criterionLE a b = true) := ⟨by
      intro a b c h1 h2
      rw [Incremental.criterionLE_iff] at *
      omega⟩
    have hto : Std.Total (α := Int × Int × (Nat × Nat)) (fun a b => Incremental.criterionLE a b = true) := ⟨by
      intro a b
      rw [Incremental.criterionLE_iff, Incremental.criterionLE_iff]
      omega⟩
    rw [List.pairwise_map]
    refine List.Pairwise.imp_of_mem ?_
      (List.pairwise_insertionSort (fun a b : Int × Int × (Nat × Nat) => Incremental.criterionLE a b = true) _)
    intro a b ha hb hab i j hi hj
    rw [List.mem_insertionSort] at ha hb
    obtain ⟨e, he, rfl⟩ := List.mem_map.1 ha
    obtain ⟨f, hf, rfl⟩ := List.mem_map.1 hb
    rw [hget e (List.mem_filter.1 he).1] at hi
    rw [hget f (List.mem_filter.1 hf).1] at hj
    cases hi
    cases hj
    rw [Incremental.criterionLE_iff] at hab
    unfold BetterStart
    rw [← bucket_eq (startAngle_nonneg hn _ _ _), ← bucket_eq (startAngle_nonneg hn _ _ _)]
    dsimp only at hab ⊢
    omega

/-! ### The cameras of a pair -/

/-- What setting up a pair changes. -/
structure Setup (r0 : Reconstruction F P) (s s' : State F P M O X) (pair : ViewId × ViewId) : Prop where
  good : Good r0 s'.scene.recon
  unlocalized : s'.unlocalized = s.unlocalized
  reconstructed : s'.reconstructed = s.reconstructed
  numOptimized : s'.numOptimized = s.numOptimized
  est : ∀ v V, s'.scene.recon.view v = some V → V.estimated = true → v = pair.1 ∨ v = pair.2 ∨
    ∃ V', s.scene.recon.view v = some V' ∧ V'.estimated = true

/-- Both views of the pair are estimated. -/
def PairUp (s : State F P M O X) (pair : ViewId × ViewId) : Prop :=
  ∀ v, v = pair.1 ∨ v = pair.2 → ∀ V, s.scene.recon.view v = some V → V.estimated = true

theorem Setup.refl {s : State F P M O X} (hg : Good r0 s.scene.recon) (pair : ViewId × ViewId) (k : Nat) :
    Setup r0 s { s with clock := k } pair :=
  ⟨hg, rfl, rfl, rfl, fun _ V hV he => Or.inr (Or.inr ⟨V, hV, he⟩)⟩

theorem Setup.trans {s1 s2 s3 : State F P M O X} {pair : ViewId × ViewId} (h : Setup r0 s1 s2 pair)
    (h' : Setup r0 s2 s3 pair) : Setup r0 s1 s3 pair :=
  ⟨h'.good, h'.unlocalized.trans h.unlocalized, h'.reconstructed.trans h.reconstructed,
    h'.numOptimized.trans h.numOptimized, fun v V hV he => by
      rcases h'.est v V hV he with e | e | ⟨V', hV', he'⟩
      · exact Or.inl e
      · exact Or.inr (Or.inl e)
      · exact h.est v V' hV' he'⟩

theorem markPair_ok {s s0 : State F P M O X} (hg : Good r0 s.scene.recon) {pair : ViewId × ViewId}
    (h1 : ∃ V, r0.view pair.1 = some V) (h2 : ∃ V, r0.view pair.2 = some V)
    (hs : s.scene.recon = s0.scene.recon ∧ s.unlocalized = s0.unlocalized ∧ s.reconstructed = s0.reconstructed ∧
      s.numOptimized = s0.numOptimized) :
    ∃ s', markPair pair s = .ok s' ∧ Setup r0 s0 s' pair ∧ PairUp s' pair ∧
      s'.scene.position = s.scene.position := by
  obtain ⟨V1, hV1⟩ := hg.view_of h1
  have e1 := EstimatorUtils.setViewEstimated_eq hV1 true
  have hg1 := hg.raise e1
  obtain ⟨V2, hV2⟩ := hg1.view_of h2
  have e2 := EstimatorUtils.setViewEstimated_eq hV2 true
  have hg2 := hg1.raise e2
  unfold markPair
  rw [e1]
  simp only [Outcome.ok_bind]
  rw [e2]
  have hview : ∀ v V, ((s.scene.recon.views.insert pair.1 ({ V1 with estimated := true } : View F)).insert pair.2
      ({ V2 with estimated := true } : View F)).get v = some V →
      V.estimated = true ∧ (v = pair.1 ∨ v = pair.2) ∨ (v ≠ pair.1 ∧ v ≠ pair.2 ∧ s.scene.recon.view v = some V) := by
    intro v V hV
    simp only [AMap.get_insert] at hV
    by_cases hv2 : v = pair.2
    · rw [if_pos hv2] at hV
      cases hV
      exact Or.inl ⟨rfl, Or.inr hv2⟩
    · rw [if_neg hv2] at hV
      by_cases hv1 : v = pair.1
      · rw [if_pos hv1] at hV
        cases hV
        exact Or.inl ⟨rfl, Or.inl hv1⟩
      · rw [if_neg hv1] at hV
        exact Or.inr ⟨hv1, hv2, hV⟩
  refine ⟨_, rfl, ⟨hg2, hs.2.1, hs.2.2.1, hs.2.2.2, ?_⟩, ?_, rfl⟩
  · intro v V hV he
    rcases hview v V hV with ⟨_, h | h⟩ | ⟨_, _, h⟩
    · exact Or.inl h
    · exact Or.inr (Or.inl h)
    · exact Or.inr (Or.inr ⟨V, hs.1 ▸ h, he⟩)
  · intro v hv V hV
    rcases hview v V hV with ⟨h, _⟩ | ⟨h1, h2, _⟩
    · exact h
    · rcases hv with rfl | rfl
      · exact absurd rfl h1
      · exact absurd rfl h2

theorem commonTracks_mem (V1 V2 : View F) (t : TrackId) : t ∈ commonTracks V1 V2 ↔ t ∈ V1.trackIds ∧ t ∈ V2.trackIds := by
  unfold commonTracks
  have hs : ∀ l : List Nat, (l.insertionSort (· ≤ ·)).Pairwise (· ≤ ·) := fun l => List.pairwise_insertionSort _ _
  rw [CommonTracks.mem_setIntersection _ _ _ (hs _) (hs _), List.mem_insertionSort, List.mem_insertionSort]

theorem correspondences_ok (V1 V2 : View F) (ts : List TrackId)
    (h : ∀ t ∈ ts, t ∈ V1.trackIds ∧ t ∈ V2.trackIds) :
    ∃ ms, correspondences V1 V2 ts = .ok ms ∧ ms.length = ts.length := by
  induction ts with
  | nil => exact ⟨[], rfl, rfl⟩
  | cons t ts ih =>
    obtain ⟨h1, h2⟩ := h t List.mem_cons_self
    obtain ⟨f1, hf1⟩ := AMap.mem_keys_iff.1 h1
    obtain ⟨f2, hf2⟩ := AMap.mem_keys_iff.1 h2
    obtain ⟨ms, hms, hl⟩ := ih (fun t ht => h t (List.mem_cons_of_mem _ ht))
    rw [correspondences]
    unfold View.getFeature
    rw [hf1, hf2]
    simp only [hms, Outcome.ok_bind]
    exact ⟨_, rfl, by simp [hl]⟩

theorem correspondences_mem {V1 V2 : View F} (ts : List TrackId) : ∀ {ms : List (F × F)}, correspondences V1 V2 ts = .ok ms →
    ∀ f1 f2, (f1, f2) ∈ ms ↔ ∃ t ∈ ts, V1.getFeature t = some f1 ∧ V2.getFeature t = some f2 := by
  induction ts with
  | nil => intro ms h f1 f2; cases h; simp
  | cons t ts ih =>
    intro ms h f1 f2
    rw [correspondences] at h
    split at h
    · next a b ha hb =>
      obtain ⟨rest, h1, h⟩ := Outcome.bind_eq_ok.1 h
      cases h
      rw [List.mem_cons, ih h1, Prod.mk.injEq]
      constructor
      · rintro (⟨rfl, rfl⟩ | ⟨u, hu, e⟩)
        · exact ⟨t, List.mem_cons_self, ha, hb⟩
        · exact ⟨u, List.mem_cons_of_mem _ hu, e⟩
      · rintro ⟨u, hu, e1, e2⟩
        rcases List.mem_cons.1 hu with rfl | hu
        · rw [ha] at e1; rw [hb] at e2
          cases e1; cases e2
          exact Or.inl ⟨rfl, rfl⟩
        · exact Or.inr ⟨u, hu, e1, e2⟩
    · cases h

theorem markPair_poses {pair : ViewId × ViewId} {s s' : State F P M O X} (h : markPair pair s = .ok s') :
    s'.scene.position = s.scene.position ∧ s'.scene.orientation = s.scene.orientation := by
  unfold markPair at h
  obtain ⟨r, _, h⟩ := Outcome.bind_eq_ok.1 h
  obtain ⟨r', _, h⟩ := Outcome.bind_eq_ok.1 h
  cases h
  exact ⟨rfl, rfl⟩

theorem initializeKnown_ok {s : State F P M O X} (hg : Good r0 s.scene.recon) {pair : ViewId × ViewId}
    {info : TwoView O X L} (he : g.getEdge pair.1 pair.2 = some info)
    (hshare : ∃ A B t, r0.view pair.1 = some A ∧ r0.view pair.2 = some B ∧ t ∈ A.trackIds ∧ t ∈ B.trackIds) :
    ∃ b s', initializeKnown num o qs g pair s = .ok (b, s') ∧ Setup r0 s s' pair ∧ (b = true → PairUp s' pair) := by
  obtain ⟨A, B, t, hA, hB, htA, htB⟩ := hshare
  unfold initializeKnown
  split
  · exact ⟨false, s, rfl, Setup.refl hg pair s.clock, fun h => by cases h⟩
  · obtain ⟨a, hA'⟩ := hg.same.views _ A hA
    obtain ⟨b, hB'⟩ := hg.same.views _ B hB
    rw [hA', hB', he]
    simp only
    obtain ⟨ms, hms, hl⟩ := correspondences_ok { A with estimated := a } { B with estimated := b }
      (commonTracks { A with estimated := a } { B with estimated := b })
      (fun t ht => (commonTracks_mem _ _ t).1 ht)
    rw [hms]
    simp only [Outcome.ok_bind]
    have hne : ms ≠ [] := by
      intro h
      rw [h] at hl
      have : t ∈ commonTracks { A with estimated := a } { B with estimated := b } := (commonTracks_mem _ _ t).2 ⟨htA, htB⟩
      rw [List.length_eq_zero_iff.1 hl.symm] at this
      cases this
    rw [if_neg hne]
    split
    · exact ⟨false, _, rfl, Setup.refl hg pair _, fun h => by cases h⟩
    · next x _ =>
      obtain ⟨s', h1, h2, h3, _⟩ := markPair_ok (s := { s with scene := s.scene.setPosition pair.2 x, clock := s.clock + 1 })
        (s0 := s) (r0 := r0) hg (pair := pair) ⟨A, hA⟩ ⟨B, hB⟩ ⟨rfl, rfl, rfl, rfl⟩
      rw [h1]
      exact ⟨_, s', rfl, h2, fun _ => h3⟩

theorem initializeTwoView_ok (hn : HybridWellBehaved num) {s : State F P M O X} (hg : Good r0 s.scene.recon)
    {pair : ViewId × ViewId} {info : TwoView O X L} (he : g.getEdge pair.1 pair.2 = some info)
    (h1 : ∃ V, r0.view pair.1 = some V) (h2 : ∃ V, r0.view pair.2 = some V) :
    ∃ b s', initializeTwoView num qs g pair s = .ok (b, s') ∧ Setup r0 s s' pair ∧ (b = true → PairUp s' pair) := by
  unfold initializeTwoView
  split
  · exact ⟨false, s, rfl, Setup.refl hg pair s.clock, fun h => by cases h⟩
  · obtain ⟨V1, hV1⟩ := hg.view_of h1
    obtain ⟨V2, hV2⟩ := hg.view_of h2
    rw [hV1, hV2, he]
    simp only
    obtain ⟨m1, hm1⟩ := hn.common.focal s.clock info.focal1 (s.scene.heap V1.intrinsics)
    rw [hm1]
    simp only [Outcome.ok_bind]
    obtain ⟨m2, hm2⟩ := hn.common.focal s.clock info.focal2 (((s.scene.setHeap V1.intrinsics m1).setPosition pair.2
      (num.toWorld ((s.scene.setHeap V1.intrinsics m1).orientation pair.1) info.position2)).heap V2.intrinsics)
    rw [hm2]
    simp only [Outcome.ok_bind]
    obtain ⟨s', e1, e2, e3, _⟩ := markPair_ok (s := { s with
        scene := ((s.scene.setHeap V1.intrinsics m1).setPosition pair.2
          (num.toWorld ((s.scene.setHeap V1.intrinsics m1).orientation pair.1) info.position2)).setHeap V2.intrinsics m2,
        clock := s.clock + 1 })
      (s0 := s) (r0 := r0) hg (pair := pair) h1 h2 ⟨rfl, rfl, rfl, rfl⟩
    rw [e1]
    exact ⟨_, s', rfl, e2, fun _ => e3⟩

theorem setupPair_ok (hn : HybridWellBehaved num) {s : State F P M O X} (hg : Good r0 s.scene.recon)
    {pair : ViewId × ViewId} {info : TwoView O X L} (he : g.getEdge pair.1 pair.2 = some info)
    (hshare : ∃ A B t, r0.view pair.1 = some A ∧ r0.view pair.2 = some B ∧ t ∈ A.trackIds ∧ t ∈ B.trackIds) :
    ∃ b s', setupPair num o qs g pair s = .ok (b, s') ∧ Setup r0 s s' pair ∧ (b = true → PairUp s' pair) := by
  obtain ⟨b1, s1, h1, h2, h3⟩ := initializeKnown_ok (num := num) (o := o) (qs := qs) hg he hshare
  unfold setupPair
  rw [h1]
  simp only [Outcome.ok_bind]
  cases b1 with
  | true => exact ⟨true, s1, rfl, h2, h3⟩
  | false =>
    obtain ⟨A, B, t, hA, hB, _, _⟩ := hshare
    obtain ⟨b2, s2, g1, g2, g3⟩ := initializeTwoView_ok (num := num) (qs := qs) hn h2.good he ⟨A, hA⟩ ⟨B, hB⟩
    exact ⟨b2, s2, g1, h2.trans g2, g3⟩

/-! ### The loop over the pairs -/

section
variable [DecidableEq C]

theorem tryPair_ok (hn : HybridWellBehaved num) (ho : ValidOptions o.common)
    {s : State F P M O X} (h : HInv L r0 s) (hr : s.reconstructed = []) {pair : ViewId × ViewId} (hlt : pair.1 < pair.2)
    {info : TwoView O X L} (he : g.getEdge pair.1 pair.2 = some info)
    (hshare : ∃ A B t, r0.view pair.1 = some A ∧ r0.view pair.2 = some B ∧ t ∈ A.trackIds ∧ t ∈ B.trackIds) :
    ∃ b s', tryPair num o qs g pair s = .ok (b, s') ∧ HInv L r0 s' ∧ (b = false → s'.reconstructed = []) ∧
      (b = true → Seeded (constantOrientation num.common) o.common s' pair) := by
  obtain ⟨r1, h1, h2, h3, h4⟩ := Incremental.setUnestimated_ok h.good.reach h.good.same
  unfold tryPair
  rw [h1]
  simp only [Outcome.ok_bind]
  obtain ⟨b, s2, g1, g2, g3⟩ := setupPair_ok (num := num) (o := o) (qs := qs) (g := g) (pair := pair)
    (s := { s with scene := { s.scene with recon := r1 } }) hn h2 he hshare
  rw [g1]
  simp only [Outcome.ok_bind]
  have hU2 := g2.unlocalized
  have hR2 := g2.reconstructed
  have hO2 := g2.numOptimized
  simp only at hU2 hR2 hO2
  have hi2 : HInv L r0 s2 := HInv.of g2.good (by rw [hU2, hR2]; exact h.all) (by rw [hO2, hR2]; exact h.opt)
  obtain ⟨A, B, t, hA, hB, _, _⟩ := hshare
  have hp1 : pair.1 ∈ r0.viewIds := AMap.mem_keys_iff.2 ⟨A, hA⟩
  have hp2 : pair.2 ∈ r0.viewIds := AMap.mem_keys_iff.2 ⟨B, hB⟩
  cases b with
  | false => exact ⟨false, s2, rfl, hi2, fun _ => by rw [hR2, hr], fun h => by cases h⟩
  | true =>
    simp only [if_true]
    have hest : ∀ v V, s2.scene.recon.view v = some V → (V.estimated = true ↔ v = pair.1 ∨ v = pair.2) := by
      intro v V hV
      constructor
      · intro he
        rcases g2.est v V hV he with h | h | ⟨V', hV', he'⟩
        · exact Or.inl h
        · exact Or.inr h
        · rw [h3 v V' hV'] at he'; cases he'
      · exact fun hv => g3 rfl v hv V hV
    obtain ⟨V1, hV1⟩ := g2.good.view_of ⟨A, hA⟩
    obtain ⟨s3, k1, k2, k3⟩ := Incremental.estimateStructure_ok hn.common ho g2.good hV1
    have hi3 : HInv L r0 s3 := hi2.frame k2 (by rw [k3, k2.reconstructed]; exact hi2.opt)
    rw [k1]
    simp only [Outcome.ok_bind]
    split
    · exact ⟨false, s3, rfl, hi3, fun _ => by rw [k2.reconstructed, hR2, hr], fun h => by cases h⟩
    · obtain ⟨b, s4, l1, l2, l3, l4⟩ := Incremental.fullBundle_ok (constantOrientation_wellBehaved hn.common) o.common k2.good
      have hi4 : HInv L r0 s4 := hi3.frame l2 (by rw [l3])
      have hr4 : s4.reconstructed = [] := by rw [l2.reconstructed, k2.reconstructed, hR2, hr]
      rw [l1]
      simp only [Outcome.ok_bind]
      split
      · next hacc =>
        refine ⟨true, _, rfl, ?_, fun h => (by cases h), fun _ => ⟨l4, by simp [hr4], hacc.2, ?_⟩⟩
        · refine HInv.of hi4.good ?_ ?_
          · have hperm := hi4.all
            rw [hr4, List.append_nil] at hperm
            have hnd : s4.unlocalized.Nodup := (List.nodup_append.1 hi4.nodup).1
            refine List.Perm.trans ?_ hperm
            simp only [hr4, List.nil_append]
            have e1 := Incremental.perm_move (R := []) hnd (hperm.mem_iff.2 hp1)
            have e2 := Incremental.perm_move (R := [pair.1]) (hnd.filter fun w => decide (w ≠ pair.1)) (v := pair.2) (by
              rw [List.mem_filter]
              exact ⟨hperm.mem_iff.2 hp2, decide_eq_true (Nat.ne_of_gt hlt)⟩)
            rw [List.filter_filter] at e2
            refine List.Perm.trans ?_ (e2.trans (by simpa using e1))
            simp only [List.cons_append, List.nil_append]
            refine List.Perm.append_right _ (List.Perm.of_eq ?_)
            apply List.filter_congr
            intro w _
            by_cases ha : w = pair.1 <;> by_cases hb : w = pair.2 <;> simp [ha, hb]
          · simp only
            rw [l3, hr4]
            simp
        · intro v V hV
          refine hest v V ?_
          unfold Reconstruction.view at *
          rw [← k2.views, ← l2.views]
          exact hV
      · exact ⟨false, s4, rfl, hi4, fun _ => hr4, fun h => by cases h⟩

theorem chooseLoop_ok (hn : HybridWellBehaved num) (ho : ValidOptions o.common) (hshare : ShareTracks g r0)
    (pairs : List (ViewId × ViewId)) : ∀ {s : State F P M O X}, HInv L r0 s → s.reconstructed = [] →
    (∀ p ∈ pairs, ∃ info, p.1 < p.2 ∧ g.getEdge p.1 p.2 = some info ∧ (100 : Int) < info.verifiedMatches) →
    ∃ b s', chooseLoop num o qs g pairs s = .ok (b, s') ∧ HInv L r0 s' ∧ (b = false → s'.reconstructed = [] ∧
        ∀ q ∈ pairs, ∃ s1 s2, tryPair num o qs g q s1 = .ok (false, s2)) ∧
      (b = true → ∃ pre pair post, pairs = pre ++ pair :: post ∧ Seeded (constantOrientation num.common) o.common s' pair ∧
        ∀ q ∈ pre, ∃ s1 s2, tryPair num o qs g q s1 = .ok (false, s2)) := by
  induction pairs with
  | nil => intro s h hr _; exact ⟨false, s, rfl, h, fun _ => ⟨hr, by simp⟩, fun h => by cases h⟩
  | cons pair pairs ih =>
    intro s h hr hp
    obtain ⟨info, hlt, he, hm⟩ := hp pair List.mem_cons_self
    obtain ⟨b, s1, h1, h2, h3, h4⟩ := tryPair_ok (num := num) (o := o) (qs := qs) (g := g) hn ho h hr hlt he
      (hshare _ _ info hlt he hm)
    rw [chooseLoop, h1]
    simp only [Outcome.ok_bind]
    cases b with
    | true => exact ⟨true, s1, rfl, h2, fun h => (by cases h), fun _ => ⟨[], pair, pairs, rfl, h4 rfl, by simp⟩⟩
    | false =>
      obtain ⟨b, s', k1, k2, k3, k4⟩ := ih h2 (h3 rfl) (fun p hp' => hp p (List.mem_cons_of_mem _ hp'))
      refine ⟨b, s', k1, k2, fun hb => ⟨(k3 hb).1, ?_⟩, fun hb => ?_⟩
      · intro q hq
        rcases List.mem_cons.1 hq with rfl | hq
        · exact ⟨s, s1, h1⟩
        · exact (k3 hb).2 q hq
      · obtain ⟨pre, p, post, e1, e2, e3⟩ := k4 hb
        refine ⟨pair :: pre, p, post, by rw [e1]; rfl, e2, ?_⟩
        intro q hq
        rcases List.mem_cons.1 hq with rfl | hq
        · exact ⟨s, s1, h1⟩
        · exact e3 q hq

/-! ### A whole run -/

omit [DecidableEq C] in
theorem seeded_est {s : State F P M O X} {pair : ViewId × ViewId} {n : Incremental.Numerics F P M O X L N W D C}
    {o : Incremental.Options} (h : Seeded n o s pair) : EstIn s := by
  intro v V hV he
  rw [h.reconstructed]
  rcases (h.views v V hV).1 he with rfl | rfl <;> simp

theorem start_inv {order : List Nat → List Nat} (horder : ∀ l, (order l).Perm l) {scene scene' : Localize.Scene F P M O X}
    (hs : scene'.recon = scene.recon) (hr : scene.recon.Reachable) (hnew : NothingEstimated scene.recon) (k : Nat) :
    HInv L scene.recon ⟨scene', Incremental.queueViews scene.recon (order scene.recon.viewIds) [], [], 0, k⟩ := by
  have hinv := Reconstruction.inv_of_reachable hr
  refine HInv.of ?_ ?_ (by simp)
  · simp only
    rw [hs]
    refine ⟨hr, .refl _, ?_⟩
    intro t T hT he
    rw [hnew.2 t T hT] at he
    cases he
  · have := Incremental.queueViews_perm (r := scene.recon) (order scene.recon.viewIds) [] (by
      rw [List.append_nil]; exact (horder _).nodup_iff.2 hinv.wfViews) (by
      intro v hv
      obtain ⟨V, hV⟩ := AMap.mem_keys_iff.1 ((horder _).mem_iff.1 hv)
      exact ⟨V, hV, hnew.1 v V hV⟩)
    rw [List.append_nil] at this ⊢
    exact this.trans (horder _)

/-- All that is proved about a run on a reconstruction in which nothing is estimated. -/
theorem estimate_ok (hn : HybridWellBehaved num) (ho : ValidOptions o.common) (hinv : g.Inv)
    {scene : Localize.Scene F P M O X} (hr : scene.recon.Reachable)
    (hnew : NothingEstimated scene.recon) (hgv : GraphViews g scene.recon) (hshare : ShareTracks g scene.recon)
    {ok : Bool} (hq : num.rotations g = .ok (ok, qs)) (fuel : Nat) :
    ∃ x, estimate num o g fuel scene = .ok x ∧ (x = none → scene.recon.viewIds.length < fuel →
        Loses (constantOrientation num.common)) ∧
      ∀ summary s, x = some (summary, s) → HInv L scene.recon s ∧
        (summary.success = true → summary = ⟨true, SelectTracks.estimatedViews s.scene.recon,
          EstimatorUtils.estimatedTracks s.scene.recon⟩ ∧ EstIn s ∧ Finished (constantOrientation num.common) o qs s ∧
          ok = true ∧ 0 < qs.size ∧ ∃ a b info, a < b ∧ g.getEdge a b = some info ∧ (100 : Int) < info.verifiedMatches) ∧
        (summary.success = false → summary = ⟨false, [], []⟩ ∧
          (ok = false ∨ qs.size = 0 ∨ AdjustFails (constantOrientation num.common) ∨
          ∀ a b info, a < b → g.getEdge a b = some info → (100 : Int) < info.verifiedMatches →
            ∃ s1 s2, tryPair num o qs g (a, b) s1 = .ok (false, s2))) := by
  obtain ⟨heap, hheap⟩ := hn.common.calibrate scene
  unfold estimate Incremental.checkOptions estimateOrientations
  rw [if_pos ⟨ho.ratio.2, ho.ratio.1, ho.growth, ho.views⟩]
  simp only [Outcome.ok_bind, hheap, hq]
  cases ok with
  | false =>
    simp only [Bool.false_eq_true, if_false, Outcome.ok_bind]
    refine ⟨_, rfl, fun h => (by cases h), ?_⟩
    intro summary s e
    cases e
    exact ⟨start_inv (hn.common.order 0) (scene' := { scene with heap := heap }) rfl hr hnew 1, fun h => (by cases h),
      fun _ => ⟨rfl, Or.inl (by trivial)⟩⟩
  | true =>
    simp only [if_true, Outcome.ok_bind]
    have hrec := (setOrientations_recon qs.entries { scene with heap := heap }).1
    have h0 := start_inv (L := L) (hn.common.order 0) (scene' := setOrientations qs.entries { scene with heap := heap })
      (scene := scene) hrec hr hnew 1
    by_cases hpos : 0 < qs.size
    · rw [if_pos (by simpa using hpos)]
      unfold reconstruct chooseInitial
      obtain ⟨pairs, p1, p2, _⟩ := candidatePairs_ok (qs := qs) hn hinv (g := g)
        (scene := setOrientations qs.entries { scene with heap := heap }) (by rw [hrec]; exact hgv)
      simp only [p1, Outcome.ok_bind]
      obtain ⟨b, s1, h1, h2, h3, h4⟩ := chooseLoop_ok (qs := qs) hn ho hshare pairs h0 rfl (fun p hp => (p2 p).1 hp)
      rw [h1]
      simp only [Outcome.ok_bind]
      cases b with
      | false =>
        refine ⟨_, rfl, fun h => (by cases h), ?_⟩
        intro summary s e
        cases e
        refine ⟨h2, fun h => (by cases h), fun _ => ⟨rfl, Or.inr (Or.inr (Or.inr fun a b info hab he hm => ?_))⟩⟩
        exact (h3 rfl).2 (a, b) ((p2 (a, b)).2 ⟨info, hab, he, hm⟩)
      | true =>
        simp only [if_true]
        obtain ⟨pre, pair, post, e1, e2, _⟩ := h4 rfl
        have hlen : s1.unlocalized.length ≤ scene.recon.viewIds.length := by
          have := h2.all.length_eq
          rw [List.length_append] at this
          omega
        obtain ⟨x, k1, k2, k3⟩ := mainLoop_ok (o := o) (constantOrientation_wellBehaved hn.common) ho qs fuel h2 (seeded_est e2)
        rw [k1]
        simp only [Outcome.ok_bind]
        match x, k2, k3 with
        | none, _, k3 => exact ⟨_, rfl, fun _ h => k3 rfl (by omega), fun _ _ h => by cases h⟩
        | some (false, s2), k2, _ =>
          obtain ⟨l1, _, l2, _⟩ := k2 _ _ rfl
          refine ⟨_, rfl, fun h => (by cases h), ?_⟩
          intro summary s e
          cases e
          exact ⟨l1, fun h => (by cases h), fun _ => ⟨rfl, Or.inr (Or.inr (Or.inl (l2 rfl)))⟩⟩
        | some (true, s2), k2, _ =>
          obtain ⟨l1, l1', _, l3⟩ := k2 _ _ rfl
          refine ⟨_, rfl, fun h => (by cases h), ?_⟩
          intro summary s e
          cases e
          obtain ⟨info, q1, q2, q3⟩ := (p2 pair).1 (by rw [e1]; simp)
          exact ⟨l1, fun _ => ⟨rfl, l1', l3 rfl, by trivial, hpos, _, _, info, q1, q2, q3⟩, fun h => by cases h⟩
    · rw [if_neg (by simpa using hpos)]
      refine ⟨_, rfl, fun h => (by cases h), ?_⟩
      intro summary s e
      cases e
      exact ⟨h0, fun h => (by cases h), fun _ => ⟨rfl, Or.inr (Or.inl (by omega))⟩⟩

end

end Hybrid
end Theia
