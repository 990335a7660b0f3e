import Verif.Proof.RobustEstimators
import Verif.Props.Samplers
import Verif.Props.Triangulation
import Verif.Spec.TriangulationEstimator

/-!
# Lemmas for the robust estimation of points
-/

namespace Theia
namespace TriangulationEstimator

open Spec Triangulation RansacVariants

/-- What an observation says about its camera. -/
def key (o : Observation) : Cam × V2 := (o.camera, o.pixel)

theorem picked_map {α β : Type} (g : α → β) {data : List α} {idx : List Nat} {ds : List β} :
    Picked (data.map g) idx ds ↔ ∃ ds', Picked data idx ds' ∧ ds = ds'.map g := by
  unfold Picked
  induction idx generalizing ds with
  | nil => simp
  | cons i idx ih =>
    rw [List.forall₂_cons_left_iff]
    constructor
    · rintro ⟨d, l, h, hl, rfl⟩
      obtain ⟨l', hl', rfl⟩ := ih.1 hl
      rw [List.getElem?_map, Option.map_eq_some_iff] at h
      obtain ⟨d', hd', rfl⟩ := h
      exact ⟨d' :: l', .cons hd' hl', rfl⟩
    · rintro ⟨ds', h, rfl⟩
      rw [List.forall₂_cons_left_iff] at h
      obtain ⟨d, l, h, hl, rfl⟩ := h
      exact ⟨g d, l.map g, by rw [List.getElem?_map, h]; rfl, ih.2 ⟨l, hl, rfl⟩, rfl⟩

theorem drawn_map {α β : Type} (g : α → β) {data : List α} {sample : Nat → Option (List Nat)} {i : Nat} {ds : List β} :
    Drawn (data.map g) sample i ds ↔ ∃ ds', Drawn data sample i ds' ∧ ds = ds'.map g := by
  unfold Drawn
  constructor
  · rintro ⟨idx, h, hp⟩
    obtain ⟨ds', h1, h2⟩ := (picked_map g).1 hp
    exact ⟨ds', ⟨idx, h, h1⟩, h2⟩
  · rintro ⟨ds', ⟨idx, h, h1⟩, h2⟩
    exact ⟨idx, h, (picked_map g).2 ⟨ds', h1, h2⟩⟩

/-- A result for data is one for what matters of them. -/
theorem robust_map {α β M : Type} (g : α → β) {data : List α} {sample : Nat → Option (List Nat)} {n : Nat}
    {computed expected : List β → M → Prop} {fits : M → β → Prop} {mle : Bool} {t : ℝ} {residual : M → β → ℝ} {initial m : M}
    {inliers : List Nat}
    (h : RobustResult data sample n (fun ds m => (∀ d ∈ ds, d ∈ data) → computed (ds.map g) m) (fun ds m => expected (ds.map g) m)
      (fun m d => fits m (g d)) (fun m => robustCost mle t (fun d => fits m (g d)) (fun d => residual m (g d)) data) initial m inliers) :
    RobustResult (data.map g) sample n computed expected fits
      (fun m => robustCost mle t (fits m) (residual m) (data.map g)) initial m inliers := by
  have hcost : ∀ m, robustCost mle t (fits m) (residual m) (data.map g) =
      robustCost mle t (fun d => fits m (g d)) (fun d => residual m (g d)) data := by
    intro m
    unfold robustCost
    rw [List.map_map]
    rfl
  obtain ⟨h1, h2, h3, h4⟩ := h
  have hcomp : ∀ {i ds}, Drawn data sample i ds → ((∀ d ∈ ds, d ∈ data) → computed (ds.map g) m) →
      Drawn (data.map g) sample i (ds.map g) ∧ computed (ds.map g) m := by
    intro i ds hd hc
    exact ⟨(drawn_map g).2 ⟨ds, hd, rfl⟩, hc (drawn_mem hd)⟩
  refine ⟨?_, ?_, h3, fun i => ?_⟩
  · rcases h1 with h | ⟨i, hi, ds, hd, hc⟩
    · exact .inl h
    · exact .inr ⟨i, hi, _, hcomp hd hc⟩
  · intro i hi ds m' hd he
    obtain ⟨ds', hd', rfl⟩ := (drawn_map g).1 hd
    obtain ⟨⟨i', hi', ds'', hd'', hc⟩, hle⟩ := h2 i hi ds' m' hd' he
    refine ⟨⟨i', hi', _, hcomp hd'' hc⟩, ?_⟩
    simp only [hcost]
    exact hle
  · rw [h4]
    simp only [List.getElem?_map, Option.map_eq_some_iff]
    constructor
    · rintro ⟨d, hd, hf⟩
      exact ⟨g d, ⟨d, hd, rfl⟩, hf⟩
    · rintro ⟨_, ⟨d, hd, rfl⟩, hf⟩
      exact ⟨d, hd, hf⟩

theorem observations_spec : ∀ (l : List (Cam × V2)), (∀ o ∈ l, ∃ n, NormalizedFeature o n) →
    ∃ os, observations l = .ok os ∧ os.map key = l ∧ ∀ o ∈ os, o.projection = poseMatrix o.camera ∧ NormalizedFeature (key o) o.normalized
  | [], _ => ⟨[], rfl, rfl, by simp⟩
  | (c, f) :: l, h => by
    obtain ⟨os, h1, h2, h3⟩ := observations_spec l fun o ho => h o (by simp [ho])
    obtain ⟨n, ray, hr, hz, hn⟩ := h (c, f) (by simp)
    refine ⟨⟨poseMatrix c, c, n, f⟩ :: os, ?_, by simp [key, h2], ?_⟩
    · rw [observations]
      simp only at hr
      simp only [observation, hr, Outcome.ok_bind, if_neg hz, h1, hn]
      rfl
    · rw [List.forall_mem_cons]
      exact ⟨⟨rfl, ray, hr, hz, hn⟩, h3⟩

theorem error_spec (t : ℝ) (o : Observation) (X : V4) : (error o X < (t : WithTop ℝ) ↔ ImagedWithin t X (key o)) ∧
    (ImagedWithin t X (key o) → error o X = ((imageSq X (key o) : ℝ) : WithTop ℝ)) := by
  have hsq : ∀ u v : ℝ × ℝ, AbsolutePoseEstimators.squaredDistance (some u) (some v) = ((distanceSq u v : ℝ) : WithTop ℝ) := by
    intro u v
    simp only [AbsolutePoseEstimators.squaredDistance, sq2, distanceSq, pow_two]
  unfold error
  simp only [show o.camera.rotation.mulVec (X.1.sub (o.camera.position.smul X.2)) = inCamera o.camera X from rfl]
  cases hp : o.camera.toPixel (inCamera o.camera X) with
  | abort => simp [ImagedWithin, key, hp]
  | ub => simp [ImagedWithin, key, hp]
  | ok pixel =>
    have him : imageSq X (key o) = distanceSq o.pixel pixel := by
      unfold imageSq
      have h : ∃ pixel, (key o).1.toPixel (inCamera (key o).1 X) = .ok pixel := ⟨pixel, hp⟩
      rw [dif_pos h]
      have := h.choose_spec.symm.trans hp
      rw [Outcome.ok.inj this]
      rfl
    have hw : ImagedWithin t X (key o) ↔ Before o.camera X ∧ distanceSq o.pixel pixel < t := by
      simp [ImagedWithin, key, hp]
    rw [hw, him]
    simp only
    by_cases h0 : X.2 = 0
    · rw [if_pos h0]
      have hb : Before o.camera X ↔ 0 ≤ (inCamera o.camera X).z := by simp [Before, h0]
      rw [hb]
      by_cases hz : (inCamera o.camera X).z < 0
      · rw [if_pos hz]
        simp [hz]
      · rw [if_neg hz, hsq, WithTop.coe_lt_coe]
        exact ⟨⟨fun h => ⟨not_lt.1 hz, h⟩, fun h => h.2⟩, fun _ => rfl⟩
    · rw [if_neg h0]
      have hb : Before o.camera X ↔ 0 < (inCamera o.camera X).z / X.2 := by
        simp only [Before, h0, false_and, or_false]
        rw [div_eq_mul_inv, mul_pos_iff, mul_pos_iff, inv_pos, inv_lt_zero]
      rw [hb]
      by_cases hz : (inCamera o.camera X).z / X.2 ≤ 0
      · rw [if_pos hz]
        simp [not_lt.2 hz]
      · rw [if_neg hz, hsq, WithTop.coe_lt_coe]
        exact ⟨⟨fun h => ⟨not_le.1 hz, h⟩, fun h => h.2⟩, fun _ => rfl⟩

theorem poseMatrix_apply (c : Cam) (X : V4) : applyP (poseMatrix c) X = inCamera c X := by
  apply V3.ext <;> simp only [applyP, poseMatrix, inCamera, M3.mulVec, V3.dot, V3.add, V3.neg, V3.smul, V3.sub] <;> ring

theorem estimateModel_cases (smallest : (V4 → ℝ) → V4) (P1 P2 : P34) (p1 p2 : V2) :
    (∃ X, triangulate smallest P1 P2 p1 p2 = .ok X ∧
      estimateModel smallest P1 P2 p1 p2 = .ok (if 0 < (applyP P1 X).z ∧ 0 < (applyP P2 X).z then some X else none)) ∨
    ((∀ X, triangulate smallest P1 P2 p1 p2 ≠ .ok X) ∧
      (estimateModel smallest P1 P2 p1 p2 = .ub ∨ estimateModel smallest P1 P2 p1 p2 = .abort)) := by
  unfold estimateModel
  cases h : triangulate smallest P1 P2 p1 p2 with
  | ok X => exact .inl ⟨X, rfl, rfl⟩
  | ub => exact .inr ⟨by simp, .inl rfl⟩
  | abort => exact .inr ⟨by simp, .inr rfl⟩

/-- The calls of the exhaustive sampler. -/
theorem exhaustive_spec {n : Nat} (hn : 2 ≤ n) :
    SamplesOf 2 n (exhaustiveSample n) ∧
      (∀ i, ∃ a b, a < b ∧ b < n ∧ exhaustiveSample n i = some [a, b]) ∧
      ∀ a b, a < b → b < n → ∃ i < n * (n - 1) / 2, exhaustiveSample n i = some [a, b] := by
  obtain ⟨pairs, -, hmem, hlen, hcyc⟩ := C22_exhaustive_cycles n hn ⟨0, 1, n⟩ (by rw [ExhaustiveSampler.init, if_pos hn])
  have hlen' : pairs.length = n * (n - 1) / 2 := by omega
  have hget : ∀ i k, i < k → (ExhaustiveSampler.samples k ⟨0, 1, n⟩).1[i]? =
      some ((ExhaustiveSampler.samples i ⟨0, 1, n⟩).2.sample.1) := by
    have hl : ∀ k s, (ExhaustiveSampler.samples k s).1.length = k := by
      intro k
      induction k with
      | zero => intro s; rfl
      | succ k ih => intro s; simp [ExhaustiveSampler.samples, ih]
    intro i k hik
    obtain ⟨d, rfl⟩ : ∃ d, k = i + (d + 1) := ⟨k - i - 1, by omega⟩
    rw [ExhaustiveSampler.samples_add]
    simp only
    rw [List.getElem?_append_right (by rw [hl]), hl, Nat.sub_self]
    rfl
  have hpos : 0 < pairs.length := List.length_pos_of_mem ((hmem (0, 1)).2 ⟨by omega, by omega⟩)
  have hpair : ∀ i, ∃ a b, a < b ∧ b < n ∧ exhaustiveSample n i = some [a, b] := by
    intro i
    have h := hget i ((i + 1) * pairs.length) (by nlinarith)
    rw [hcyc] at h
    have hm := List.mem_of_getElem? h
    obtain ⟨l, hl, hml⟩ := List.mem_flatten.1 hm
    rw [List.eq_of_mem_replicate hl] at hml
    obtain ⟨h1, h2⟩ := (hmem _).1 hml
    exact ⟨_, _, h1, h2, rfl⟩
  refine ⟨fun i idx h => ?_, hpair, fun a b hab hb => ?_⟩
  · obtain ⟨a, b, h1, h2, h3⟩ := hpair i
    rw [h3] at h
    cases h
    simp
    omega
  · have : (a, b) ∈ pairs := (hmem _).2 ⟨hab, hb⟩
    obtain ⟨i, hi, he⟩ := List.getElem_of_mem this
    refine ⟨i, by omega, ?_⟩
    have h := hget i pairs.length hi
    have h1 := hcyc 1
    rw [one_mul] at h1
    rw [h1] at h
    simp only [List.replicate_one, List.flatten_cons, List.flatten_nil, List.append_nil, List.getElem?_eq_getElem hi, he,
      Option.some.injEq] at h
    unfold exhaustiveSample
    simp only [← h]

/-- The consensus over the observations. -/
theorem consensus_result (smallest : (V4 → ℝ) → V4) (junk : List Observation → Option V4) {t : RansacType} (ht : t ≠ .lmed) {s : Settings}
    (hs : 0 < s.errorThresh) (hp : s.params.Valid) (lmed : List (WithTop ℝ) → WithTop ℝ × List Nat) {data : List (Cam × V2)}
    (h2 : 2 ≤ data.length) {sample : Nat → Option (List Nat)} (hsam : SamplesOf 2 data.length sample) {os : List Observation}
    (hkey : os.map key = data) (hos : ∀ o ∈ os, o.projection = poseMatrix o.camera ∧ NormalizedFeature (key o) o.normalized)
    (initial : V4) :
    ∃ X sum, consensus t s lmed os sample (models smallest junk) 2 error initial = .ok (X, sum) ∧
      s.params.minIterations ≤ sum.numIterations ∧ (sum.numIterations : Int) ≤ max 0 s.params.maxIterations ∧
      RobustResult data sample sum.numIterations (fun ds X => PointOfPair smallest ds X ∨ DegeneratePair smallest ds)
        (PointOfPair smallest) (ImagedWithin s.errorThresh)
        (fun X => robustCost s.useMle s.errorThresh (ImagedWithin s.errorThresh X) (imageSq X) data) initial X sum.inliers := by
  have hlen : os.length = data.length := by rw [← hkey, List.length_map]
  have hA : ∀ ds ms X, ds.length = 2 → models smallest junk ds = some ms → X ∈ ms → (∀ d ∈ ds, d ∈ os) →
      PointOfPair smallest (ds.map key) X ∨ DegeneratePair smallest (ds.map key) := by
    intro ds ms X hl he hm hmem
    obtain ⟨a, b, rfl⟩ := List.length_eq_two.1 hl
    obtain ⟨pa, na⟩ := hos a (hmem a (by simp))
    obtain ⟨pb, nb⟩ := hos b (hmem b (by simp))
    simp only [models, pa, pb] at he
    rcases estimateModel_cases smallest (poseMatrix a.camera) (poseMatrix b.camera) a.normalized b.normalized with ⟨Y, e1, e2⟩ | ⟨e1, e2⟩
    · rw [e2] at he
      by_cases hc : 0 < (applyP (poseMatrix a.camera) Y).z ∧ 0 < (applyP (poseMatrix b.camera) Y).z
      · rw [if_pos hc] at he
        simp only [Option.some.injEq] at he
        subst he
        obtain rfl := List.mem_singleton.1 hm
        rw [poseMatrix_apply, poseMatrix_apply] at hc
        exact .inl ⟨key a, key b, rfl, ⟨_, _, na, nb, e1⟩, hc⟩
      · rw [if_neg hc] at he
        cases he
    · exact .inr ⟨key a, key b, rfl, _, ⟨_, _, na, nb, rfl⟩, e1⟩
  have hB : ∀ ds X, PointOfPair smallest (ds.map key) X → ds.length = 2 → (∀ d ∈ ds, d ∈ os) →
      ∃ ms X', models smallest junk ds = some ms ∧ X' ∈ ms ∧ ∀ d, error d X' = error d X := by
    rintro ds X hX hl hmem
    obtain ⟨a, b, rfl⟩ := List.length_eq_two.1 hl
    obtain ⟨pa, na⟩ := hos a (hmem a (by simp))
    obtain ⟨pb, nb⟩ := hos b (hmem b (by simp))
    obtain ⟨a', b', e, ⟨n1, n2, h1, h2, htri⟩, hc⟩ := hX
    simp only [List.map_cons, List.map_nil, List.cons.injEq, and_true] at e
    obtain ⟨rfl, rfl⟩ := e
    have huniq : ∀ {o n n'}, NormalizedFeature o n → NormalizedFeature o n' → n = n' := by
      rintro o n n' ⟨r, e1, -, rfl⟩ ⟨r', e2, -, rfl⟩
      rw [e1] at e2
      cases e2
      rfl
    obtain rfl := huniq h1 na
    obtain rfl := huniq h2 nb
    refine ⟨[X], X, ?_, by simp, fun _ => rfl⟩
    simp only [models, pa, pb]
    rcases estimateModel_cases smallest (poseMatrix a.camera) (poseMatrix b.camera) a.normalized b.normalized with ⟨Y, e1, e2⟩ | ⟨e1, -⟩
    · have : Y = X := Outcome.ok.inj (e1.symm.trans htri)
      subst this
      rw [e2, if_pos (by rw [poseMatrix_apply, poseMatrix_apply]; exact hc)]
    · exact absurd htri (e1 X)
  obtain ⟨X, sum, hr, h1, h3, hR⟩ := robust_result (t := t) (k := 2) (s := s) (data := os) (sample := sample)
    (computed := fun ds X => (∀ d ∈ ds, d ∈ os) → PointOfPair smallest (ds.map key) X ∨ DegeneratePair smallest (ds.map key))
    (expected := fun ds X => PointOfPair smallest (ds.map key) X) (fits := fun X o => ImagedWithin s.errorThresh X (key o))
    (residual := fun X o => imageSq X (key o)) ht (fun _ => rfl) hs hp lmed (by rw [hlen]; exact hsam) (models smallest junk) (by norm_num)
    (by rw [hlen]; exact h2) error initial hA (fun X o => (error_spec _ o X).1) (fun X o => (error_spec _ o X).2) hB
  refine ⟨X, sum, hr, h1, h3, ?_⟩
  rw [← hkey]
  exact robust_map key hR

end TriangulationEstimator
end Theia
