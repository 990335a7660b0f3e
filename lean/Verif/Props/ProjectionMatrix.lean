import Verif.Proof.ProjectionMatrix

/-!
# C58: composing and decomposing projection matrices
-/

namespace Theia
namespace ProjectionMatrix

open Triangulation Spec EssentialMatrix

/-- The assumption on Eigen's QR decomposition. -/
def QrCorrect (qr : M3 ℝ → M3 ℝ × M3 ℝ) : Prop := ∀ m, IsQr m (qr m).1 (qr m).2

/-- The assumption on Eigen's singular value decomposition. Only the decompositions of rotations matter here. -/
def SvdCorrectOnRotations (svd : M3 ℝ → M3 ℝ × M3 ℝ) : Prop := ∀ m, m.IsRotation → IsSvd m (svd m).1 (svd m).2

/-! ## The assumptions can be met -/

theorem exists_direction (v : V3 ℝ) : ∃ (u : V3 ℝ) (s : ℝ), u.dot u = 1 ∧ v = u.smul s := by
  by_cases hv : v.dot v = 0
  · refine ⟨⟨1, 0, 0⟩, 0, by norm_num [V3.dot], ?_⟩
    rw [V3.self_eq_zero hv]; apply V3.ext <;> simp [V3.smul, V3.zero]
  · have hp : 0 < v.dot v := lt_of_le_of_ne (V3.self_nonneg v) (Ne.symm hv)
    have hs := Real.mul_self_sqrt hp.le
    have hs0 : Real.sqrt (v.dot v) ≠ 0 := (Real.sqrt_pos.2 hp).ne'
    refine ⟨v.smul (Real.sqrt (v.dot v))⁻¹, Real.sqrt (v.dot v), ?_, ?_⟩
    · have e : (v.smul (Real.sqrt (v.dot v))⁻¹).dot (v.smul (Real.sqrt (v.dot v))⁻¹) =
          v.dot v / (Real.sqrt (v.dot v) * Real.sqrt (v.dot v)) := by
        generalize Real.sqrt (v.dot v) = s
        simp only [V3.dot, V3.smul]; ring
      rw [e, hs, div_self hv]
    · rw [V3.smul_smul, mul_inv_cancel₀ hs0, V3.one_smul']

theorem exists_perpendicular (u : V3 ℝ) : ∃ w : V3 ℝ, w.dot w = 1 ∧ u.dot w = 0 := by
  by_cases hx : u.x = 0 ∧ u.y = 0
  · exact ⟨⟨1, 0, 0⟩, by norm_num [V3.dot], by simp [V3.dot, hx.1]⟩
  · obtain ⟨w, s, hw, hs⟩ := exists_direction ⟨-u.y, u.x, 0⟩
    refine ⟨w, hw, ?_⟩
    have hs0 : s ≠ 0 := by
      rintro rfl
      simp only [V3.smul, V3.mk.injEq, zero_mul, neg_eq_zero] at hs
      exact hx ⟨hs.2.1, hs.1⟩
    have : s * u.dot w = 0 := by
      have e : u.dot (w.smul s) = 0 := by rw [← hs]; simp only [V3.dot]; ring
      simpa [V3.dot, V3.smul, mul_add, mul_left_comm] using e
    exact (mul_eq_zero.1 this).resolve_left hs0

theorem exists_perpendicular_direction {u : V3 ℝ} (hu : u.dot u = 1) (v : V3 ℝ) :
    ∃ (w : V3 ℝ) (a s : ℝ), w.dot w = 1 ∧ u.dot w = 0 ∧ v = (u.smul a).add (w.smul s) := by
  obtain ⟨w, s, hw, hs⟩ := exists_direction (v.sub (u.smul (u.dot v)))
  by_cases hs0 : s = 0
  · obtain ⟨w', hw', hp⟩ := exists_perpendicular u
    refine ⟨w', u.dot v, 0, hw', hp, ?_⟩
    rw [hs0] at hs
    simp only [V3.smul, V3.sub, V3.mk.injEq, zero_mul] at hs
    apply V3.ext <;> simp only [V3.add, V3.smul] <;> linarith [hs.1, hs.2.1, hs.2.2]
  · refine ⟨w, u.dot v, s, hw, ?_, ?_⟩
    · have : s * u.dot w = 0 := by
        have e : u.dot (w.smul s) = 0 := by
          rw [← hs]
          have : u.dot (v.sub (u.smul (u.dot v))) = u.dot v - u.dot v * u.dot u := by
            simp only [V3.dot, V3.sub, V3.smul]; ring
          rw [this, hu]; ring
        simpa [V3.dot, V3.smul, mul_add, mul_left_comm] using e
      exact (mul_eq_zero.1 this).resolve_left hs0
    · rw [← hs]; apply V3.ext <;> simp only [V3.add, V3.smul, V3.sub] <;> ring

theorem isRotation_of_rows {u w : V3 ℝ} (hu : u.dot u = 1) (hw : w.dot w = 1) (huw : u.dot w = 0) :
    (⟨u, w, u.cross w⟩ : M3 ℝ).IsRotation := by
  simp only [V3.dot] at hu hw huw
  refine ⟨?_, ?_, ?_⟩
  · apply M3.ext <;> apply V3.ext <;> simp only [M3.mul, M3.transpose, M3.mulVec, V3.dot, M3.one, V3.cross]
    · linear_combination (w.y * w.y + w.z * w.z) * hu + (1 - u.x * u.x) * hw - (u.y * w.y + u.z * w.z - u.x * w.x) * huw
    · linear_combination (-(u.x * u.y)) * hw - w.x * w.y * hu + (u.y * w.x + u.x * w.y) * huw
    · linear_combination (-(u.x * u.z)) * hw - w.x * w.z * hu + (u.z * w.x + u.x * w.z) * huw
    · linear_combination (-(u.x * u.y)) * hw - w.x * w.y * hu + (u.y * w.x + u.x * w.y) * huw
    · linear_combination (w.x * w.x + w.z * w.z) * hu + (1 - u.y * u.y) * hw - (u.x * w.x + u.z * w.z - u.y * w.y) * huw
    · linear_combination (-(u.y * u.z)) * hw - w.y * w.z * hu + (u.z * w.y + u.y * w.z) * huw
    · linear_combination (-(u.x * u.z)) * hw - w.x * w.z * hu + (u.z * w.x + u.x * w.z) * huw
    · linear_combination (-(u.y * u.z)) * hw - w.y * w.z * hu + (u.z * w.y + u.y * w.z) * huw
    · linear_combination (w.x * w.x + w.y * w.y) * hu + (1 - u.z * u.z) * hw - (u.x * w.x + u.y * w.y - u.z * w.z) * huw
  · apply M3.ext <;> apply V3.ext <;> simp only [M3.mul, M3.transpose, M3.mulVec, V3.dot, M3.one, V3.cross]
    · linarith
    · linarith
    · ring
    · linarith
    · linarith
    · ring
    · ring
    · ring
    · linear_combination (w.x * w.x + w.y * w.y + w.z * w.z) * hu + hw - (u.x * w.x + u.y * w.y + u.z * w.z) * huw
  · simp only [M3.det, V3.dot, V3.cross]
    linear_combination (w.x * w.x + w.y * w.y + w.z * w.z) * hu + hw - (u.x * w.x + u.y * w.y + u.z * w.z) * huw

theorem exists_qr (m : M3 ℝ) : ∃ q r, IsQr m q r := by
  obtain ⟨u, r11, hu, h1⟩ := exists_direction m.transpose.r1
  obtain ⟨w, r12, r22, hw, huw, h2⟩ := exists_perpendicular_direction hu m.transpose.r2
  have hrot : (⟨u, w, u.cross w⟩ : M3 ℝ).IsRotation := isRotation_of_rows hu hw huw
  refine ⟨(⟨u, w, u.cross w⟩ : M3 ℝ).transpose, ⟨⟨r11, r12, u.dot m.transpose.r3⟩, ⟨0, r22, w.dot m.transpose.r3⟩,
    ⟨0, 0, (u.cross w).dot m.transpose.r3⟩⟩, isOrthogonal_transpose (isOrthogonal_of_isRotation hrot), ?_⟩
  have h3 := hrot.transpose_mulVec m.transpose.r3
  generalize u.cross w = n at h3 hrot
  simp only [M3.transpose, V3.smul, V3.add, V3.mk.injEq, M3.mulVec, V3.dot] at h1 h2 h3
  apply M3.ext <;> apply V3.ext <;> simp only [M3.mul, M3.transpose, M3.mulVec, V3.dot] <;>
    linarith [h1.1, h1.2.1, h1.2.2, h2.1, h2.2.1, h2.2.2, h3.1, h3.2.1, h3.2.2]

/-- Functions as assumed exist. -/
theorem assumptions_met : (∃ qr, QrCorrect qr) ∧ ∃ svd, SvdCorrectOnRotations svd := by
  constructor
  · classical
    exact ⟨fun m => ((exists_qr m).choose, (exists_qr m).choose_spec.choose), fun m => (exists_qr m).choose_spec.choose_spec⟩
  · refine ⟨fun m => (m, M3.one), fun m hm => ⟨isOrthogonal_of_isRotation hm,
      isOrthogonal_of_isRotation M3.IsRotation.one, ⟨1, 1, 1⟩, le_refl _, le_refl _, zero_le_one, ?_⟩⟩
    apply M3.ext <;> apply V3.ext <;> simp [M3.mul, M3.transpose, M3.mulVec, V3.dot, M3.one]

/-! ## The RQ decomposition -/

/-- The RQ decomposition of any 3x3 matrix gives an upper triangular matrix and a rotation, with determinant one, whose product
is the matrix. -/
theorem C58_rq {qr : M3 ℝ → M3 ℝ × M3 ℝ} (hqr : QrCorrect qr) (m : M3 ℝ) :
    (rq qr m).1.mul (rq qr m).2 = m ∧ UpperTriangular (rq qr m).1 ∧ (rq qr m).2.IsRotation :=
  rq_spec (hqr _)

example : ∃ qr, ∃ m : M3 ℝ, m.det < 0 ∧ (rq qr m).2.IsRotation ∧ (rq qr m).1.mul (rq qr m).2 = m := by
  obtain ⟨qr, hqr⟩ := assumptions_met.1
  exact ⟨qr, ⟨⟨1, 2, 3⟩, ⟨0, -1, 4⟩, ⟨-1, 0, 1⟩⟩, by norm_num [M3.det, V3.dot, V3.cross],
    (C58_rq hqr _).2.2, (C58_rq hqr _).1⟩

/-! ## Decomposition -/

/-- The decomposition fails exactly for the matrices with a singular left block. Otherwise it gives a calibration matrix, upper
triangular with a positive diagonal, a rotation and a position that together act on every homogeneous point as the given
projection matrix does, up to its sign. -/
theorem C58_decompose {qr svd : M3 ℝ → M3 ℝ × M3 ℝ} {ofM : M3 ℝ → V3 ℝ} (hqr : QrCorrect qr)
    (hsvd : SvdCorrectOnRotations svd) (hlog : AngleAxis.IsLog ofM) (P : P34) :
    (decompose qr svd ofM P = none ↔ P.1.det = 0) ∧
    ∀ K r c, decompose qr svd ofM P = some (K, r, c) → CalibrationMatrix K ∧
      SameCamera P.1 P.2 (if 0 < P.1.det then 1 else -1) K (AngleAxis.toM r) c := by
  have hrq := rq_spec (hqr (reverseColumns P.1.transpose))
  by_cases hd : P.1.det = 0
  · have hdet : P.1.det = (rq qr P.1).1.det := by
      rw [← congrArg M3.det hrq.1, M3.det_mul, hrq.2.2.det, mul_one]
    have : decompose qr svd ofM P = none := by
      unfold decompose
      simp only
      rw [← hdet, if_pos hd]
    exact ⟨⟨fun _ => hd, fun _ => this⟩, fun K r c h => by rw [this] at h; cases h⟩
  · obtain ⟨K, R, c, he, hK, hR, hs⟩ := decompose_spec (ofM := ofM) (hqr _) (hsvd _ hrq.2.2) hd
    refine ⟨⟨fun h => (by rw [he] at h; cases h), fun h => absurd h hd⟩, fun K' r' c' h => ?_⟩
    rw [he, Option.some.injEq, Prod.mk.injEq, Prod.mk.injEq] at h
    obtain ⟨rfl, rfl, rfl⟩ := h
    exact ⟨hK, by rw [(hlog R hR).1]; exact hs⟩

/-- A projection matrix has only one decomposition, up to its sign. -/
theorem C58_unique {M : M3 ℝ} {m : V3 ℝ} {s1 s2 : ℝ} {K1 K2 R1 R2 : M3 ℝ} {c1 c2 : V3 ℝ} (hs1 : s1 = 1 ∨ s1 = -1)
    (hs2 : s2 = 1 ∨ s2 = -1) (hK1 : CalibrationMatrix K1) (hK2 : CalibrationMatrix K2) (hR1 : R1.IsRotation)
    (hR2 : R2.IsRotation) (h1 : SameCamera M m s1 K1 R1 c1) (h2 : SameCamera M m s2 K2 R2 c2) :
    s1 = s2 ∧ K1 = K2 ∧ R1 = R2 ∧ c1 = c2 := by
  have e : ∀ {s : ℝ} {K R : M3 ℝ} {c : V3 ℝ}, SameCamera M m s K R c → M = scale s (K.mul R) := by
    intro s K R c h
    refine eq_of_mulVec fun v => ?_
    have := h v 0
    have z : ∀ a : V3 ℝ, a.smul 0 = V3.zero := fun a => by apply V3.ext <;> simp [V3.smul, V3.zero]
    rw [z, z] at this
    have a0 : ∀ a : V3 ℝ, a.add V3.zero = a := fun a => by apply V3.ext <;> simp [V3.add, V3.zero]
    have s0 : ∀ a : V3 ℝ, a.sub V3.zero = a := fun a => by apply V3.ext <;> simp [V3.sub, V3.zero]
    rw [a0, s0] at this
    rw [this, ← M3.mulVec_mul]
    apply V3.ext <;> simp only [scale, M3.mulVec, V3.dot, V3.smul] <;> ring
  have d : ∀ {s : ℝ} {K R : M3 ℝ}, CalibrationMatrix K → R.IsRotation → (scale s (K.mul R)).det =
      s ^ 3 * (K.r1.x * K.r2.y * K.r3.z) := by
    intro s K R hK hR
    rw [← upper_det hK.1]
    have : (scale s (K.mul R)).det = s ^ 3 * (K.mul R).det := by
      generalize K.mul R = a
      simp only [scale, M3.det, V3.dot, V3.cross, V3.smul]; ring
    rw [this, M3.det_mul, hR.det, mul_one]
  have p1 := mul_pos (mul_pos hK1.2.1 hK1.2.2.1) hK1.2.2.2
  have p2 := mul_pos (mul_pos hK2.2.1 hK2.2.2.1) hK2.2.2.2
  have hs : s1 = s2 := by
    have h12 : s1 ^ 3 * (K1.r1.x * K1.r2.y * K1.r3.z) = s2 ^ 3 * (K2.r1.x * K2.r2.y * K2.r3.z) := by
      rw [← d hK1 hR1, ← d hK2 hR2, ← e h1, ← e h2]
    rcases hs1 with rfl | rfl <;> rcases hs2 with rfl | rfl
    · rfl
    · norm_num at h12; linarith
    · norm_num at h12; linarith
    · rfl
  subst hs
  have hss : s1 * s1 = 1 := by rcases hs1 with rfl | rfl <;> norm_num
  have hKR : K1.mul R1 = K2.mul R2 := by
    have h := (e h1).symm.trans (e h2)
    have ss : ∀ a : M3 ℝ, scale s1 (scale s1 a) = a := fun a => by
      apply M3.ext <;> apply V3.ext <;> simp only [scale, V3.smul, ← mul_assoc, hss, one_mul]
    rw [← ss (K1.mul R1), ← ss (K2.mul R2), h]
  obtain ⟨rfl, rfl⟩ := factors_unique hK1 hK2 hR1 hR2 hKR
  refine ⟨rfl, rfl, rfl, ?_⟩
  have ha := (h1 V3.zero 1).symm.trans (h2 V3.zero 1)
  have hb : K1.mulVec (R1.mulVec (V3.zero.sub (c1.smul 1))) = K1.mulVec (R1.mulVec (V3.zero.sub (c2.smul 1))) := by
    have := congrArg (fun v : V3 ℝ => v.smul s1) ha
    simpa only [V3.smul_smul, hss, V3.one_smul'] using this
  have hc := calibration_injective hK1 hb
  have hd := congrArg (fun v => R1.transpose.mulVec v) hc
  simp only [hR1.transpose_mulVec] at hd
  simp only [V3.sub, V3.smul, V3.zero, V3.mk.injEq, one_mul, zero_sub, neg_inj] at hd
  exact V3.ext hd.1 hd.2.1 hd.2.2

/-! ## Composition -/

/-- The composition acts as rotation, translation and calibration do. -/
theorem C58_compose (K : M3 ℝ) (r c : V3 ℝ) :
    SameCamera (compose K r c).1 (compose K r c).2 1 K (AngleAxis.toM r) c := by
  intro X w
  have hR : (if r.dot r = 0 then M3.one else AngleAxis.toM r) = AngleAxis.toM r := by
    by_cases h : r.dot r = 0
    · rw [if_pos h, V3.self_eq_zero h, AngleAxis.toM_zero]
    · rw [if_neg h]
  unfold compose
  simp only [hR]
  rw [M3.mulVec_mul, V3.one_smul']
  generalize AngleAxis.toM r = R
  apply V3.ext <;> simp only [V3.add, V3.smul, V3.sub, V3.neg, M3.mulVec, V3.dot] <;> ring

/-- A camera whose projection matrix is composed, multiplied by any number other than zero and decomposed again comes back: the
calibration matrix up to the number's absolute value, the same rotation and the same position. -/
theorem C58_round_trip {qr svd : M3 ℝ → M3 ℝ × M3 ℝ} {ofM : M3 ℝ → V3 ℝ} (hqr : QrCorrect qr)
    (hsvd : SvdCorrectOnRotations svd) (hlog : AngleAxis.IsLog ofM) {K : M3 ℝ} (hK : CalibrationMatrix K) (r c : V3 ℝ)
    {l : ℝ} (hl : l ≠ 0) :
    ∃ r', decompose qr svd ofM (scale l (compose K r c).1, (compose K r c).2.smul l) = some (scale |l| K, r', c) ∧
      AngleAxis.toM r' = AngleAxis.toM r := by
  have hcam : ∃ σ, (σ = 1 ∨ σ = -1) ∧
      SameCamera (scale l (compose K r c).1) ((compose K r c).2.smul l) σ (scale |l| K) (AngleAxis.toM r) c := by
    have h0 := C58_compose K r c
    have hσ : ∃ σ : ℝ, (σ = 1 ∨ σ = -1) ∧ σ * |l| = l := by
      rcases lt_or_gt_of_ne hl with h | h
      · exact ⟨-1, Or.inr rfl, by rw [abs_of_neg h]; ring⟩
      · exact ⟨1, Or.inl rfl, by rw [abs_of_pos h, one_mul]⟩
    obtain ⟨σ, h1, h2⟩ := hσ
    refine ⟨σ, h1, fun X w => ?_⟩
    have a := h0 X w
    rw [V3.one_smul'] at a
    have e : ((scale l (compose K r c).1).mulVec X).add (((compose K r c).2.smul l).smul w) =
        (((compose K r c).1.mulVec X).add ((compose K r c).2.smul w)).smul l := by
      apply V3.ext <;> simp only [scale, M3.mulVec, V3.add, V3.dot, V3.smul] <;> ring
    have e2 : ∀ v : V3 ℝ, ((scale |l| K).mulVec v).smul σ = (K.mulVec v).smul l := by
      intro v
      apply V3.ext <;> simp only [scale, M3.mulVec, V3.dot, V3.smul]
      · linear_combination (K.r1.x * v.x + K.r1.y * v.y + K.r1.z * v.z) * h2
      · linear_combination (K.r2.x * v.x + K.r2.y * v.y + K.r2.z * v.z) * h2
      · linear_combination (K.r3.x * v.x + K.r3.y * v.y + K.r3.z * v.z) * h2
    rw [e, a, e2]
  obtain ⟨σ, hσ, hcam⟩ := hcam
  have habs := abs_pos.2 hl
  have hK' : CalibrationMatrix (scale |l| K) := by
    obtain ⟨⟨h1, h2, h3⟩, p1, p2, p3⟩ := hK
    exact ⟨⟨by simp [scale, V3.smul, h1], by simp [scale, V3.smul, h2], by simp [scale, V3.smul, h3]⟩,
      mul_pos habs p1, mul_pos habs p2, mul_pos habs p3⟩
  obtain ⟨hnone, hsome⟩ := C58_decompose hqr hsvd hlog (scale l (compose K r c).1, (compose K r c).2.smul l)
  have hR := AngleAxis.isRotation_toM r
  cases hd : decompose qr svd ofM (scale l (compose K r c).1, (compose K r c).2.smul l) with
  | none =>
    exfalso
    have h0 := hnone.1 hd
    simp only at h0
    have hdet : (scale l (compose K r c).1).det = l ^ 3 * (compose K r c).1.det := by
      simp only [scale, M3.det, V3.dot, V3.cross, V3.smul]; ring
    have hM : (compose K r c).1 = K.mul (AngleAxis.toM r) := by
      refine eq_of_mulVec fun v => ?_
      have h := C58_compose K r c v 0
      have z : ∀ a : V3 ℝ, a.smul 0 = V3.zero := fun a => by apply V3.ext <;> simp [V3.smul, V3.zero]
      rw [z, z, V3.one_smul'] at h
      have a0 : ∀ a : V3 ℝ, a.add V3.zero = a := fun a => by apply V3.ext <;> simp [V3.add, V3.zero]
      have s0 : ∀ a : V3 ℝ, a.sub V3.zero = a := fun a => by apply V3.ext <;> simp [V3.sub, V3.zero]
      rw [a0, s0] at h
      rw [h, M3.mulVec_mul]
    rw [hdet, hM, M3.det_mul, hR.det, mul_one, upper_det hK.1] at h0
    exact (mul_ne_zero (pow_ne_zero 3 hl) (mul_pos (mul_pos hK.2.1 hK.2.2.1) hK.2.2.2).ne') h0
  | some d =>
    obtain ⟨K', r', c'⟩ := d
    obtain ⟨hKd, hs⟩ := hsome K' r' c' hd
    obtain ⟨-, h1, h2, h3⟩ := C58_unique (by split <;> simp) hσ hKd hK' (AngleAxis.isRotation_toM r') hR hs hcam
    exact ⟨r', by rw [h1, h3], h2⟩

/-- A camera with skew, seen through a negative multiple of its matrix. -/
example : ∃ qr svd ofM r', decompose qr svd ofM
    (scale (-2) (compose ⟨⟨500, 3, 320⟩, ⟨0, 510, 240⟩, ⟨0, 0, 1⟩⟩ ⟨1, 2, 3⟩ ⟨4, 5, 6⟩).1,
      (compose ⟨⟨500, 3, 320⟩, ⟨0, 510, 240⟩, ⟨0, 0, 1⟩⟩ ⟨1, 2, 3⟩ ⟨4, 5, 6⟩).2.smul (-2)) =
      some (scale |-2| ⟨⟨500, 3, 320⟩, ⟨0, 510, 240⟩, ⟨0, 0, 1⟩⟩, r', ⟨4, 5, 6⟩) := by
  obtain ⟨⟨qr, hqr⟩, svd, hsvd⟩ := assumptions_met
  obtain ⟨ofM, hlog⟩ := AngleAxis.exists_isLog
  obtain ⟨r', h, -⟩ := C58_round_trip hqr hsvd hlog (K := ⟨⟨500, 3, 320⟩, ⟨0, 510, 240⟩, ⟨0, 0, 1⟩⟩)
    ⟨⟨rfl, rfl, rfl⟩, by norm_num, by norm_num, by norm_num⟩ ⟨1, 2, 3⟩ ⟨4, 5, 6⟩ (l := -2) (by norm_num)
  exact ⟨qr, svd, ofM, r', h⟩

/-! ## Intrinsics -/

/-- Intrinsics with a focal length other than zero survive the way through the calibration matrix and back, whatever multiple
of the matrix is used. -/
theorem C58_intrinsics (i : Intrinsics) (hf : i.focal ≠ 0) {l : ℝ} (hl : l ≠ 0) :
    ofCalibration (scale l (toCalibration i)) = .ok i := by
  unfold ofCalibration toCalibration
  simp only [scale, V3.smul, mul_one]
  rw [if_neg hl, if_neg (mul_ne_zero hl hf)]
  congr 1
  obtain ⟨f, s, a, x, y⟩ := i
  simp only at hf ⊢
  congr 1 <;> field_simp

example : ofCalibration (scale 7 (toCalibration ⟨500, 3, 2, 320, 240⟩)) = .ok ⟨500, 3, 2, 320, 240⟩ :=
  C58_intrinsics _ (by norm_num) (by norm_num)

/-- From any calibration matrix come intrinsics whose calibration matrix is the given one divided by its last entry; the
process is aborted if, and only if, that entry is zero. -/
theorem C58_calibration (K : M3 ℝ) :
    (ofCalibration K = .abort ↔ K.r3.z = 0) ∧
    (CalibrationMatrix K → ∃ i, ofCalibration K = .ok i ∧ 0 < i.focal ∧ 0 < i.aspect ∧ K = scale K.r3.z (toCalibration i)) := by
  constructor
  · unfold ofCalibration
    by_cases h : K.r3.z = 0
    · simp [h]
    · rw [if_neg h]
      constructor
      · intro ha; split at ha <;> cases ha
      · intro ha; exact absurd ha h
  · rintro ⟨⟨h1, h2, h3⟩, p1, p2, p3⟩
    have n1 := p1.ne'
    have n3 := p3.ne'
    unfold ofCalibration
    rw [if_neg n3, if_neg n1]
    refine ⟨_, rfl, div_pos p1 p3, div_pos p2 p1, ?_⟩
    apply M3.ext <;> apply V3.ext <;> simp only [scale, toCalibration, V3.smul, h1, h2, h3, mul_zero] <;> field_simp

/-! ## Cameras from projection matrices -/

/-- A camera initialised from a projection matrix with a regular left block gets intrinsics, orientation and position whose
projection matrix is a multiple of the given one. -/
theorem C58_initialize {qr svd : M3 ℝ → M3 ℝ × M3 ℝ} {ofM : M3 ℝ → V3 ℝ} (hqr : QrCorrect qr)
    (hsvd : SvdCorrectOnRotations svd) (hlog : AngleAxis.IsLog ofM) (P : P34) (hd : P.1.det ≠ 0) :
    ∃ i r c l, initializeCamera qr svd ofM P = .ok (some (i, r, c)) ∧ l ≠ 0 ∧ 0 < i.focal ∧ 0 < i.aspect ∧
      SameCamera P.1 P.2 l (toCalibration i) (AngleAxis.toM r) c := by
  obtain ⟨hnone, hsome⟩ := C58_decompose hqr hsvd hlog P
  cases hx : decompose qr svd ofM P with
  | none => exact absurd (hnone.1 hx) hd
  | some d =>
    obtain ⟨K, r, c⟩ := d
    obtain ⟨hK, hs⟩ := hsome K r c hx
    obtain ⟨i, hi, hf, ha, hKi⟩ := (C58_calibration K).2 hK
    refine ⟨i, r, c, (if 0 < P.1.det then 1 else -1) * K.r3.z, ?_, ?_, hf, ha, ?_⟩
    · unfold initializeCamera
      simp only [hx]
      rw [if_neg (by rintro (h | h); exacts [hK.2.1.ne' h, hK.2.2.1.ne' h]), hi]
      rfl
    · exact mul_ne_zero (by split <;> norm_num) hK.2.2.2.ne'
    · intro X w
      rw [hs X w]
      generalize (AngleAxis.toM r).mulVec (X.sub (c.smul w)) = v
      have : K.mulVec v = ((toCalibration i).mulVec v).smul K.r3.z := by
        conv_lhs => rw [hKi]
        apply V3.ext <;> simp only [scale, M3.mulVec, V3.dot, V3.smul] <;> ring
      rw [this, V3.smul_smul]

example : ∃ (P : P34), P.1.det ≠ 0 ∧ P.1.det < 0 := by
  refine ⟨(⟨⟨1, 2, 3⟩, ⟨0, -1, 4⟩, ⟨0, 0, 1⟩⟩, ⟨1, 2, 3⟩), ?_, ?_⟩ <;> norm_num [M3.det, V3.dot, V3.cross]

/-- One would rely on the initialisation to report a matrix that cannot be decomposed. It does not: the camera is then made from
memory that was never written. -/
theorem C58_initialize_singular_counterexample {qr svd : M3 ℝ → M3 ℝ × M3 ℝ} {ofM : M3 ℝ → V3 ℝ} (hqr : QrCorrect qr)
    (hsvd : SvdCorrectOnRotations svd) (hlog : AngleAxis.IsLog ofM) (P : P34) (hd : P.1.det = 0) :
    initializeCamera qr svd ofM P = .ub := by
  unfold initializeCamera
  rw [(C58_decompose hqr hsvd hlog P).1.2 hd]

example : ∃ (P : P34), P.1 ≠ ⟨V3.zero, V3.zero, V3.zero⟩ ∧ P.1.det = 0 :=
  ⟨(⟨⟨1, 0, 0⟩, ⟨0, 1, 0⟩, ⟨0, 0, 0⟩⟩, ⟨0, 0, 1⟩), by simp [V3.zero], by norm_num [M3.det, V3.dot, V3.cross]⟩

end ProjectionMatrix
end Theia
