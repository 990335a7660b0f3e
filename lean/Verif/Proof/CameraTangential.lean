import Mathlib.Tactic.Linarith
import Mathlib.Tactic.FieldSimp
import Verif.Proof.CameraModels

/-!
# Convergence of the undistortion loop of the radial-tangential model
-/

namespace Theia
namespace CameraModels

/-- The distance in the larger coordinate is at most `e`. -/
def Within (u v : V2) (e : ℝ) : Prop := |u.1 - v.1| ≤ e ∧ |u.2 - v.2| ≤ e

/-- Both coordinates are at most `R`. -/
def InBox (R : ℝ) (u : V2) : Prop := |u.1| ≤ R ∧ |u.2| ≤ R

/-- A step that halves distances in a box. -/
structure Contraction (next : V2 → Outcome V2) (f : V2 → V2) (R : ℝ) : Prop where
  ok : ∀ u, InBox R u → next u = .ok (f u)
  box : ∀ u, InBox R u → InBox R (f u)
  half : ∀ u v e, InBox R u → InBox R v → Within u v e → Within (f u) (f v) (e / 2)

/-- How the loop ends: within the tolerance of the point the step gives. -/
theorem loop_contraction {next : V2 → Outcome V2} {f : V2 → V2} {R : ℝ} (h : Contraction next f R) (n : Nat) (u : V2)
    (hu : InBox R u) (e : ℝ) (he : Within (f u) u e) :
    ∃ u', undistortLoop next n u = .ok u' ∧ InBox R u' ∧
      (Within (f u') u' (1 / 10 ^ 10 / 2) ∨ Within (f u') u' (e / 2 ^ n)) := by
  induction n generalizing u e with
  | zero => exact ⟨u, rfl, hu, Or.inr (by simpa using he)⟩
  | succ n ih =>
    unfold undistortLoop
    rw [h.ok u hu, Outcome.ok_bind]
    by_cases hc : |(f u).1 - u.1| < 1 / 10 ^ 10 ∧ |(f u).2 - u.2| < 1 / 10 ^ 10
    · refine ⟨f u, if_pos hc, h.box u hu, Or.inl ?_⟩
      exact h.half _ _ _ (h.box u hu) hu ⟨hc.1.le, hc.2.le⟩
    · obtain ⟨u', h1, h2, h3⟩ := ih (f u) (h.box u hu) (e / 2) (h.half _ _ _ (h.box u hu) hu he)
      refine ⟨u', ?_, h2, ?_⟩
      · rw [← h1]
        exact if_neg hc
      · rcases h3 with h3 | h3
        · exact Or.inl h3
        · refine Or.inr ?_
          rwa [pow_succ, mul_comm, ← div_div]

/-- The result is near every fixed point in the box. -/
theorem near_fixed {next : V2 → Outcome V2} {f : V2 → V2} {R : ℝ} (h : Contraction next f R) {u v : V2} (hu : InBox R u)
    (hv : InBox R v) (hf : f v = v) {e : ℝ} (he : Within (f u) u e) : Within u v (2 * e) := by
  have h0 : Within u v (max |u.1 - v.1| |u.2 - v.2|) := ⟨le_max_left _ _, le_max_right _ _⟩
  have h1 := h.half u v _ hu hv h0
  rw [hf] at h1
  have a1 := abs_sub_le u.1 (f u).1 v.1
  have a2 := abs_sub_le u.2 (f u).2 v.2
  rw [abs_sub_comm u.1 (f u).1] at a1
  rw [abs_sub_comm u.2 (f u).2] at a2
  have b1 := he.1
  have b2 := he.2
  have c1 := h1.1
  have c2 := h1.2
  have hm : max |u.1 - v.1| |u.2 - v.2| ≤ 2 * e := by
    rcases le_total |u.1 - v.1| |u.2 - v.2| with hle | hle
    · rw [max_eq_right hle] at c2 ⊢
      linarith
    · rw [max_eq_left hle] at c1 ⊢
      linarith
  exact ⟨(le_max_left _ _).trans hm, (le_max_right _ _).trans hm⟩

/-- The size of the distortion in the box with half side `R`. -/
def RadialTangential.size (k : RadialTangential) (R : ℝ) : ℝ :=
  16 * R * (|k.t1| + |k.t2|) + 8 * R ^ 2 * |k.k1| + 32 * R ^ 4 * |k.k2| + 96 * R ^ 6 * |k.k3|

/-- Bounds in a box. -/
theorem box_products {R a b a' b' e : ℝ} (ha : |a| ≤ R) (hb : |b| ≤ R) (_ha' : |a'| ≤ R) (hb' : |b'| ≤ R)
    (h1 : |a - a'| ≤ e) (h2 : |b - b'| ≤ e) : |a * b| ≤ R ^ 2 ∧ |a * b - a' * b'| ≤ 2 * R * e := by
  have hR : 0 ≤ R := (abs_nonneg _).trans ha
  constructor
  · rw [abs_mul, pow_two]
    exact mul_le_mul ha hb (abs_nonneg _) hR
  · have e1 : a * b - a' * b' = a * (b - b') + (a - a') * b' := by ring
    rw [e1]
    refine (abs_add_le _ _).trans ?_
    rw [abs_mul, abs_mul]
    have := mul_le_mul ha h2 (abs_nonneg _) hR
    have := mul_le_mul h1 hb' (abs_nonneg _) ((abs_nonneg _).trans h1)
    linarith

theorem rsq_bounds {R e : ℝ} {u v : V2} (hu : InBox R u) (hv : InBox R v) (h : Within u v e) :
    0 ≤ u.1 * u.1 + u.2 * u.2 ∧ u.1 * u.1 + u.2 * u.2 ≤ 2 * R ^ 2 ∧
    |u.1 * u.1 + u.2 * u.2 - (v.1 * v.1 + v.2 * v.2)| ≤ 4 * R * e := by
  have h1 := box_products hu.1 hu.1 hv.1 hv.1 h.1 h.1
  have h2 := box_products hu.2 hu.2 hv.2 hv.2 h.2 h.2
  refine ⟨add_nonneg (mul_self_nonneg _) (mul_self_nonneg _), ?_, ?_⟩
  · linarith [le_abs_self (u.1 * u.1), le_abs_self (u.2 * u.2), h1.1, h2.1]
  · have : u.1 * u.1 + u.2 * u.2 - (v.1 * v.1 + v.2 * v.2) = (u.1 * u.1 - v.1 * v.1) + (u.2 * u.2 - v.2 * v.2) := by ring
    rw [this]
    refine (abs_add_le _ _).trans ?_
    linarith [h1.2, h2.2]

/-- The factor as a polynomial in the squared radius. -/
theorem factor_eq (k : RadialTangential) (u : V2) : k.factor u =
    1 + (k.k1 * (u.1 * u.1 + u.2 * u.2) + k.k2 * (u.1 * u.1 + u.2 * u.2) ^ 2 + k.k3 * (u.1 * u.1 + u.2 * u.2) ^ 3) := by
  unfold RadialTangential.factor
  ring

theorem abs_three {k1 k2 k3 a b c A B C : ℝ} (ha : |a| ≤ A) (hb : |b| ≤ B) (hc : |c| ≤ C) :
    |k1 * a + k2 * b + k3 * c| ≤ |k1| * A + |k2| * B + |k3| * C := by
  refine (abs_add_le _ _).trans (add_le_add ((abs_add_le _ _).trans (add_le_add ?_ ?_)) ?_) <;> rw [abs_mul]
  · exact mul_le_mul_of_nonneg_left ha (abs_nonneg _)
  · exact mul_le_mul_of_nonneg_left hb (abs_nonneg _)
  · exact mul_le_mul_of_nonneg_left hc (abs_nonneg _)

theorem factor_bounds {k : RadialTangential} {R : ℝ} (hk : k.size R ≤ 1 / 2) {u : V2} (hu : InBox R u) :
    1 / 2 ≤ k.factor u ∧ k.factor u ≤ 3 / 2 := by
  have hR : 0 ≤ R := (abs_nonneg _).trans hu.1
  obtain ⟨h0, h1, _⟩ := rsq_bounds hu hu (e := 0) ⟨by simp, by simp⟩
  rw [factor_eq]
  generalize u.1 * u.1 + u.2 * u.2 = q at h0 h1
  have q1 : |q| ≤ 2 * R ^ 2 := by rwa [abs_of_nonneg h0]
  have q2 : |q ^ 2| ≤ (2 * R ^ 2) ^ 2 := by
    rw [abs_pow]
    exact pow_le_pow_left₀ (abs_nonneg _) q1 2
  have q3 : |q ^ 3| ≤ (2 * R ^ 2) ^ 3 := by
    rw [abs_pow]
    exact pow_le_pow_left₀ (abs_nonneg _) q1 3
  have h := abs_three (k1 := k.k1) (k2 := k.k2) (k3 := k.k3) q1 q2 q3
  unfold RadialTangential.size at hk
  have p0 : 0 ≤ R * (|k.t1| + |k.t2|) := by positivity
  have p1 : 0 ≤ R ^ 2 * |k.k1| := by positivity
  have p2 : 0 ≤ R ^ 4 * |k.k2| := by positivity
  have p3 : 0 ≤ R ^ 6 * |k.k3| := by positivity
  have e : |k.k1| * (2 * R ^ 2) + |k.k2| * (2 * R ^ 2) ^ 2 + |k.k3| * (2 * R ^ 2) ^ 3 =
      2 * (R ^ 2 * |k.k1|) + 4 * (R ^ 4 * |k.k2|) + 8 * (R ^ 6 * |k.k3|) := by ring
  rw [e] at h
  have hb := abs_le.1 h
  constructor <;> linarith [hb.1, hb.2]

theorem factor_lipschitz (k : RadialTangential) {R e : ℝ} {u v : V2} (hu : InBox R u) (hv : InBox R v) (h : Within u v e) :
    |k.factor u - k.factor v| ≤ (4 * R * |k.k1| + 16 * R ^ 3 * |k.k2| + 48 * R ^ 5 * |k.k3|) * e := by
  have hR : 0 ≤ R := (abs_nonneg _).trans hu.1
  have hE : 0 ≤ e := (abs_nonneg _).trans h.1
  obtain ⟨h0, h1, h2⟩ := rsq_bounds hu hv h
  obtain ⟨g0, g1, _⟩ := rsq_bounds hv hv (e := 0) ⟨by simp, by simp⟩
  rw [factor_eq, factor_eq]
  generalize u.1 * u.1 + u.2 * u.2 = q at h0 h1 h2
  generalize v.1 * v.1 + v.2 * v.2 = p at g0 g1 h2
  have e1 : 1 + (k.k1 * q + k.k2 * q ^ 2 + k.k3 * q ^ 3) - (1 + (k.k1 * p + k.k2 * p ^ 2 + k.k3 * p ^ 3)) =
      k.k1 * (q - p) + k.k2 * ((q + p) * (q - p)) + k.k3 * ((q ^ 2 + q * p + p ^ 2) * (q - p)) := by ring
  rw [e1]
  have b2 : |(q + p) * (q - p)| ≤ 4 * R ^ 2 * (4 * R * e) := by
    rw [abs_mul, abs_of_nonneg (add_nonneg h0 g0)]
    exact mul_le_mul (by linarith) h2 (abs_nonneg _) (by positivity)
  have b3 : |(q ^ 2 + q * p + p ^ 2) * (q - p)| ≤ 12 * R ^ 4 * (4 * R * e) := by
    rw [abs_mul, abs_of_nonneg (by positivity)]
    refine mul_le_mul ?_ h2 (abs_nonneg _) (by positivity)
    have := mul_le_mul h1 h1 h0 (by positivity)
    have := mul_le_mul h1 g1 g0 (by positivity)
    have := mul_le_mul g1 g1 g0 (by positivity)
    nlinarith
  refine (abs_three h2 b2 b3).trans (le_of_eq ?_)
  ring

theorem tangential_bounds (k : RadialTangential) {R : ℝ} {u : V2} (hu : InBox R u) :
    InBox (4 * R ^ 2 * (|k.t1| + |k.t2|)) (k.tangential u) := by
  have hR : 0 ≤ R := (abs_nonneg _).trans hu.1
  have hz : Within u u 0 := ⟨by simp, by simp⟩
  have xx := (box_products hu.1 hu.1 hu.1 hu.1 hz.1 hz.1).1
  have yy := (box_products hu.2 hu.2 hu.2 hu.2 hz.2 hz.2).1
  have xy := (box_products hu.1 hu.2 hu.1 hu.2 hz.1 hz.2).1
  have x0 := mul_self_nonneg u.1
  have y0 := mul_self_nonneg u.2
  rw [abs_of_nonneg x0] at xx
  rw [abs_of_nonneg y0] at yy
  have n1 : 0 ≤ R ^ 2 * |k.t1| := by positivity
  have n2 : 0 ≤ R ^ 2 * |k.t2| := by positivity
  constructor
  · have e : (k.tangential u).1 = k.t2 * (3 * (u.1 * u.1) + u.2 * u.2) + k.t1 * (2 * (u.1 * u.2)) + 0 * 0 := by
      simp only [RadialTangential.tangential]; ring
    rw [e]
    refine (abs_three (A := 4 * R ^ 2) (B := 2 * R ^ 2) (C := 0) ?_ ?_ (by simp)).trans ?_
    · rw [abs_of_nonneg (by positivity)]
      linarith
    · rw [abs_mul, abs_of_pos (by norm_num : (0 : ℝ) < 2)]
      linarith
    · simp only [abs_zero]
      linarith
  · have e : (k.tangential u).2 = k.t1 * (u.1 * u.1 + 3 * (u.2 * u.2)) + k.t2 * (2 * (u.1 * u.2)) + 0 * 0 := by
      simp only [RadialTangential.tangential]; ring
    rw [e]
    refine (abs_three (A := 4 * R ^ 2) (B := 2 * R ^ 2) (C := 0) ?_ ?_ (by simp)).trans ?_
    · rw [abs_of_nonneg (by positivity)]
      linarith
    · rw [abs_mul, abs_of_pos (by norm_num : (0 : ℝ) < 2)]
      linarith
    · simp only [abs_zero]
      linarith

theorem tangential_lipschitz (k : RadialTangential) {R e : ℝ} {u v : V2} (hu : InBox R u) (hv : InBox R v)
    (h : Within u v e) : Within (k.tangential u) (k.tangential v) (8 * R * (|k.t1| + |k.t2|) * e) := by
  have hR : 0 ≤ R := (abs_nonneg _).trans hu.1
  have hE : 0 ≤ e := (abs_nonneg _).trans h.1
  have xx := (box_products hu.1 hu.1 hv.1 hv.1 h.1 h.1).2
  have yy := (box_products hu.2 hu.2 hv.2 hv.2 h.2 h.2).2
  have xy := (box_products hu.1 hu.2 hv.1 hv.2 h.1 h.2).2
  have n1 : 0 ≤ R * |k.t1| * e := by positivity
  have n2 : 0 ≤ R * |k.t2| * e := by positivity
  have three : ∀ {a b : ℝ}, |a| ≤ 2 * R * e → |b| ≤ 2 * R * e → |3 * a + b| ≤ 8 * R * e := by
    intro a b ha hb
    refine (abs_add_le _ _).trans ?_
    rw [abs_mul]
    norm_num
    linarith
  constructor
  · have e1 : (k.tangential u).1 - (k.tangential v).1 =
        k.t2 * (3 * (u.1 * u.1 - v.1 * v.1) + (u.2 * u.2 - v.2 * v.2)) + k.t1 * (2 * (u.1 * u.2 - v.1 * v.2)) + 0 * 0 := by
      simp only [RadialTangential.tangential]; ring
    rw [e1]
    refine (abs_three (A := 8 * R * e) (B := 4 * R * e) (C := 0) (three xx yy) ?_ (by simp)).trans ?_
    · rw [abs_mul]
      norm_num
      linarith
    · simp only [abs_zero]
      linarith
  · have e1 : (k.tangential u).2 - (k.tangential v).2 =
        k.t1 * (3 * (u.2 * u.2 - v.2 * v.2) + (u.1 * u.1 - v.1 * v.1)) + k.t2 * (2 * (u.1 * u.2 - v.1 * v.2)) + 0 * 0 := by
      simp only [RadialTangential.tangential]; ring
    rw [e1]
    refine (abs_three (A := 8 * R * e) (B := 4 * R * e) (C := 0) (three yy xx) ?_ (by simp)).trans ?_
    · rw [abs_mul]
      norm_num
      linarith
    · simp only [abs_zero]
      linarith

/-- The step as a function. -/
noncomputable def rtStep (k : RadialTangential) (p u : V2) : V2 :=
  ((p.1 - (k.tangential u).1) / k.factor u, (p.2 - (k.tangential u).2) / k.factor u)

theorem quotient_half {a a' f f' R Lt Lf e : ℝ} (hf : 1 / 2 ≤ f) (hf' : 1 / 2 ≤ f') (hR : 0 ≤ R) (ha' : |a'| ≤ R / 2)
    (hLf : 0 ≤ Lf * e) (h1 : |a - a'| ≤ Lt * e) (h2 : |f - f'| ≤ Lf * e) (hL : 2 * Lt + 2 * R * Lf ≤ 1 / 2) (he : 0 ≤ e) :
    |a / f - a' / f'| ≤ e / 2 := by
  have pf : 0 < f := by linarith
  have pf' : 0 < f' := by linarith
  have i1 : 1 / f ≤ 2 := by
    rw [div_le_iff₀ pf]
    linarith
  have i2 : 1 / f' ≤ 2 := by
    rw [div_le_iff₀ pf']
    linarith
  have e1 : a / f - a' / f' = (a - a') * (1 / f) + a' * (f' - f) * ((1 / f) * (1 / f')) := by
    field_simp
    ring
  rw [e1]
  refine (abs_add_le _ _).trans ?_
  rw [abs_mul, abs_mul, abs_mul, abs_of_pos (a := 1 / f) (by positivity),
    abs_of_pos (a := (1 / f) * (1 / f')) (by positivity), abs_sub_comm f' f]
  have t1 : |a - a'| * (1 / f) ≤ Lt * e * 2 := mul_le_mul h1 i1 (by positivity) ((abs_nonneg _).trans h1)
  have t2 : |a'| * |f - f'| ≤ R / 2 * (Lf * e) := mul_le_mul ha' h2 (abs_nonneg _) (by positivity)
  have t3 : (1 / f) * (1 / f') ≤ 2 * 2 := mul_le_mul i1 i2 (by positivity) (by norm_num)
  have t4 : |a'| * |f - f'| * ((1 / f) * (1 / f')) ≤ R / 2 * (Lf * e) * (2 * 2) :=
    mul_le_mul t2 t3 (by positivity) (by positivity)
  have := mul_le_mul_of_nonneg_right hL he
  nlinarith

theorem rt_contraction {k : RadialTangential} {R : ℝ} (hk : k.size R ≤ 1 / 2) {p : V2} (hp : InBox (R / 4) p) :
    Contraction (rtNext k p) (rtStep k p) R := by
  have hR : 0 ≤ R := by linarith [(abs_nonneg _).trans hp.1]
  have p0 : 0 ≤ R * (|k.t1| + |k.t2|) := by positivity
  have p1 : 0 ≤ R ^ 2 * |k.k1| := by positivity
  have p2 : 0 ≤ R ^ 4 * |k.k2| := by positivity
  have p3 : 0 ≤ R ^ 6 * |k.k3| := by positivity
  have hk' := hk
  unfold RadialTangential.size at hk'
  have htan : 4 * R ^ 2 * (|k.t1| + |k.t2|) ≤ R / 4 := by
    have : R * (|k.t1| + |k.t2|) ≤ 1 / 32 := by linarith
    nlinarith
  have num1 : ∀ u, InBox R u → |p.1 - (k.tangential u).1| ≤ R / 2 := by
    intro u hu
    have := (tangential_bounds k hu).1
    refine (abs_sub _ _).trans ?_
    linarith [hp.1]
  have num2 : ∀ u, InBox R u → |p.2 - (k.tangential u).2| ≤ R / 2 := by
    intro u hu
    have := (tangential_bounds k hu).2
    refine (abs_sub _ _).trans ?_
    linarith [hp.2]
  have quot : ∀ {a f : ℝ}, |a| ≤ R / 2 → 1 / 2 ≤ f → |a / f| ≤ R := by
    intro a f ha hf
    have : 0 < f := by linarith
    rw [abs_div, abs_of_pos this, div_le_iff₀ this]
    nlinarith
  refine ⟨?_, ?_, ?_⟩
  · intro u hu
    have hf := (factor_bounds hk hu).1
    have : k.factor u ≠ 0 := by linarith
    unfold rtNext
    rw [divide_ok this, Outcome.ok_bind, divide_ok this, Outcome.ok_bind]
    rfl
  · intro u hu
    have hf := (factor_bounds hk hu).1
    exact ⟨quot (num1 u hu) hf, quot (num2 u hu) hf⟩
  · intro u v e hu hv h
    have he : 0 ≤ e := (abs_nonneg _).trans h.1
    have hf := (factor_bounds hk hu).1
    have hf' := (factor_bounds hk hv).1
    have hl := factor_lipschitz k hu hv h
    have ht := tangential_lipschitz k hu hv h
    have hL : 2 * (8 * R * (|k.t1| + |k.t2|)) + 2 * R * (4 * R * |k.k1| + 16 * R ^ 3 * |k.k2| + 48 * R ^ 5 * |k.k3|) ≤
        1 / 2 := by
      refine le_trans (le_of_eq ?_) hk'
      ring
    have hn : 0 ≤ (4 * R * |k.k1| + 16 * R ^ 3 * |k.k2| + 48 * R ^ 5 * |k.k3|) * e := by positivity
    constructor
    · refine quotient_half hf hf' hR (num1 v hv) hn ?_ hl hL he
      rw [sub_sub_sub_cancel_left, abs_sub_comm]
      exact ht.1
    · refine quotient_half hf hf' hR (num2 v hv) hn ?_ hl hL he
      rw [sub_sub_sub_cancel_left, abs_sub_comm]
      exact ht.2

/-- The result of undistorting: it is nearly a fixed point of the step. -/
theorem rt_undistort {k : RadialTangential} {R : ℝ} (hk : k.size R ≤ 1 / 2) (hR9 : R ≤ 10 ^ 9) {p : V2}
    (hp : InBox (R / 4) p) :
    ∃ u, rtUndistort k p = .ok u ∧ InBox R u ∧ Within (rtStep k p u) u (1 / 10 ^ 10 / 2) := by
  have hc := rt_contraction hk hp
  have hR : 0 ≤ R := by linarith [(abs_nonneg _).trans hp.1]
  have hpR : InBox R p := ⟨hp.1.trans (by linarith), hp.2.trans (by linarith)⟩
  have hb := hc.box p hpR
  obtain ⟨u, h1, h2, h3⟩ := loop_contraction hc 100 p hpR (2 * R) ⟨by
    refine (abs_sub _ _).trans ?_
    linarith [hb.1, hpR.1], by
    refine (abs_sub _ _).trans ?_
    linarith [hb.2, hpR.2]⟩
  refine ⟨u, h1, h2, ?_⟩
  rcases h3 with h3 | h3
  · exact h3
  · have : 2 * R / 2 ^ 100 ≤ 1 / 10 ^ 10 / 2 := by
      rw [div_le_iff₀ (by norm_num)]
      refine le_trans (mul_le_mul_of_nonneg_left hR9 (by norm_num)) ?_
      norm_num
    exact ⟨h3.1.trans this, h3.2.trans this⟩

theorem rt_backward {k : RadialTangential} {R : ℝ} (hk : k.size R ≤ 1 / 2) {p u : V2} (hu : InBox R u)
    (h : Within (rtStep k p u) u (1 / 10 ^ 10 / 2)) :
    |(rtDistort k u).1 - p.1| ≤ 1 / 10 ^ 10 ∧ |(rtDistort k u).2 - p.2| ≤ 1 / 10 ^ 10 := by
  obtain ⟨f1, f2⟩ := factor_bounds hk hu
  have pf : 0 < k.factor u := by linarith
  have key : ∀ {x t q : ℝ}, |(q - t) / k.factor u - x| ≤ 1 / 10 ^ 10 / 2 → |x * k.factor u + t - q| ≤ 1 / 10 ^ 10 := by
    intro x t q hq
    have e : x * k.factor u + t - q = -(((q - t) / k.factor u - x) * k.factor u) := by
      field_simp
      ring
    rw [e, abs_neg, abs_mul, abs_of_pos pf]
    have := mul_le_mul hq f2 pf.le (by norm_num)
    linarith
  exact ⟨key h.1, key h.2⟩

theorem rtStep_fixed {k : RadialTangential} {u : V2} (h : k.factor u ≠ 0) : rtStep k (rtDistort k u) u = u := by
  unfold rtStep rtDistort
  refine Prod.ext ?_ ?_ <;> simp only <;> field_simp <;> ring

end CameraModels
end Theia
