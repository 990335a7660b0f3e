import Mathlib.Data.Matrix.Mul
import Mathlib.Data.Real.Basic
import Mathlib.Topology.Instances.Matrix
import Mathlib.Topology.MetricSpace.ProperSpace.Real
import Mathlib.Topology.MetricSpace.Sequences
import Mathlib.Topology.Algebra.InfiniteSum.Real
import Mathlib.Topology.Algebra.Order.LiminfLimsup
import Mathlib.Analysis.SpecialFunctions.Sqrt
import Mathlib.Tactic.Linarith
import Mathlib.Tactic.LinearCombination

/-!
# Convergence of the relaxed Douglas–Rachford iteration

The alternating direction method of multipliers of the L1 solvers and of the quadratic program
solver is, in the variable `w` (the argument of the second proximal step), the iteration
`w ↦ w + α (F (2 G w − w) − G w)` with `F` and `G` firmly nonexpansive.  If it has a fixed point,
it converges to one for every `0 < α < 2`.
-/

namespace Theia.Admm

open Matrix Filter Topology

variable {ι : Type} [Fintype ι]

/-- Firmly nonexpansive maps of the Euclidean space. -/
def Firm (J : (ι → ℝ) → ι → ℝ) : Prop :=
  ∀ a b, (J a - J b) ⬝ᵥ (J a - J b) ≤ (J a - J b) ⬝ᵥ (a - b)

/-- One step of the relaxed iteration. -/
def dr (F G : (ι → ℝ) → ι → ℝ) (α : ℝ) (w : ι → ℝ) : ι → ℝ :=
  w + α • (F (2 • G w - w) - G w)

theorem dot_self_nonneg (v : ι → ℝ) : 0 ≤ v ⬝ᵥ v :=
  Finset.sum_nonneg fun i _ => mul_self_nonneg (v i)

theorem dot_self_eq_zero {v : ι → ℝ} (h : v ⬝ᵥ v = 0) : v = 0 := by
  funext i
  have := (Finset.sum_eq_zero_iff_of_nonneg fun i _ => mul_self_nonneg (v i)).mp h i
    (Finset.mem_univ i)
  exact mul_self_eq_zero.mp this

theorem sq_le_dot (v : ι → ℝ) (i : ι) : v i * v i ≤ v ⬝ᵥ v :=
  Finset.single_le_sum (f := fun i => v i * v i) (fun i _ => mul_self_nonneg (v i))
    (Finset.mem_univ i)

theorem abs_le_sqrt_dot (v : ι → ℝ) (i : ι) : |v i| ≤ √(v ⬝ᵥ v) := by
  apply Real.abs_le_sqrt
  rw [sq]
  exact sq_le_dot v i

/-- The Cauchy–Schwarz inequality. -/
theorem dot_le (v w : ι → ℝ) : |v ⬝ᵥ w| ≤ √(v ⬝ᵥ v) * √(w ⬝ᵥ w) := by
  rw [← Real.sqrt_mul (dot_self_nonneg v)]
  apply Real.abs_le_sqrt
  have := Finset.sum_mul_sq_le_sq_mul_sq Finset.univ v w
  simpa [dotProduct, sq] using this

theorem Firm.nonexpansive {J : (ι → ℝ) → ι → ℝ} (hJ : Firm J) (a b : ι → ℝ) :
    (J a - J b) ⬝ᵥ (J a - J b) ≤ (a - b) ⬝ᵥ (a - b) := by
  have h := hJ a b
  have h2 := dot_self_nonneg ((J a - J b) - (a - b))
  have e : ((J a - J b) - (a - b)) ⬝ᵥ ((J a - J b) - (a - b)) =
      (J a - J b) ⬝ᵥ (J a - J b) - 2 * ((J a - J b) ⬝ᵥ (a - b)) + (a - b) ⬝ᵥ (a - b) := by
    generalize J a - J b = p
    generalize a - b = q
    rw [sub_dotProduct, dotProduct_sub, dotProduct_sub, dotProduct_comm q p]
    ring
  linarith

theorem tendsto_of_dot {α : Type} {l : Filter α} {f : α → ι → ℝ} {a : ι → ℝ}
    (h : Tendsto (fun k => (f k - a) ⬝ᵥ (f k - a)) l (𝓝 0)) : Tendsto f l (𝓝 a) := by
  rw [tendsto_pi_nhds]
  intro i
  rw [tendsto_iff_dist_tendsto_zero]
  have h2 : Tendsto (fun k => √((f k - a) ⬝ᵥ (f k - a))) l (𝓝 0) := by
    have := (Real.continuous_sqrt.tendsto 0).comp h
    rw [Real.sqrt_zero] at this
    exact this
  refine squeeze_zero (fun _ => dist_nonneg) (fun k => ?_) h2
  rw [Real.dist_eq]
  exact abs_le_sqrt_dot (f k - a) i

theorem continuous_dot_self : Continuous fun v : ι → ℝ => v ⬝ᵥ v :=
  continuous_finsetSum _ fun i _ => (continuous_apply i).mul (continuous_apply i)

theorem Firm.continuous {J : (ι → ℝ) → ι → ℝ} (hJ : Firm J) : Continuous J := by
  rw [continuous_iff_continuousAt]
  intro a
  apply tendsto_of_dot
  have h : Tendsto (fun b : ι → ℝ => (b - a) ⬝ᵥ (b - a)) (𝓝 a) (𝓝 0) := by
    have := (continuous_dot_self.comp (continuous_id.sub continuous_const)).tendsto
      (f := fun b : ι → ℝ => (b - a) ⬝ᵥ (b - a)) a
    simpa using this
  exact squeeze_zero (fun _ => dot_self_nonneg _) (fun b => hJ.nonexpansive b a) h

/-- The distance to any fixed point decreases by the size of the step. -/
theorem dr_decrease {F G : (ι → ℝ) → ι → ℝ} (hF : Firm F) (hG : Firm G) {α : ℝ} (h0 : 0 < α)
    {w' : ι → ℝ} (hw : F (2 • G w' - w') = G w') (w : ι → ℝ) :
    (dr F G α w - w') ⬝ᵥ (dr F G α w - w') +
        α * (2 - α) * ((F (2 • G w - w) - G w) ⬝ᵥ (F (2 • G w - w) - G w)) ≤
      (w - w') ⬝ᵥ (w - w') := by
  have h1 := hG w w'
  have h2 := hF (2 • G w - w) (2 • G w' - w')
  rw [hw] at h2
  unfold dr
  generalize hf : F (2 • G w - w) = f at *
  have e1 : 2 • G w - w - (2 • G w' - w') = 2 • (G w - G w') - (w - w') := by
    rw [smul_sub]; abel
  have e2 : w + α • (f - G w) - w' = (w - w') + α • ((f - G w') - (G w - G w')) := by
    rw [sub_sub_sub_cancel_right]; abel
  have e3 : f - G w = (f - G w') - (G w - G w') := by rw [sub_sub_sub_cancel_right]
  rw [e1] at h2
  rw [e2, e3]
  generalize f - G w' = p at *
  generalize G w - G w' = a at *
  generalize w - w' = e at *
  have e4 : (2 : ℕ) • a = (2 : ℝ) • a := by
    funext i
    simp
  rw [e4] at h2
  simp only [dotProduct_sub, dotProduct_add, add_dotProduct, sub_dotProduct, dotProduct_smul,
    smul_dotProduct, smul_eq_mul] at h1 h2 ⊢
  rw [dotProduct_comm p e] at *
  rw [dotProduct_comm a e] at *
  rw [dotProduct_comm p a] at *
  have h3 : 0 ≤ α * (2 * ((2 * (a ⬝ᵥ p) - e ⬝ᵥ p - p ⬝ᵥ p) + (e ⬝ᵥ a - a ⬝ᵥ a))) := by
    apply mul_nonneg h0.le
    linarith
  linarith

variable {F G : (ι → ℝ) → ι → ℝ}

/-- The iteration converges to a fixed point. -/
theorem dr_tendsto (hF : Firm F) (hG : Firm G) {α : ℝ} (h0 : 0 < α) (h2 : α < 2)
    (hfix : ∃ w', F (2 • G w' - w') = G w') {w : ℕ → ι → ℝ}
    (hstep : ∀ k, w (k + 1) = dr F G α (w k)) :
    ∃ w', F (2 • G w' - w') = G w' ∧ Tendsto w atTop (𝓝 w') := by
  obtain ⟨v, hv⟩ := hfix
  have hmono : ∀ {a : ι → ℝ}, F (2 • G a - a) = G a →
      Antitone fun k => (w k - a) ⬝ᵥ (w k - a) := by
    intro a ha
    apply antitone_nat_of_succ_le
    intro k
    have := dr_decrease hF hG h0 ha (w k)
    rw [← hstep] at this
    have hp := mul_nonneg (mul_nonneg h0.le (sub_nonneg.mpr h2.le))
      (dot_self_nonneg (F (2 • G (w k) - w k) - G (w k)))
    linarith
  have hlim : ∀ {a : ι → ℝ}, F (2 • G a - a) = G a →
      ∃ l, Tendsto (fun k => (w k - a) ⬝ᵥ (w k - a)) atTop (𝓝 l) := fun ha =>
    ⟨_, tendsto_atTop_ciInf (hmono ha) ⟨0, by rintro _ ⟨k, rfl⟩; exact dot_self_nonneg _⟩⟩
  -- the steps become small
  have hd : Tendsto (fun k => (F (2 • G (w k) - w k) - G (w k)) ⬝ᵥ
      (F (2 • G (w k) - w k) - G (w k))) atTop (𝓝 0) := by
    obtain ⟨l, hl⟩ := hlim hv
    have hl' := hl.comp (tendsto_add_atTop_nat 1)
    have hs : Tendsto (fun k => ((w k - v) ⬝ᵥ (w k - v) -
        (w (k + 1) - v) ⬝ᵥ (w (k + 1) - v)) / (α * (2 - α))) atTop (𝓝 0) := by
      have := (hl.sub hl').div_const (α * (2 - α))
      simpa using this
    have hc : 0 < α * (2 - α) := mul_pos h0 (sub_pos.mpr h2)
    refine squeeze_zero (fun _ => dot_self_nonneg _) (fun k => ?_) hs
    have := dr_decrease hF hG h0 hv (w k)
    rw [← hstep] at this
    rw [le_div_iff₀ hc]
    linarith
  -- a convergent subsequence
  have hb : ∀ k, w k ∈ Metric.closedBall v √((w 0 - v) ⬝ᵥ (w 0 - v)) := by
    intro k
    rw [Metric.mem_closedBall, dist_pi_le_iff (Real.sqrt_nonneg _)]
    intro i
    rw [Real.dist_eq]
    refine (abs_le_sqrt_dot (w k - v) i).trans (Real.sqrt_le_sqrt ?_)
    exact hmono hv (Nat.zero_le k)
  obtain ⟨a, -, φ, hφ, ha⟩ := (isCompact_closedBall v _).tendsto_subseq hb
  have hcont : Continuous fun x : ι → ℝ => F (2 • G x - x) - G x := by
    refine (hF.continuous.comp ((hG.continuous.const_smul 2).sub continuous_id)).sub hG.continuous
  have hfa : F (2 • G a - a) = G a := by
    have t1 : Tendsto (fun k => (F (2 • G (w (φ k)) - w (φ k)) - G (w (φ k))) ⬝ᵥ
        (F (2 • G (w (φ k)) - w (φ k)) - G (w (φ k)))) atTop
        (𝓝 ((F (2 • G a - a) - G a) ⬝ᵥ (F (2 • G a - a) - G a))) :=
      ((continuous_dot_self.comp hcont).tendsto a).comp ha
    have t2 := hd.comp hφ.tendsto_atTop
    have := tendsto_nhds_unique t1 t2
    exact sub_eq_zero.mp (dot_self_eq_zero this)
  refine ⟨a, hfa, ?_⟩
  apply tendsto_of_dot
  obtain ⟨l, hl⟩ := hlim hfa
  have t3 : Tendsto (fun k => (w (φ k) - a) ⬝ᵥ (w (φ k) - a)) atTop (𝓝 0) := by
    have hc : Continuous fun x : ι → ℝ => (x - a) ⬝ᵥ (x - a) :=
      continuous_dot_self.comp (continuous_id.sub continuous_const)
    have := (hc.tendsto a).comp ha
    simp only [sub_self, zero_dotProduct] at this
    exact this
  have := tendsto_nhds_unique t3 (hl.comp hφ.tendsto_atTop)
  rw [← this] at hl
  exact hl

end Theia.Admm
