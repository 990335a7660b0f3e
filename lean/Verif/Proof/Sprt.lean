import Verif.Model.Sprt
import Verif.Spec.Sprt
import Mathlib.Analysis.SpecialFunctions.Log.Deriv
import Mathlib.Tactic.Linarith
import Mathlib.Tactic.Positivity
import Mathlib.Tactic.FieldSimp
import Mathlib.Tactic.Ring
import Mathlib.Tactic.NormNum
import Mathlib.Topology.Order.IntermediateValue

namespace Theia
namespace Sprt

open Spec

/-! ## The test -/

/-- The factor of a residual. -/
noncomputable def factor (e σ ε : ℝ) (r : ℝ) : ℝ := if r < e then σ / ε else (1 - σ) / (1 - ε)

theorem numInliers_le (e : ℝ) (rs : List ℝ) : numInliers e rs ≤ rs.length := List.countP_le_length

theorem likelihoodRatio_eq {e σ ε : ℝ} (h0 : 0 < ε) (h1 : ε < 1) (rs : List ℝ) :
    likelihoodRatio e σ ε rs = (rs.map (factor e σ ε)).prod := by
  induction rs with
  | nil => simp [likelihoodRatio, sequenceProbability, numInliers]
  | cons r rs ih =>
    rw [List.map_cons, List.prod_cons, ← ih]
    have hn := numInliers_le e rs
    have h2 : (1 - ε) ≠ 0 := by linarith
    have h3 : ε ≠ 0 := h0.ne'
    unfold likelihoodRatio sequenceProbability
    by_cases h : r < e
    · have hc : numInliers e (r :: rs) = numInliers e rs + 1 := by
        unfold numInliers
        rw [List.countP_cons_of_pos (by simpa using h)]
      have hl : (r :: rs).length - (numInliers e rs + 1) = rs.length - numInliers e rs := by
        simp only [List.length_cons]; omega
      rw [hc, hl, factor, if_pos h]
      field_simp
      ring
    · have hc : numInliers e (r :: rs) = numInliers e rs := by
        unfold numInliers
        rw [List.countP_cons_of_neg (by simpa using h)]
      have hl : (r :: rs).length - numInliers e rs = rs.length - numInliers e rs + 1 := by
        simp only [List.length_cons]; omega
      rw [hc, hl, factor, if_neg h]
      field_simp
      ring

theorem testLoop_spec {e σ ε A : ℝ} (h0 : 0 < ε) (h1 : ε < 1) (all : List ℝ) (hall : all ≠ []) :
    ∀ (done rs : List ℝ), all = done ++ rs →
      ∃ accept t, testLoop e σ ε A rs done.length (numInliers e done) (likelihoodRatio e σ ε done) =
          .ok (accept, t, (numInliers e (all.take t) : ℝ) / t) ∧
        done.length ≤ t ∧ 1 ≤ t ∧ t ≤ all.length ∧ (accept = true → t = all.length) ∧
        (accept = false → done.length < t ∧ A < likelihoodRatio e σ ε (all.take t)) ∧
        ∀ s, done.length < s → s ≤ t → (accept = false → s < t) → likelihoodRatio e σ ε (all.take s) ≤ A := by
  intro done rs
  induction rs generalizing done with
  | nil =>
    intro hd
    rw [List.append_nil] at hd
    subst hd
    have hl : 0 < all.length := List.length_pos_iff.2 hall
    have hne : ((all.length : ℕ) : ℝ) ≠ 0 := by exact_mod_cast hl.ne'
    refine ⟨true, all.length, ?_, le_refl _, hl, le_refl _, fun _ => rfl, by simp, fun s hs hs' => by omega⟩
    unfold testLoop divide
    rw [if_neg hne, List.take_length]
    rfl
  | cons r rs ih =>
    intro hd
    have hd' : all = (done ++ [r]) ++ rs := by rw [hd]; simp
    have hlen : (done ++ [r]).length = done.length + 1 := by simp
    have hnum : numInliers e (done ++ [r]) = if r < e then numInliers e done + 1 else numInliers e done := by
      unfold numInliers
      rw [List.countP_append]
      by_cases h : r < e
      · simp [h]
      · simp [h]
    have hlik : likelihoodRatio e σ ε (done ++ [r]) = likelihoodRatio e σ ε done * factor e σ ε r := by
      rw [likelihoodRatio_eq h0 h1, likelihoodRatio_eq h0 h1]
      simp
    have htake : all.take (done.length + 1) = done ++ [r] := by
      rw [hd', ← hlen, List.take_left']
      rfl
    have hq : pointRatio e σ ε r = .ok (factor e σ ε r) := by
      have hne : (1 - ε) ≠ 0 := by linarith
      unfold pointRatio divide factor
      by_cases h : r < e
      · rw [if_pos h, if_pos h, if_neg h0.ne']
      · rw [if_neg h, if_neg h, if_neg hne]
    unfold testLoop
    rw [hq]
    simp only [Outcome.ok_bind]
    rw [← hnum, ← hlik]
    by_cases hgt : likelihoodRatio e σ ε (done ++ [r]) > A
    · rw [if_pos hgt]
      have hne : ((done.length + 1 : ℕ) : ℝ) ≠ 0 := Nat.cast_ne_zero.2 (Nat.succ_ne_zero _)
      refine ⟨false, done.length + 1, ?_, by omega, by omega, ?_, by simp, ?_, ?_⟩
      · unfold divide
        rw [if_neg hne, htake]
        rfl
      · rw [hd']; simp
      · intro _
        rw [htake]
        exact ⟨by omega, hgt⟩
      · intro s hs hs' hs''
        have := hs'' rfl
        omega
    · rw [if_neg hgt, ← hlen]
      obtain ⟨accept, t, k1, k2, k3, k4, k5, k6, k7⟩ := ih (done ++ [r]) hd'
      refine ⟨accept, t, k1, by omega, k3, k4, k5, fun ha => ⟨by omega, (k6 ha).2⟩, ?_⟩
      intro s hs hs' hs''
      rcases Nat.lt_or_ge (done.length + 1) s with h | h
      · exact k7 s (by omega) hs' hs''
      · have : s = done.length + 1 := by omega
        subst this
        rw [htake]
        exact not_lt.1 hgt

/-! ## The probability of rejecting a good model -/

/-- Some prefix takes the likelihood above the threshold. -/
def Rejects (A : ℝ) (f : Bool → ℝ) : List Bool → ℝ → Prop
  | [], _ => False
  | x :: xs, l => A < l * f x ∨ Rejects A f xs (l * f x)

/-- Ville's inequality for the likelihood ratio. -/
theorem ville {σ ε A : ℝ} (h0 : 0 < ε) (h1 : ε < 1) (hs0 : 0 ≤ σ) (hs1 : σ ≤ 1) (hA : 0 < A) (n : Nat) :
    ∀ l, 0 ≤ l →
      probability ε n (fun x => Rejects A (fun b => if b then σ / ε else (1 - σ) / (1 - ε)) (List.ofFn x) l) ≤ l / A := by
  classical
  induction n with
  | zero =>
    intro l hl
    unfold probability
    simp only [List.ofFn_zero, Rejects, if_false, mul_zero, Finset.sum_const_zero]
    positivity
  | succ n ih =>
    intro l hl
    set f : Bool → ℝ := fun b => if b then σ / ε else (1 - σ) / (1 - ε) with hf
    have hfpos : ∀ b, 0 ≤ f b := by
      intro b
      have : 0 < 1 - ε := by linarith
      have : 0 ≤ 1 - σ := by linarith
      cases b <;> simp only [hf] <;> simp <;> positivity
    -- each branch
    have hweight : ∀ (m : Nat), ∑ x : Fin m → Bool, (∏ i, if x i then ε else 1 - ε) = 1 := by
      intro m
      have := Finset.prod_univ_sum (fun _ : Fin m => (Finset.univ : Finset Bool))
        (fun _ b => if b then ε else 1 - ε)
      rw [Fintype.piFinset_univ] at this
      rw [← this]
      simp
    have hbranch : ∀ b, ∑ x : Fin n → Bool, (∏ i, if x i then ε else 1 - ε) *
        (if Rejects A f (b :: List.ofFn x) l then (1 : ℝ) else 0) ≤ l * f b / A := by
      intro b
      by_cases h : A < l * f b
      · have h' : ∀ x : Fin n → Bool, Rejects A f (b :: List.ofFn x) l := fun x => Or.inl h
        simp only [h', if_true, mul_one]
        rw [hweight, le_div_iff₀ hA]
        linarith
      · have := ih (l * f b) (mul_nonneg hl (hfpos b))
        refine le_trans (le_of_eq ?_) this
        unfold probability
        refine Finset.sum_congr rfl fun x _ => ?_
        have : Rejects A f (b :: List.ofFn x) l ↔ Rejects A f (List.ofFn x) (l * f b) :=
          ⟨fun k => k.resolve_left h, Or.inr⟩
        simp only [this]
    unfold probability
    rw [← (Fin.consEquiv fun _ => Bool).sum_comp, Fintype.sum_prod_type]
    have hsum : ∀ b : Bool, ∑ x : Fin n → Bool,
        (∏ i, if ((Fin.consEquiv fun _ => Bool) (b, x)) i then ε else 1 - ε) *
          (if Rejects A f (List.ofFn ((Fin.consEquiv fun _ => Bool) (b, x))) l then (1 : ℝ) else 0) =
        (if b then ε else 1 - ε) * ∑ x : Fin n → Bool, (∏ i, if x i then ε else 1 - ε) *
          (if Rejects A f (b :: List.ofFn x) l then (1 : ℝ) else 0) := by
      intro b
      rw [Finset.mul_sum]
      refine Finset.sum_congr rfl fun x _ => ?_
      rw [Fin.prod_univ_succ, List.ofFn_succ]
      simp only [Fin.consEquiv_apply, Fin.cons_zero, Fin.cons_succ]
      ring
    simp only [hsum]
    rw [Fintype.sum_bool]
    have ht := hbranch true
    have hff := hbranch false
    have e1 : 0 < 1 - ε := by linarith
    have t1 := mul_le_mul_of_nonneg_left ht h0.le
    have t2 := mul_le_mul_of_nonneg_left hff e1.le
    have hfin : ε * (l * f true / A) + (1 - ε) * (l * f false / A) = l / A := by
      have : f true = σ / ε := rfl
      have h' : f false = (1 - σ) / (1 - ε) := rfl
      rw [this, h']
      field_simp
      ring
    simp only [if_true, Bool.false_eq_true, if_false]
    linarith

theorem rejects_iff {e σ ε A : ℝ} (f : Bool → ℝ) (hf : ∀ r, factor e σ ε r = f (decide (r < e))) (rs : List ℝ) (l : ℝ) :
    Rejects A f (rs.map fun r => decide (r < e)) l ↔
      ∃ s, 1 ≤ s ∧ s ≤ rs.length ∧ A < l * ((rs.take s).map (factor e σ ε)).prod := by
  induction rs generalizing l with
  | nil =>
    constructor
    · exact False.elim
    · rintro ⟨s, h1, h2, -⟩
      simp at h2
      omega
  | cons r rs ih =>
    rw [List.map_cons, Rejects, ih, ← hf]
    constructor
    · rintro (h | ⟨s, h1, h2, h3⟩)
      · exact ⟨1, le_refl _, by simp, by simpa using h⟩
      · refine ⟨s + 1, by omega, by simpa using h2, ?_⟩
        rw [List.take_succ_cons, List.map_cons, List.prod_cons, ← mul_assoc]
        exact h3
    · rintro ⟨s, h1, h2, h3⟩
      obtain ⟨s, rfl⟩ : ∃ k, s = k + 1 := ⟨s - 1, by omega⟩
      rw [List.take_succ_cons, List.map_cons, List.prod_cons, ← mul_assoc] at h3
      rcases Nat.eq_zero_or_pos s with rfl | hs
      · left
        simpa using h3
      · right
        exact ⟨s, hs, by simpa using h2, h3⟩

/-! ## The threshold -/

theorem log_div_le {σ ε : ℝ} (hs : 0 < σ) (he : 0 < ε) : σ - ε ≤ σ * Real.log (σ / ε) := by
  have h := Real.log_le_sub_one_of_pos (div_pos he hs)
  have h2 : Real.log (σ / ε) = -Real.log (ε / σ) := by
    rw [Real.log_div hs.ne' he.ne', Real.log_div he.ne' hs.ne']
    ring
  rw [h2]
  have := mul_le_mul_of_nonneg_left h hs.le
  have h3 : σ * (ε / σ - 1) = ε - σ := by field_simp
  linarith

theorem divergence_ok {σ ε : ℝ} (hs0 : 0 < σ) (hs1 : σ < 1) (he0 : 0 < ε) (he1 : ε < 1) :
    divergence σ ε = .ok ((1 - σ) * Real.log ((1 - σ) / (1 - ε)) + σ * Real.log (σ / ε)) := by
  have h1 : 0 < 1 - σ := by linarith
  have h2 : 0 < 1 - ε := by linarith
  unfold divergence divide logarithm
  simp only [if_neg h2.ne', if_neg he0.ne', Outcome.ok_bind, if_pos (div_pos h1 h2), if_pos (div_pos hs0 he0)]

theorem divergence_nonneg {σ ε : ℝ} (hs0 : 0 < σ) (hs1 : σ < 1) (he0 : 0 < ε) (he1 : ε < 1) :
    0 ≤ (1 - σ) * Real.log ((1 - σ) / (1 - ε)) + σ * Real.log (σ / ε) := by
  have h1 := log_div_le hs0 he0
  have h2 := log_div_le (σ := 1 - σ) (ε := 1 - ε) (by linarith) (by linarith)
  linarith

/-- Logarithms of numbers above one are closer than the numbers. -/
theorem log_sub_le {x y : ℝ} (hx : 0 < x) (hxy : x ≤ y) : Real.log y - Real.log x ≤ (y - x) / x := by
  have hy : 0 < y := lt_of_lt_of_le hx hxy
  rw [← Real.log_div hy.ne' hx.ne']
  have := Real.log_le_sub_one_of_pos (div_pos hy hx)
  have h : y / x - 1 = (y - x) / x := by field_simp
  linarith

theorem fixed_point {a0 : ℝ} (h : 1 ≤ a0) : ∃ A, a0 ≤ A ∧ A = a0 + Real.log A := by
  have hcont : ContinuousOn (fun x : ℝ => x - Real.log x - a0) (Set.Icc a0 (4 * a0 ^ 2)) := by
    refine ContinuousOn.sub (ContinuousOn.sub continuousOn_id (Real.continuousOn_log.mono ?_)) continuousOn_const
    intro x hx
    have := hx.1
    simp only [Set.mem_compl_iff, Set.mem_singleton_iff]
    intro e
    linarith
  have hle : a0 ≤ 4 * a0 ^ 2 := by nlinarith
  have hlog0 := Real.log_nonneg h
  have hlog : Real.log (4 * a0 ^ 2) ≤ 4 * a0 - 2 := by
    have : Real.log (4 * a0 ^ 2) = 2 * Real.log (2 * a0) := by
      have e : (4 * a0 ^ 2) = (2 * a0) ^ 2 := by ring
      rw [e, Real.log_pow]
      norm_num
    rw [this]
    have := Real.log_le_sub_one_of_pos (show 0 < 2 * a0 by linarith)
    linarith
  obtain ⟨A, hA, hA'⟩ := intermediate_value_Icc hle hcont (show (0 : ℝ) ∈ Set.Icc _ _ from
    ⟨by linarith, by nlinarith [sq_nonneg (a0 - 5 / 8)]⟩)
  exact ⟨A, hA.1, by simp only at hA'; linarith⟩

/-- The loop: while the steps have not become small, the values grow. -/
theorem iterate_ok {a0 : ℝ} (h : 1 ≤ a0) (n : Nat) : ∀ t, a0 ≤ t → t ≤ a0 + Real.log t →
    ∃ T, iterate a0 n t = .ok T ∧ t ≤ T ∧ T ≤ a0 + Real.log T := by
  induction n with
  | zero => intro t h1 h2; exact ⟨t, rfl, le_refl _, h2⟩
  | succ n ih =>
    intro t h1 h2
    have ht : 0 < t := by linarith
    have hmono : a0 + Real.log t ≤ a0 + Real.log (a0 + Real.log t) := by
      have := Real.log_le_log ht h2
      linarith
    unfold iterate logarithm
    simp only [if_pos ht, Outcome.ok_bind]
    split
    · exact ⟨_, rfl, h2, hmono⟩
    · obtain ⟨T, k1, k2, k3⟩ := ih (a0 + Real.log t) (by linarith) hmono
      exact ⟨T, k1, by linarith, k3⟩

/-- Once the value is large the steps shrink by a constant factor, and the loop ends early. -/
theorem iterate_fast {a0 : ℝ} (n : Nat) : ∀ t, 1.05 ≤ t → a0 ≤ t → t ≤ a0 + Real.log t →
    a0 + Real.log t - t < 1e-4 * 1.05 ^ n →
    ∃ u, a0 ≤ u ∧ u ≤ a0 + Real.log u ∧ a0 + Real.log u - u < 1e-4 ∧ iterate a0 (n + 1) t = .ok (a0 + Real.log u) := by
  induction n with
  | zero =>
    intro t h105 h1 h2 h3
    have ht : 0 < t := by linarith
    refine ⟨t, h1, h2, by simpa using h3, ?_⟩
    unfold iterate logarithm
    simp only [if_pos ht, Outcome.ok_bind]
    rw [if_pos]
    rw [abs_of_nonneg (by linarith)]
    simpa using h3
  | succ n ih =>
    intro t h105 h1 h2 h3
    have ht : 0 < t := by linarith
    rw [iterate]
    unfold logarithm
    simp only [if_pos ht, Outcome.ok_bind]
    by_cases hs : |a0 + Real.log t - t| < 1e-4
    · rw [if_pos hs]
      exact ⟨t, h1, h2, by rwa [abs_of_nonneg (by linarith)] at hs, rfl⟩
    · rw [if_neg hs]
      have hmono : a0 + Real.log t ≤ a0 + Real.log (a0 + Real.log t) := by
        have := Real.log_le_log ht h2
        linarith
      refine ih (a0 + Real.log t) (by linarith) (by linarith) hmono ?_
      have hd := log_sub_le ht h2
      have hstep : (a0 + Real.log t - t) / t ≤ (a0 + Real.log t - t) / 1.05 :=
        div_le_div_of_nonneg_left (by linarith) (by norm_num) h105
      have : (a0 + Real.log t - t) / 1.05 < 1e-4 * 1.05 ^ n := by
        rw [div_lt_iff₀ (by norm_num)]
        rw [pow_succ] at h3
        linarith
      linarith

/-- `k` passes without a small step. -/
theorem iterate_grows {a0 : ℝ} (h : 1 ≤ a0) (k n : Nat) : ∀ t, a0 ≤ t → t ≤ a0 + Real.log t →
    (∃ u, a0 ≤ u ∧ u ≤ a0 + Real.log u ∧ a0 + Real.log u - u < 1e-4 ∧ iterate a0 (k + n) t = .ok (a0 + Real.log u)) ∨
    ∃ u, t + k * 1e-4 ≤ u ∧ u ≤ a0 + Real.log u ∧ iterate a0 (k + n) t = iterate a0 n u ∧
      a0 + Real.log u - u ≤ a0 + Real.log t - t := by
  induction k with
  | zero =>
    intro t h1 h2
    right
    exact ⟨t, by simp, h2, by rw [Nat.zero_add], le_refl _⟩
  | succ k ih =>
    intro t h1 h2
    have ht : 0 < t := by linarith
    have ht1 : 1 ≤ t := by linarith
    have hmono : a0 + Real.log t ≤ a0 + Real.log (a0 + Real.log t) := by
      have := Real.log_le_log ht h2
      linarith
    have e : k + 1 + n = (k + n) + 1 := by omega
    rw [e, iterate]
    unfold logarithm
    simp only [if_pos ht, Outcome.ok_bind]
    by_cases hs : |a0 + Real.log t - t| < 1e-4
    · left
      rw [if_pos hs]
      exact ⟨t, h1, h2, by rwa [abs_of_nonneg (by linarith)] at hs, rfl⟩
    · rw [if_neg hs]
      rw [abs_of_nonneg (by linarith), not_lt] at hs
      rcases ih (a0 + Real.log t) (by linarith) hmono with hl | ⟨u, k1, k2, k3, k4⟩
      · exact Or.inl hl
      · right
        refine ⟨u, ?_, k2, k3, ?_⟩
        · push_cast
          linarith
        · have hd := log_sub_le ht h2
          have : (a0 + Real.log t - t) / t ≤ a0 + Real.log t - t := div_le_self (by linarith) ht1
          linarith

/-- A thousand passes are enough. -/
theorem iterate_converges {a0 : ℝ} (h : 1 ≤ a0) :
    ∃ u, a0 ≤ u ∧ u ≤ a0 + Real.log u ∧ a0 + Real.log u - u < 1e-4 ∧ iterate a0 1000 a0 = .ok (a0 + Real.log u) := by
  have hpos : 0 < a0 := by linarith
  have hl := Real.log_nonneg h
  -- the first pass
  by_cases hs : |a0 + Real.log a0 - a0| < 1e-4
  · refine ⟨a0, le_refl _, by linarith, by rwa [abs_of_nonneg (by linarith)] at hs, ?_⟩
    rw [iterate]
    unfold logarithm
    simp only [if_pos hpos, Outcome.ok_bind]
    rw [if_pos hs]
  · have e1 : iterate a0 1000 a0 = iterate a0 999 (a0 + Real.log a0) := by
      rw [iterate]
      unfold logarithm
      simp only [if_pos hpos, Outcome.ok_bind]
      rw [if_neg hs]
    set t := a0 + Real.log a0 with ht
    have h1 : a0 ≤ t := by linarith
    have h2 : t ≤ a0 + Real.log t := by
      have := Real.log_le_log hpos h1
      linarith
    have hstep : a0 + Real.log t - t ≤ 1 := by
      have hd := log_sub_le hpos h1
      have : Real.log a0 ≤ a0 - 1 := Real.log_le_sub_one_of_pos hpos
      have h3 : (t - a0) / a0 ≤ 1 := by
        rw [div_le_iff₀ hpos]
        linarith
      linarith
    rcases iterate_grows h 500 499 t h1 h2 with ⟨u, k1, k2, k3, k4⟩ | ⟨u, k1, k2, k3, k4⟩
    · exact ⟨u, k1, k2, k3, by rw [e1]; exact k4⟩
    · have hu : 1.05 ≤ u := by
        push_cast at k1
        norm_num at k1 ⊢
        linarith
      have hau : a0 ≤ u := by
        push_cast at k1
        norm_num at k1
        linarith
      obtain ⟨w, w1, w2, w3, w4⟩ := iterate_fast 498 u hu hau k2 (by
        have h2 : (2 : ℝ) ≤ 1.05 ^ 15 := by norm_num
        have h3 : ((2 : ℝ) ^ 30) ≤ (1.05 ^ 15) ^ 30 := pow_le_pow_left₀ (by norm_num) h2 30
        have h4 : ((1.05 : ℝ) ^ 15) ^ 30 ≤ 1.05 ^ 498 := by
          rw [← pow_mul]
          exact pow_le_pow_right₀ (by norm_num) (by norm_num)
        have h5 : (20000 : ℝ) ≤ 2 ^ 30 := by norm_num
        have : (1 : ℝ) < 1e-4 * 1.05 ^ 498 := by
          generalize (1.05 : ℝ) ^ 498 = z at *
          norm_num
          linarith
        exact lt_of_le_of_lt (k4.trans hstep) this)
      exact ⟨w, w1, w2, w3, by rw [e1, k3]; exact w4⟩

end Sprt
end Theia
