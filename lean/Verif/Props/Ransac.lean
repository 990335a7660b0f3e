import Verif.Proof.Ransac

/-!
# C20 and C21: sample consensus
-/

namespace Theia

open Spec Ransac

/-- C21, range: the number of iterations is between the two configured limits, for any inlier ratio
above zero. -/
theorem C21_in_range (p : Params) (hp : p.Valid) (s : Nat) (w : ℝ) (hw : 0 < w) :
    ∃ k, computeMaxIterations p s w (Real.log p.failureProbability) = .ok k ∧
      p.minIterations ≤ k ∧ k ≤ p.maxIterations :=
  compute_bounds p hp.2.2.2.2 s w _ hw

/-- C21, monotone: a higher inlier ratio never asks for more iterations. -/
theorem C21_antitone (p : Params) (hp : p.Valid) (s : Nat) (hs : 1 ≤ s) (w w' : ℝ) (hw : 0 < w)
    (hww : w ≤ w') (hw1 : w' ≤ 1) (k k' : Int)
    (hk : computeMaxIterations p s w (Real.log p.failureProbability) = .ok k)
    (hk' : computeMaxIterations p s w' (Real.log p.failureProbability) = .ok k') : k' ≤ k := by
  obtain ⟨_, _, hf1, hf0, hmm⟩ := hp
  have hlf : Real.log p.failureProbability < 0 := Real.log_neg hf0 hf1
  by_cases h1 : w' = 1
  · unfold computeMaxIterations at hk'
    rw [if_pos (by linarith), if_pos h1] at hk'
    cases hk'
    obtain ⟨k0, hk0, hlo, _⟩ := compute_bounds p hmm s w (Real.log p.failureProbability) hw
    rw [hk] at hk0
    cases hk0
    exact hlo
  · have hlt' : w' < 1 := lt_of_le_of_ne hw1 h1
    have hlt : w < 1 := lt_of_le_of_lt hww hlt'
    have hn : 1 ≤ (if p.useTdd then s + 1 else s) := by split <;> omega
    unfold computeMaxIterations at hk hk'
    rw [if_pos hw, if_neg (by linarith)] at hk
    rw [if_pos (by linarith), if_neg h1] at hk'
    cases hk
    cases hk'
    apply truncate_mono
    refine max_le_max (le_refl _) (min_le_min ?_ (le_refl _))
    generalize (if p.useTdd then s + 1 else s) = n at *
    obtain ⟨a1, a2, a3⟩ := log_prob_neg hw hlt hn
    obtain ⟨b1, b2, b3⟩ := log_prob_neg (lt_of_lt_of_le hw hww) hlt' hn
    have hpow : w ^ n ≤ w' ^ n := pow_le_pow_left₀ hw.le hww n
    have hlog : Real.log (1 - w' ^ n) ≤ Real.log (1 - w ^ n) := Real.log_le_log b1 (by linarith)
    rw [← neg_div_neg_eq, ← neg_div_neg_eq (Real.log p.failureProbability)]
    exact div_le_div_of_nonneg_left (by linarith) (by linarith) (by linarith)

/-- C21, failure probability: if the returned number `k` of iterations is below the limit, `k + 1`
iterations miss an all-inlier sample with at most the requested probability, up to the factor
`exp ((k + 1) * 2^-52)` due to the epsilon in the code. What is missing from the full property: it
speaks of `k` iterations, which is false because the quotient is truncated (see the counterexample). -/
theorem C21_failure_probability_partial (p : Params) (hp : p.Valid) (s : Nat) (hs : 1 ≤ s) (w : ℝ)
    (hw : 0 < w) (hw1 : w < 1) (hT : p.useTdd = false) (k : Nat)
    (hk : computeMaxIterations p s w (Real.log p.failureProbability) = .ok (k : Int))
    (hcut : (k : Int) < p.maxIterations) :
    (1 - w ^ s) ^ (k + 1) ≤ p.failureProbability * Real.exp ((k + 1) * epsilon) := by
  obtain ⟨_, _, hf1, hf0, hmm⟩ := hp
  unfold computeMaxIterations at hk
  rw [if_pos hw, if_neg (by linarith)] at hk
  simp only [hT, Bool.false_eq_true, if_false, Outcome.ok.injEq] at hk
  obtain ⟨a1, a2, a3⟩ := log_prob_neg hw hw1 hs
  generalize hL : Real.log p.failureProbability / (Real.log (1 - w ^ s) - epsilon) = x at *
  have hlt := truncate_lt (max (p.minIterations : ℝ) (min x (p.maxIterations : ℝ)))
  rw [hk] at hlt
  have hxm : min x (p.maxIterations : ℝ) < (k : ℝ) + 1 := by
    refine lt_of_le_of_lt (le_max_right (p.minIterations : ℝ) _) ?_
    exact_mod_cast hlt
  have hx : x < (k : ℝ) + 1 := by
    rcases lt_or_ge x (p.maxIterations : ℝ) with h | h
    · rwa [min_eq_left h.le] at hxm
    · rw [min_eq_right h] at hxm
      have : (k : ℝ) + 1 ≤ (p.maxIterations : ℝ) := by
        have : (k : Int) + 1 ≤ p.maxIterations := by omega
        exact_mod_cast this
      linarith
  have hmul : (k + 1 : ℝ) * (Real.log (1 - w ^ s) - epsilon) ≤ Real.log p.failureProbability := by
    have := mul_le_mul_of_nonpos_right hx.le a3.le
    rw [← hL, div_mul_cancel₀ _ (ne_of_lt a3)] at this
    exact this
  have hpos : 0 < (1 - w ^ s) ^ (k + 1) := pow_pos a1 _
  rw [← Real.exp_log hpos, Real.log_pow, ← Real.exp_log hf0, ← Real.exp_add]
  apply Real.exp_le_exp.2
  push_cast
  linarith

/-- C21 is false as coded: with an inlier ratio of one half, samples of one datum and a failure
probability of 0.1, three iterations are asked for, which miss with probability 0.125. -/
theorem C21_truncation_counterexample :
    ∃ p : Params, p.Valid ∧ computeMaxIterations p 1 (1 / 2) (Real.log p.failureProbability) = .ok 3 ∧
      3 < p.maxIterations ∧ p.failureProbability < (1 - (1 / 2 : ℝ) ^ 1) ^ 3 := by
  refine ⟨⟨1 / 10, 0, 0, 1000, false⟩, ⟨by norm_num, by norm_num, by norm_num, by norm_num, by norm_num⟩,
    ?_, by norm_num, by norm_num⟩
  have hq : (1 : ℝ) - (1 / 2) ^ 1 = 1 / 2 := by norm_num
  have he := epsilon_pos
  have he' : epsilon ≤ 1 / 1000 := by
    unfold epsilon
    norm_num
  have hl2 : Real.log (1 / 2) < 0 := Real.log_neg (by norm_num) (by norm_num)
  have hneg : Real.log (1 / 2) - epsilon < 0 := by linarith
  have h3 : (3 : ℝ) ≤ Real.log (1 / 10) / (Real.log (1 / 2) - epsilon) := by
    rw [le_div_iff_of_neg hneg]
    have h1 : Real.log (1 / 10) ≤ Real.log (1 / 8) - 1 / 100 := by
      have hsplit : Real.log (1 / 10) = Real.log (1 / 8) + Real.log (8 / 10) := by
        rw [← Real.log_mul (by norm_num) (by norm_num)]; norm_num
      have : Real.log (8 / 10) ≤ 8 / 10 - 1 := Real.log_le_sub_one_of_pos (by norm_num)
      rw [hsplit]
      linarith
    have h8 : Real.log (1 / 8) = 3 * Real.log (1 / 2) := by
      have : (1 / 8 : ℝ) = (1 / 2) ^ 3 := by norm_num
      rw [this, Real.log_pow]; norm_num
    linarith
  have h4 : Real.log (1 / 10) / (Real.log (1 / 2) - epsilon) < 4 := by
    rw [div_lt_iff_of_neg hneg]
    have h16 : Real.log (1 / 16) = 4 * Real.log (1 / 2) := by
      have : (1 / 16 : ℝ) = (1 / 2) ^ 4 := by norm_num
      rw [this, Real.log_pow]; norm_num
    have : Real.log (1 / 16) < Real.log (1 / 10) := Real.log_lt_log (by norm_num) (by norm_num)
    linarith
  unfold computeMaxIterations
  rw [if_pos (by norm_num), if_neg (by norm_num)]
  simp only [Bool.false_eq_true, if_false, hq, Outcome.ok.injEq]
  push_cast
  rw [min_eq_left (by linarith), max_eq_right (by linarith)]
  unfold truncate
  rw [if_pos (by linarith), Int.floor_eq_iff]
  constructor
  · exact_mod_cast h3
  · push_cast; linarith

variable {D M C : Type} [LinearOrder C]

/-- C20: for any data, sampler behaviour, estimator and quality measure, estimation returns after a
number of iterations between the configured limits. The model returned is the first of the cheapest
among all models of the samples drawn (and the caller's own initial value if no sample gave a model:
the call reports success all the same); the inliers are those of that model and the confidence is
computed from them. It stops only when the iteration limit, the number of iterations for the assumed
inlier ratio, or the number of iterations for the inlier ratio of some evaluated model is reached. -/
theorem C20_best_model (p : Params) (hp : p.Valid) (data : List D) (hd : data ≠ [])
    (sample : Nat → Option (List Nat)) (hs : ∀ i idx, sample i = some idx → ∀ j ∈ idx, j < data.length)
    (estimate : List D → Option (List M)) (sampleSize : Nat) (hss : 1 ≤ sampleSize)
    (eval : M → C × List Nat) (initial : M) :
    ∃ best sum, run p data sample estimate sampleSize eval initial = .ok (best, sum) ∧
      p.minIterations ≤ sum.numIterations ∧ (sum.numIterations : Int) ≤ max 0 p.maxIterations ∧
      (modelsUpTo data sample estimate sum.numIterations = [] → best = initial) ∧
      (modelsUpTo data sample estimate sum.numIterations ≠ [] →
        FirstCheapest (fun m => (eval m).1) (modelsUpTo data sample estimate sum.numIterations) best) ∧
      sum.inliers = (eval best).2 ∧ sum.numInputDataPoints = data.length ∧
      sum.confidence = 1 - (1 - (((eval best).2.length : ℝ) / data.length) ^ sampleSize) ^ sum.numIterations ∧
      (p.maxIterations ≤ sum.numIterations ∨
        (∃ k, 0 < p.minInlierRatio ∧ computeMaxIterations p sampleSize p.minInlierRatio
          (Real.log p.failureProbability) = .ok k ∧ k ≤ sum.numIterations) ∨
        (∃ m ∈ modelsUpTo data sample estimate sum.numIterations, ∃ k,
          sampleSize ≤ (eval m).2.length ∧
          computeMaxIterations p sampleSize (((eval m).2.length : ℝ) / data.length)
            (Real.log p.failureProbability) = .ok k ∧ k ≤ sum.numIterations)) := by
  have hlen : 0 < data.length := List.length_pos_iff.2 hd
  have hmm := hp.2.2.2.2
  have hbound : ∀ n : Nat, sampleSize ≤ n → ∃ k, computeMaxIterations p sampleSize ((n : ℝ) / data.length)
      (Real.log p.failureProbability) = .ok k ∧ p.minIterations ≤ k ∧ k ≤ p.maxIterations := by
    intro n hn
    apply compute_bounds p hmm
    have : (0 : ℝ) < n := by exact_mod_cast (by omega : 0 < n)
    have : (0 : ℝ) < data.length := by exact_mod_cast hlen
    positivity
  obtain ⟨start, hstart, hlo, hhi, hwhy⟩ : ∃ start : Int,
      startIterations p sampleSize (Real.log p.failureProbability) = .ok start ∧ p.minIterations ≤ start ∧
      start ≤ p.maxIterations ∧ (start = p.maxIterations ∨ ∃ k, 0 < p.minInlierRatio ∧
        computeMaxIterations p sampleSize p.minInlierRatio (Real.log p.failureProbability) = .ok k ∧
        k = start) := by
    by_cases h0 : p.minInlierRatio > 0
    · obtain ⟨k, hk, h1, h2⟩ := compute_bounds p hmm sampleSize p.minInlierRatio
        (Real.log p.failureProbability) h0
      refine ⟨k, ?_, h1, h2, Or.inr ⟨k, h0, hk, rfl⟩⟩
      rw [startIterations, if_pos h0, hk]
      simp only [min_eq_left h2]
    · exact ⟨p.maxIterations, by rw [startIterations, if_neg h0], hmm, le_refl _, Or.inl rfl⟩
  obtain ⟨n, s', he, hI, hmax, _, hle⟩ := loop_spec (data := data) (sample := sample)
    (estimate := estimate) (eval := eval) (sampleSize := sampleSize)
    (bound := fun k => computeMaxIterations p sampleSize ((k : ℝ) / (data.length : ℝ))
      (Real.log p.failureProbability)) (start := start) hs
    (fun m hm => by obtain ⟨k, hk, _⟩ := hbound _ hm; exact ⟨k, hk⟩)
    start.toNat 0 ⟨start, none⟩
    ⟨by simp [modelsUpTo], by simp, le_refl _, Or.inl rfl⟩ (by simp only; omega)
  have hmin' : p.minIterations ≤ s'.maxIterations := by
    rcases hI.why with hw | ⟨m, _, hm, hb⟩
    · rw [hw]; exact hlo
    · obtain ⟨k, hk, h1, _⟩ := hbound _ hm
      rw [hk] at hb
      cases hb
      exact h1
  refine ⟨bestOr initial s'.best, ⟨(eval (bestOr initial s'.best)).2, data.length, n,
    1 - (1 - (((eval (bestOr initial s'.best)).2.length : ℝ) / (data.length : ℝ)) ^ sampleSize) ^ n⟩,
    ?_, ?_, ?_, ?_, ?_, rfl, rfl, rfl, ?_⟩
  rotate_left
  · exact hmin'.trans hmax
  · simp only at hle ⊢
    omega
  · intro hE
    simp only at hE ⊢
    rw [hI.none.2 hE]
    rfl
  · intro hE
    simp only at hE ⊢
    cases hb : s'.best with
    | none => exact absurd (hI.none.1 hb) hE
    | some b => exact (hI.some b.1 b.2 hb).2
  · simp only
    rcases hI.why with hw | ⟨m, hm, hml, hb⟩
    · rcases hwhy with h | ⟨k, h0, hk, h⟩
      · left; omega
      · right; left; exact ⟨k, h0, hk, by omega⟩
    · right; right; exact ⟨m, hm, _, hml, hb, hmax⟩
  · unfold run
    rw [if_pos hlen]
    simp only
    rw [hstart]
    simp only
    rw [he]

/-- Data, three samples (one failing), and models with costs: the first of the two cheapest is kept and
the iteration bound drops once a model with enough inliers is found. -/
example : loop (C := Nat) [10, 20, 30] (fun i => if i = 1 then none else some [i % 3])
    (fun ds => some ds) 1 (fun m : Nat => (if m = 10 then 7 else 5, [0, 1])) (fun _ => .ok 4)
    100 0 ⟨100, none⟩ = .ok (4, ⟨4, some (30, 5)⟩) := by decide

/-- The hypotheses of C20 can be met. -/
example : ∃ p : Params, p.Valid ∧ 0 ≤ p.minIterations ∧ 0 < p.minInlierRatio :=
  ⟨⟨1 / 100, 1 / 2, 100, 1000, false⟩,
    ⟨by norm_num, by norm_num, by norm_num, by norm_num, by norm_num⟩, by norm_num, by norm_num⟩

end Theia
