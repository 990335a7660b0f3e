import Mathlib.Algebra.BigOperators.Fin
import Mathlib.Algebra.Order.BigOperators.Group.Finset
import Mathlib.Algebra.Order.Archimedean.Real.Basic
import Mathlib.Data.Set.Finite.Lattice
import Mathlib.Order.Interval.Finset.Fin
import Mathlib.Data.Int.Interval
import Mathlib.Tactic.Linarith
import Mathlib.Tactic.Ring
import Mathlib.Tactic.NormNum
import Mathlib.Tactic.Positivity
import Mathlib.Tactic.Zify
import Verif.Model.CompanionRoots

/-!
# The balancing of a companion matrix

Every state of the balancing is the start scaled by powers of two; the balancing ends.
-/

namespace Theia
namespace CompanionRoots

open Classical

variable {n : Nat}

/-- The matrix scaled by the diagonal matrix with the powers `2 ^ d i`. -/
noncomputable def scaled (W : Matrix (Fin n) (Fin n) ℝ) (d : Fin n → ℤ) : Matrix (Fin n) (Fin n) ℝ := fun j k =>
  W j k * (2 : ℝ) ^ (d k - d j)

theorem scaled_zero (W : Matrix (Fin n) (Fin n) ℝ) : scaled W (fun _ => 0) = W := by
  funext j k
  simp [scaled]

theorem rescale_scaled (W : Matrix (Fin n) (Fin n) ℝ) (d : Fin n → ℤ) (i : Fin n) (e : ℤ) :
    rescale (scaled W d) i e = scaled W (Function.update d i (d i + e)) := by
  funext j k
  unfold rescale scaled
  have h2 : (2 : ℝ) ≠ 0 := by norm_num
  by_cases hj : j = i <;> by_cases hk : k = i
  · subst hj
    subst hk
    simp only [if_true, Function.update_self, sub_self, zpow_zero]
    rw [← zpow_add₀ h2]
    simp
  · subst hj
    simp only [if_true, if_neg hk, Function.update_self, Function.update_of_ne hk]
    rw [show d k - (d j + e) = -e + (d k - d j) by ring, zpow_add₀ h2]
    ring
  · subst hk
    simp only [if_true, if_neg hj, Function.update_self, Function.update_of_ne hj]
    rw [show d k + e - d j = e + (d k - d j) by ring, zpow_add₀ h2]
    ring
  · simp only [if_neg hj, if_neg hk, Function.update_of_ne hj, Function.update_of_ne hk]
    ring

theorem rowNorm_eq (A : Matrix (Fin n) (Fin n) ℝ) (i : Fin n) : rowNorm A i = ∑ j, |A i j| :=
  (Fin.sum_univ_def _).symm

theorem colNorm_eq (A : Matrix (Fin n) (Fin n) ℝ) (i : Fin n) : colNorm A i = ∑ j, |A j i| :=
  (Fin.sum_univ_def _).symm

/-- The sum of all absolute values. -/
noncomputable def total (A : Matrix (Fin n) (Fin n) ℝ) : ℝ := ∑ j, ∑ k, |A j k|

theorem total_nonneg (A : Matrix (Fin n) (Fin n) ℝ) : 0 ≤ total A :=
  Finset.sum_nonneg fun _ _ => Finset.sum_nonneg fun _ _ => abs_nonneg _

theorem le_total (A : Matrix (Fin n) (Fin n) ℝ) (j k : Fin n) : |A j k| ≤ total A := by
  unfold total
  refine le_trans (Finset.single_le_sum (f := fun k => |A j k|) (fun _ _ => abs_nonneg _) (Finset.mem_univ k)) ?_
  exact Finset.single_le_sum (f := fun j => ∑ k, |A j k|) (fun _ _ => Finset.sum_nonneg fun _ _ => abs_nonneg _)
    (Finset.mem_univ j)

theorem rowNorm_nonneg (A : Matrix (Fin n) (Fin n) ℝ) (i : Fin n) : 0 ≤ rowNorm A i := by
  rw [rowNorm_eq]
  exact Finset.sum_nonneg fun _ _ => abs_nonneg _

theorem le_colNorm (A : Matrix (Fin n) (Fin n) ℝ) (j i : Fin n) : |A j i| ≤ colNorm A i := by
  rw [colNorm_eq]
  exact Finset.single_le_sum (f := fun j => |A j i|) (fun _ _ => abs_nonneg _) (Finset.mem_univ j)

theorem total_rescale {A : Matrix (Fin n) (Fin n) ℝ} {i : Fin n} (hd : A i i = 0) (e : ℤ) :
    total (rescale A i e) = total A - (colNorm A i + rowNorm A i) + (colNorm A i * 2 ^ e + rowNorm A i * 2 ^ (-e)) := by
  have h1 : ∀ j k, |rescale A i e j k| = |A j k| + (if j = i then ((2 : ℝ) ^ (-e) - 1) * |A j k| else 0) +
      (if k = i then ((2 : ℝ) ^ e - 1) * |A j k| else 0) := by
    intro j k
    unfold rescale
    have hp : 0 < (2 : ℝ) ^ e := zpow_pos (by norm_num) e
    have hm : 0 < (2 : ℝ) ^ (-e) := zpow_pos (by norm_num) _
    by_cases hj : j = i <;> by_cases hk : k = i
    · subst hj
      subst hk
      simp [hd]
    · simp only [if_pos hj, if_neg hk, mul_one, abs_mul, abs_of_pos hm]
      ring
    · simp only [if_neg hj, if_pos hk, one_mul, abs_mul, abs_of_pos hp]
      ring
    · simp [hj, hk]
  unfold total
  simp only [h1, Finset.sum_add_distrib]
  rw [rowNorm_eq, colNorm_eq]
  have h2 : ∑ j, ∑ k, (if j = i then ((2 : ℝ) ^ (-e) - 1) * |A j k| else 0) = ((2 : ℝ) ^ (-e) - 1) * ∑ k, |A i k| := by
    rw [Finset.sum_eq_single i]
    · simp [Finset.mul_sum]
    · intro j _ hj
      simp [hj]
    · simp
  have h3 : ∑ j, ∑ k, (if k = i then ((2 : ℝ) ^ e - 1) * |A j k| else 0) = ((2 : ℝ) ^ e - 1) * ∑ j, |A j i| := by
    rw [Finset.mul_sum]
    exact Finset.sum_congr rfl fun j _ => by simp
  rw [h2, h3]
  ring

/-- One accepted scaling. -/
structure Moves (W : Matrix (Fin n) (Fin n) ℝ) (d d' : Fin n → ℤ) (i : Fin n) : Prop where
  other : ∀ k, k ≠ i → d' k = d k
  less : total (scaled W d') ≤ total (scaled W d) - (colNorm (scaled W d) i + rowNorm (scaled W d) i) / 10
  col : colNorm (scaled W d) i ≠ 0
  row : rowNorm (scaled W d) i ≠ 0

theorem colNorm_nonneg (A : Matrix (Fin n) (Fin n) ℝ) (i : Fin n) : 0 ≤ colNorm A i := by
  rw [colNorm_eq]
  exact Finset.sum_nonneg fun _ _ => abs_nonneg _

theorem Moves.lt {W : Matrix (Fin n) (Fin n) ℝ} {d d' : Fin n → ℤ} {i : Fin n} (h : Moves W d d' i) :
    total (scaled W d') < total (scaled W d) := by
  have h1 := (colNorm_nonneg (scaled W d) i).lt_of_ne' h.col
  have h2 := rowNorm_nonneg (scaled W d) i
  have := h.less
  linarith

theorem balanceAt_spec {W : Matrix (Fin n) (Fin n) ℝ} (hd : ∀ i, W i i = 0) {d : Fin n → ℤ} {i : Fin n}
    {B : Matrix (Fin n) (Fin n) ℝ} (h : balanceAt 0 (scaled W d) i = some B) :
    ∃ d', B = scaled W d' ∧ Moves W d d' i := by
  unfold balanceAt at h
  simp only at h
  split at h
  · rename_i he
    split at h
    · rename_i hl
      cases h
      refine ⟨_, rescale_scaled W d i _, ?_, ?_, ?_, ?_⟩
      · intro k hk
        rw [Function.update_of_ne hk]
      · rw [← rescale_scaled, total_rescale (by simp [scaled, hd])]
        linarith
      · intro h0
        apply he
        simp [exponent, h0]
      · intro h0
        apply he
        unfold exponent
        split
        · simp
        · simp [h0, frexpExp]
    · cases h
  · cases h

theorem balancePass_spec {W : Matrix (Fin n) (Fin n) ℝ} (hd : ∀ i, W i i = 0) : ∀ (is : List (Fin n)) (d : Fin n → ℤ) (ch : Bool)
    {B : Matrix (Fin n) (Fin n) ℝ} {ch' : Bool}, balancePass 0 is (scaled W d) ch = (B, ch') →
    ∃ d', B = scaled W d' ∧ Relation.ReflTransGen (fun a b => ∃ i, Moves W a b i) d d' ∧
      (ch' = true → ch = true ∨ Relation.TransGen (fun a b => ∃ i, Moves W a b i) d d') := by
  intro is
  induction is with
  | nil =>
    intro d ch B ch' h
    cases h
    exact ⟨d, rfl, .refl, fun h => .inl h⟩
  | cons i is ih =>
    intro d ch B ch' h
    unfold balancePass at h
    split at h
    · rename_i B1 hB1
      obtain ⟨d1, rfl, hm⟩ := balanceAt_spec hd hB1
      obtain ⟨d', hB, hr, -⟩ := ih d1 true h
      exact ⟨d', hB, .head ⟨i, hm⟩ hr, fun _ => .inr (.head' ⟨i, hm⟩ hr)⟩
    · exact ih d ch h

/-- If no scaling can go on for ever, the balancing ends with a scaled matrix. -/
theorem balanceLoop_spec {W : Matrix (Fin n) (Fin n) ℝ} (hd : ∀ i, W i i = 0) {d : Fin n → ℤ}
    (hacc : Acc (Relation.TransGen (fun a b => ∃ i, Moves W b a i)) d) :
    ∃ d' N, ∀ fuel ≥ N, balanceLoop 0 fuel (scaled W d) = some (scaled W d') := by
  induction hacc with
  | intro d _ ih =>
    rcases hp : balancePass 0 (List.finRange n) (scaled W d) false with ⟨B, ch⟩
    obtain ⟨d1, rfl, -, hm⟩ := balancePass_spec hd _ _ _ hp
    cases ch with
    | true =>
      rcases hm rfl with h | h
      · cases h
      · obtain ⟨d', N, hN⟩ := ih d1 (Relation.transGen_swap.1 h)
        refine ⟨d', N + 1, fun fuel hf => ?_⟩
        obtain ⟨f, rfl⟩ : ∃ f, fuel = f + 1 := ⟨fuel - 1, by omega⟩
        unfold balanceLoop
        rw [hp]
        exact hN f (by omega)
    | false =>
      refine ⟨d1, 1, fun fuel hf => ?_⟩
      obtain ⟨f, rfl⟩ : ∃ f, fuel = f + 1 := ⟨fuel - 1, by omega⟩
      unfold balanceLoop
      rw [hp]

/-- The matrices for which the balancing is shown to end: ones below the diagonal, a row of zeros on top unless `first` is
zero, and `first` the topmost entry in the last column, if there is one. -/
structure Hessenberg (W : Matrix (Fin (n + 1)) (Fin (n + 1)) ℝ) (first : Fin (n + 1)) : Prop where
  diagonal : ∀ i, W i i = 0
  below : ∀ (i : Nat) (h : i + 1 < n + 1), W ⟨i + 1, h⟩ ⟨i, by omega⟩ = 1
  top : first ≠ 0 → ∀ k, W 0 k = 0
  last : W first (Fin.last n) ≠ 0 ∨ (first = Fin.last n ∧ ∀ j, W j (Fin.last n) = 0)

/-- An entry that is not zero bounds the difference of the exponents. -/
theorem exists_bound (w M : ℝ) (hw : w ≠ 0) : ∃ C : ℕ, ∀ x : ℤ, |w| * (2 : ℝ) ^ x ≤ M → x ≤ C := by
  have hw' := abs_pos.2 hw
  obtain ⟨C, hC⟩ := pow_unbounded_of_one_lt (M / |w|) (by norm_num : (1 : ℝ) < 2)
  refine ⟨C, fun x hx => ?_⟩
  by_contra hlt
  have h1 : (2 : ℝ) ^ (C : ℤ) ≤ (2 : ℝ) ^ x := zpow_le_zpow_right₀ (by norm_num) (by omega)
  rw [zpow_natCast] at h1
  rw [div_lt_iff₀ hw'] at hC
  nlinarith

theorem Hessenberg.chain {W : Matrix (Fin (n + 1)) (Fin (n + 1)) ℝ} {first : Fin (n + 1)} (hW : Hessenberg W first) {M : ℝ} {C : ℕ}
    (hC : ∀ x : ℤ, |(1 : ℝ)| * (2 : ℝ) ^ x ≤ M → x ≤ C) {d : Fin (n + 1) → ℤ} (hM : total (scaled W d) ≤ M) :
    ∀ (k i : Nat) (h : i + k < n + 1), d ⟨i, by omega⟩ ≤ d ⟨i + k, h⟩ + k * C := by
  intro k
  induction k with
  | zero =>
    intro i h
    simp
  | succ k ih =>
    intro i h
    have h1 := ih i (by omega)
    have h2 : d ⟨i + k, by omega⟩ - d ⟨i + k + 1, by omega⟩ ≤ C := by
      apply hC
      have := (le_total (scaled W d) ⟨i + k + 1, by omega⟩ ⟨i + k, by omega⟩).trans hM
      unfold scaled at this
      rw [hW.below (i + k) (by omega), abs_mul, abs_of_pos (zpow_pos (by norm_num : (0 : ℝ) < 2) _)] at this
      exact this
    have h3 : d ⟨i + (k + 1), h⟩ = d ⟨i + k + 1, by omega⟩ := rfl
    rw [h3]
    push_cast
    linarith

theorem Hessenberg.chain_le {W : Matrix (Fin (n + 1)) (Fin (n + 1)) ℝ} {first : Fin (n + 1)} (hW : Hessenberg W first) {M : ℝ} {C : ℕ}
    (hC : ∀ x : ℤ, |(1 : ℝ)| * (2 : ℝ) ^ x ≤ M → x ≤ C) {d : Fin (n + 1) → ℤ} (hM : total (scaled W d) ≤ M) {i j : Fin (n + 1)}
    (hij : i ≤ j) : d i ≤ d j + n * C := by
  have h := hW.chain hC hM (j.1 - i.1) i.1 (by omega)
  have e1 : d ⟨i.1 + (j.1 - i.1), by omega⟩ = d j := by
    congr 1
    exact Fin.ext (by simp only; omega)
  rw [e1] at h
  refine h.trans ?_
  have h1 : ((j.1 - i.1 : ℕ) : ℤ) ≤ n := by
    have := j.2
    omega
  have h2 : (0 : ℤ) ≤ C := by positivity
  nlinarith

/-- Every scaling of one of the last columns makes the sum smaller by a fixed amount. -/
theorem Hessenberg.gain {W : Matrix (Fin (n + 1)) (Fin (n + 1)) ℝ} {first : Fin (n + 1)} (hW : Hessenberg W first) (M : ℝ) :
    ∃ δ > 0, ∀ d d' i, total (scaled W d) ≤ M → Moves W d d' i → first ≤ i →
      total (scaled W d') ≤ total (scaled W d) - δ := by
  obtain ⟨C, hC⟩ := exists_bound 1 M one_ne_zero
  rcases hW.last with hl | ⟨hl, hz⟩
  · obtain ⟨C', hC'⟩ := exists_bound (W first (Fin.last n)) M hl
    have hwp := abs_pos.2 hl
    refine ⟨min 1 |W first (Fin.last n)| * (2 : ℝ) ^ (-(2 * n * C + C' : ℤ)) / 10, by positivity, fun d d' i hM hm hi => ?_⟩
    refine hm.less.trans ?_
    have hr := rowNorm_nonneg (scaled W d) i
    have hback : d (Fin.last n) ≤ d first + C' := by
      have : d (Fin.last n) - d first ≤ C' := by
        apply hC'
        have := (le_total (scaled W d) first (Fin.last n)).trans hM
        unfold scaled at this
        rwa [abs_mul, abs_of_pos (zpow_pos (by norm_num : (0 : ℝ) < 2) _)] at this
      linarith
    have hcol : min 1 |W first (Fin.last n)| * (2 : ℝ) ^ (-(2 * n * C + C' : ℤ)) ≤ colNorm (scaled W d) i := by
      by_cases hil : i = Fin.last n
      · subst hil
        refine le_trans ?_ (le_colNorm _ first _)
        unfold scaled
        rw [abs_mul, abs_of_pos (zpow_pos (by norm_num : (0 : ℝ) < 2) _)]
        refine mul_le_mul (min_le_right _ _) (zpow_le_zpow_right₀ (by norm_num) ?_) (by positivity) (by positivity)
        have := hW.chain_le hC hM (Fin.le_last first)
        have h1 : (0 : ℤ) ≤ (n : ℤ) * C := by positivity
        have h2 : (0 : ℤ) ≤ (C' : ℤ) := by positivity
        linarith
      · have hlt : i.1 + 1 < n + 1 := by
          have h1 := i.2
          have h2 : i.1 ≠ n := fun h => hil (Fin.ext h)
          omega
        refine le_trans ?_ (le_colNorm _ ⟨i.1 + 1, hlt⟩ _)
        unfold scaled
        rw [abs_mul, abs_of_pos (zpow_pos (by norm_num : (0 : ℝ) < 2) _)]
        rw [show W ⟨i.1 + 1, hlt⟩ i = 1 from hW.below i.1 hlt, abs_one]
        refine mul_le_mul (min_le_left _ _) (zpow_le_zpow_right₀ (by norm_num) ?_) (by positivity) (by positivity)
        have h1 := hW.chain_le hC hM (Fin.le_last ⟨i.1 + 1, hlt⟩)
        have h2 := hW.chain_le hC hM hi
        linarith
    linarith
  · refine ⟨1, one_pos, fun d d' i hM hm hi => absurd ?_ hm.col⟩
    have hil : i = Fin.last n := le_antisymm (Fin.le_last i) (hl ▸ hi)
    subst hil
    rw [colNorm_eq]
    exact Finset.sum_eq_zero fun j _ => by simp [scaled, hz j]

/-- The balancing ends. -/
theorem Hessenberg.acc {W : Matrix (Fin (n + 1)) (Fin (n + 1)) ℝ} {first : Fin (n + 1)} (hW : Hessenberg W first) (d : Fin (n + 1) → ℤ) :
    Acc (Relation.TransGen (fun a b => ∃ i, Moves W b a i)) d := by
  apply Acc.transGen
  rw [acc_iff_isEmpty_descending_chain]
  refine ⟨fun ⟨f, hf0, hf⟩ => ?_⟩
  choose ix hix using hf
  have hanti : StrictAnti (fun t => total (scaled W (f t))) := strictAnti_nat_of_succ_lt fun t => (hix t).lt
  have hM : ∀ t, total (scaled W (f t)) ≤ total (scaled W (f 0)) := fun t => hanti.antitone (Nat.zero_le t)
  obtain ⟨δ, hδ, hgain⟩ := hW.gain (total (scaled W (f 0)))
  -- from some time on the last columns stay as they are
  obtain ⟨T, hT⟩ : ∃ T, ∀ t ≥ T, ix t < first := by
    by_contra hno
    push Not at hno
    have key : ∀ k : ℕ, ∃ t, total (scaled W (f t)) ≤ total (scaled W (f 0)) - k * δ := by
      intro k
      induction k with
      | zero => exact ⟨0, by simp⟩
      | succ k ih =>
        obtain ⟨t, ht⟩ := ih
        obtain ⟨t', htt, hi⟩ := hno t
        refine ⟨t' + 1, ?_⟩
        have h1 := hgain _ _ _ (hM t') (hix t') hi
        have h2 := hanti.antitone htt
        push_cast
        linarith
    obtain ⟨k, hk⟩ := exists_nat_gt (total (scaled W (f 0)) / δ)
    obtain ⟨t, ht⟩ := key k
    have := total_nonneg (scaled W (f t))
    rw [div_lt_iff₀ hδ] at hk
    linarith
  have hfix : ∀ i, first ≤ i → ∀ t, f (T + t) i = f T i := by
    intro i hi t
    induction t with
    | zero => rfl
    | succ t ih =>
      rw [← ih]
      refine (hix (T + t)).other i fun h => ?_
      have := hT (T + t) (by omega)
      rw [← h] at this
      exact absurd hi (not_le.2 this)
  have hne : first ≠ 0 := by
    intro h
    have := hT T le_rfl
    rw [h] at this
    exact absurd this (Fin.not_lt_zero _)
  have hzero : ∀ t, f t 0 = f 0 0 := by
    intro t
    induction t with
    | zero => rfl
    | succ t ih =>
      rw [← ih]
      refine (hix t).other 0 fun h => (hix t).row ?_
      rw [← h, rowNorm_eq]
      exact Finset.sum_eq_zero fun k _ => by simp [scaled, hW.top hne k]
  obtain ⟨C, hC⟩ := exists_bound 1 (total (scaled W (f 0))) one_ne_zero
  -- so all exponents are in a finite set
  have hmem : ∀ t, f (T + t) ∈ Set.pi Set.univ (fun i : Fin (n + 1) =>
      Set.Icc (min (f T i) (f 0 0 - n * C)) (max (f T i) (f T first + n * C))) := by
    intro t i _
    by_cases hi : first ≤ i
    · rw [hfix i hi t]
      exact ⟨min_le_left _ _, le_max_left _ _⟩
    · have h1 := hW.chain_le hC (hM (T + t)) (Fin.zero_le i)
      have h2 := hW.chain_le hC (hM (T + t)) (le_of_lt (not_le.1 hi))
      rw [hzero] at h1
      rw [hfix first le_rfl] at h2
      exact ⟨(min_le_right _ _).trans (by linarith), le_max_of_le_right h2⟩
  have hfin : (Set.pi Set.univ (fun i : Fin (n + 1) =>
      Set.Icc (min (f T i) (f 0 0 - n * C)) (max (f T i) (f T first + n * C)))).Finite :=
    Set.Finite.pi fun i => Set.finite_Icc _ _
  refine Set.infinite_of_injective_forall_mem (f := fun t => f (T + t)) ?_ hmem hfin
  intro a b hab
  have := hanti.injective (a₁ := T + a) (a₂ := T + b) (by simp only at hab ⊢; rw [hab])
  omega

end CompanionRoots
end Theia
