import Mathlib.Tactic.Ring
import Mathlib.Tactic.Linarith
import Mathlib.Tactic.FieldSimp
import Mathlib.Tactic.Positivity
import Mathlib.Analysis.SpecialFunctions.Log.Basic
import Verif.Proof.Samplers
import Verif.Spec.Evsac

namespace Theia
namespace Evsac

open Spec Classical

/-! ### The predictor -/

theorem sum_squares_nonneg (l : List ℝ) : 0 ≤ (l.map fun z => z * z).sum :=
  List.sum_nonneg fun x hx => by
    obtain ⟨z, _, rfl⟩ := List.mem_map.1 hx
    exact mul_self_nonneg z

theorem raylfitSq_eq (l : List ℝ) : raylfitSq l = meanSquare l / 2 := by
  unfold raylfitSq meanSquare
  have : (l.map fun z => z ^ 2) = l.map fun z => z * z := List.map_congr_left fun z _ => sq z
  rw [this]
  ring

theorem meanSquare_nonneg (l : List ℝ) : 0 ≤ meanSquare l := by
  have h := raylfitSq_eq l
  have : 0 ≤ raylfitSq l := by
    unfold raylfitSq
    exact div_nonneg (mul_nonneg (by norm_num) (sum_squares_nonneg l)) (Nat.cast_nonneg _)
  linarith

theorem mrRayleigh_eq {t : ℝ} (h0 : 0 < t) (h1 : t ≤ 1) (x : ℝ) (tail : List ℝ) :
    mrRayleigh (x :: tail) t = .ok (decide (PredictedCorrect t (x :: tail))) := by
  unfold mrRayleigh
  rw [if_neg (not_le.2 h0), if_neg (not_lt.2 h1)]
  simp only [PredictedCorrect]
  by_cases hz : tail = [] ∨ raylfitSq tail = 0
  · rw [if_pos hz]
    have : ¬0 < meanSquare tail := by
      rcases hz with rfl | hz
      · simp [meanSquare]
      · rw [raylfitSq_eq] at hz
        linarith
    simp [this]
  · rw [if_neg hz]
    simp only [not_or] at hz
    have hm : 0 < meanSquare tail := by
      refine lt_of_le_of_ne (meanSquare_nonneg _) fun h => hz.2 ?_
      rw [raylfitSq_eq, ← h, zero_div]
    congr 1
    simp only [hm, true_and, decide_eq_decide]
    rw [Real.mul_self_sqrt (by rw [raylfitSq_eq]; positivity), raylfitSq_eq]
    have e : -(1 / 2) * x * x / (meanSquare tail / 2) = -(x ^ 2 / meanSquare tail) := by field_simp
    rw [e, one_div, Real.log_inv]
    constructor
    · intro h
      have h2 : t ≤ Real.exp (-(x ^ 2 / meanSquare tail)) := by linarith
      have h3 := (Real.log_le_iff_le_exp h0).2 h2
      have h4 : x ^ 2 / meanSquare tail ≤ -Real.log t := by linarith
      exact (div_le_iff₀ hm).1 h4
    · intro h
      have h4 := (div_le_iff₀ hm).2 h
      have h3 : Real.log t ≤ -(x ^ 2 / meanSquare tail) := by linarith
      have := (Real.log_le_iff_le_exp h0).1 h3
      linarith

/-! ### What is extracted -/

theorem extract_ok {t : ℝ} (h0 : 0 < t) (h1 : t ≤ 1) {rows : List (List ℝ)} {e : Extracted} (h : extract t rows = .ok e) :
    e.predictions = rows.map (fun r => decide (PredictedCorrect t r)) ∧ e.smallest = rows.map (fun r => r.headD 0) ∧
    e.negatedSecond = rows.map (fun r => -(r.tail.headD 0)) ∧
    e.inliers = (rows.filter fun r => decide (PredictedCorrect t r)).map (fun r => r.headD 0) ∧ ∀ r ∈ rows, 2 ≤ r.length := by
  induction rows generalizing e with
  | nil =>
    simp only [extract, Outcome.ok.injEq] at h
    subst h
    simp
  | cons row rows ih =>
    match row, h with
    | x :: y :: rest, h =>
      rw [extract, mrRayleigh_eq h0 h1] at h
      simp only at h
      split at h
      · cases h
      · cases h
      · next e' he =>
        obtain ⟨i1, i2, i3, i4, i5⟩ := ih he
        simp only [Outcome.ok.injEq] at h
        subst h
        refine ⟨by simp [i1], by simp [i2], by simp [i3], ?_, ?_⟩
        · by_cases hp : PredictedCorrect t (x :: y :: rest) <;> simp [hp, i4]
        · intro r hr
          rcases List.mem_cons.1 hr with rfl | hr
          · simp
          · exact i5 r hr
    | [_], h => simp [extract] at h
    | [], h => simp [extract] at h

/-! ### The empirical distribution -/

theorem sum_addToHist (p : ℝ → Bool) (x : ℝ) (h : List (ℝ × Nat)) :
    ((addToHist x h).map fun e => if p e.1 then e.2 else 0).sum = (h.map fun e => if p e.1 then e.2 else 0).sum + if p x then 1 else 0 := by
  induction h with
  | nil => simp [addToHist]
  | cons e h ih =>
    obtain ⟨y, n⟩ := e
    rw [addToHist]
    split
    · simp [add_comm, add_left_comm]
    · split
      · next he =>
        subst he
        by_cases hp : p x <;> simp [hp] <;> omega
      · simp only [List.map_cons, List.sum_cons, ih, add_assoc]

theorem sum_hist (p : ℝ → Bool) (l : List ℝ) (h : List (ℝ × Nat)) :
    ((l.foldl (fun h x => addToHist x h) h).map fun e => if p e.1 then e.2 else 0).sum =
      (h.map fun e => if p e.1 then e.2 else 0).sum + l.countP p := by
  induction l generalizing h with
  | nil => simp
  | cons x l ih => rw [List.foldl_cons, ih, sum_addToHist, List.countP_cons]; omega

theorem mem_addToHist (x : ℝ) (h : List (ℝ × Nat)) (z : ℝ) : z ∈ (addToHist x h).map Prod.fst ↔ z = x ∨ z ∈ h.map Prod.fst := by
  induction h with
  | nil => simp [addToHist]
  | cons e h ih =>
    obtain ⟨y, n⟩ := e
    rw [addToHist]
    split
    · simp
    · split
      · next he => subst he; simp
      · rw [List.map_cons, List.mem_cons, ih]
        simp only [List.map_cons, List.mem_cons]
        tauto

theorem sorted_addToHist (x : ℝ) {h : List (ℝ × Nat)} (hs : (h.map Prod.fst).Pairwise (· < ·)) :
    ((addToHist x h).map Prod.fst).Pairwise (· < ·) := by
  induction h with
  | nil => simp [addToHist]
  | cons e h ih =>
    obtain ⟨y, n⟩ := e
    rw [List.map_cons, List.pairwise_cons] at hs
    rw [addToHist]
    split
    · next hlt =>
      simp only [List.map_cons, List.pairwise_cons, List.mem_cons]
      refine ⟨?_, hs.1, hs.2⟩
      rintro z (rfl | hz)
      · exact hlt
      · exact hlt.trans (hs.1 z hz)
    · next hlt =>
      split
      · rw [List.map_cons, List.pairwise_cons]
        exact hs
      · next hne =>
        rw [List.map_cons, List.pairwise_cons]
        refine ⟨fun z hz => ?_, ih hs.2⟩
        rcases (mem_addToHist x h z).1 hz with rfl | hz
        · exact lt_of_le_of_ne (not_lt.1 hlt) (Ne.symm hne)
        · exact hs.1 z hz

theorem pos_addToHist (x : ℝ) {h : List (ℝ × Nat)} (hp : ∀ e ∈ h, 0 < e.2) : ∀ e ∈ addToHist x h, 0 < e.2 := by
  induction h with
  | nil => simp [addToHist]
  | cons e h ih =>
    obtain ⟨y, n⟩ := e
    have hn := hp (y, n) (by simp)
    have hrest := fun e he => hp e (List.mem_cons_of_mem _ he)
    rw [addToHist]
    intro e he
    split at he
    · rcases List.mem_cons.1 he with rfl | he
      · exact Nat.one_pos
      · exact hp e he
    · split at he
      · rcases List.mem_cons.1 he with rfl | he
        · exact Nat.succ_pos _
        · exact hrest e he
      · rcases List.mem_cons.1 he with rfl | he
        · exact hn
        · exact ih hrest e he

/-- The histogram of `ecdf`. -/
noncomputable def hist (l : List ℝ) : List (ℝ × Nat) := l.foldl (fun h x => addToHist x h) []

theorem hist_spec (l : List ℝ) : ((hist l).map Prod.fst).Pairwise (· < ·) ∧ (∀ e ∈ hist l, 0 < e.2) ∧
    (∀ z, z ∈ (hist l).map Prod.fst ↔ z ∈ l) ∧ ∀ p : ℝ → Bool, ((hist l).map fun e => if p e.1 then e.2 else 0).sum = l.countP p := by
  refine ⟨?_, ?_, ?_, fun p => by rw [hist, sum_hist]; simp⟩
  · suffices ∀ h : List (ℝ × Nat), (h.map Prod.fst).Pairwise (· < ·) →
        ((l.foldl (fun h x => addToHist x h) h).map Prod.fst).Pairwise (· < ·) from this [] List.Pairwise.nil
    induction l with
    | nil => exact fun h hs => hs
    | cons x l ih => exact fun h hs => ih _ (sorted_addToHist x hs)
  · suffices ∀ h : List (ℝ × Nat), (∀ e ∈ h, 0 < e.2) → ∀ e ∈ l.foldl (fun h x => addToHist x h) h, 0 < e.2 from this [] (by simp)
    induction l with
    | nil => exact fun h hs => hs
    | cons x l ih => exact fun h hs => ih _ (pos_addToHist x hs)
  · suffices ∀ h : List (ℝ × Nat), ∀ z, z ∈ (l.foldl (fun h x => addToHist x h) h).map Prod.fst ↔ z ∈ h.map Prod.fst ∨ z ∈ l by
      intro z
      rw [hist, this]
      simp
    induction l with
    | nil => simp
    | cons x l ih =>
      intro h z
      rw [List.foldl_cons, ih, mem_addToHist, List.mem_cons]
      tauto

theorem map_fst_ecdfLoop (prod : ℝ) (r : Nat) (h : List (ℝ × Nat)) : (ecdfLoop prod r h).map Prod.fst = h.map Prod.fst := by
  induction h generalizing prod r with
  | nil => rfl
  | cons e h ih =>
    obtain ⟨x, d⟩ := e
    simp only [ecdfLoop, List.map_cons, ih]

theorem ecdfLoop_mem {N : ℝ} (hN : N ≠ 0) (h : List (ℝ × Nat)) (hp : ∀ e ∈ h, 0 < e.2) {x f : ℝ}
    (hm : (x, f) ∈ ecdfLoop (((h.map Prod.snd).sum : Nat) / N) (h.map Prod.snd).sum h) :
    ∃ h1 d h2, h = h1 ++ (x, d) :: h2 ∧ f = 1 - ((h2.map Prod.snd).sum : Nat) / N := by
  induction h with
  | nil => simp [ecdfLoop] at hm
  | cons e h ih =>
    obtain ⟨y, d⟩ := e
    have hd : 0 < d := hp (y, d) (by simp)
    rw [ecdfLoop] at hm
    simp only [List.map_cons, List.sum_cons, Nat.add_sub_cancel_left] at hm
    have hr : ((d + (h.map Prod.snd).sum : Nat) : ℝ) ≠ 0 := by
      have : 0 < d + (h.map Prod.snd).sum := by omega
      exact_mod_cast this.ne'
    have e : ((d + (h.map Prod.snd).sum : Nat) : ℝ) / N * (1 - (d : ℝ) / ((d + (h.map Prod.snd).sum : Nat) : ℝ)) =
        ((h.map Prod.snd).sum : Nat) / N := by
      rw [mul_sub, mul_one, div_mul_div_comm, mul_comm ((d + (h.map Prod.snd).sum : Nat) : ℝ) (d : ℝ), mul_div_mul_right _ _ hr,
        ← sub_div]
      congr 1
      push_cast
      ring
    rw [e] at hm
    rcases List.mem_cons.1 hm with hm | hm
    · obtain ⟨rfl, rfl⟩ := Prod.mk.inj hm
      exact ⟨[], d, h, rfl, rfl⟩
    · obtain ⟨h1, d', h2, rfl, hf⟩ := ih (fun e he => hp e (List.mem_cons_of_mem _ he)) hm
      exact ⟨(y, d) :: h1, d', h2, rfl, hf⟩

theorem ecdf_spec (l : List ℝ) : ((ecdf l).map Prod.fst).Pairwise (· < ·) ∧ (∀ z, z ∈ (ecdf l).map Prod.fst ↔ z ∈ l) ∧
    ∀ e ∈ ecdf l, e.2 = empiricalCdf l e.1 := by
  obtain ⟨h1, h2, h3, h4⟩ := hist_spec l
  have hE : ecdf l = ecdfLoop 1 l.length (hist l) := rfl
  refine ⟨?_, ?_, ?_⟩
  · rw [hE, map_fst_ecdfLoop]
    exact h1
  · rw [hE, map_fst_ecdfLoop]
    exact h3
  · rintro ⟨x, f⟩ he
    have hne : l ≠ [] := by
      rintro rfl
      simp [hE, hist, ecdfLoop] at he
    have hN : (l.length : ℝ) ≠ 0 := by
      have : 0 < l.length := List.length_pos_iff.2 hne
      exact_mod_cast this.ne'
    have htot : ((hist l).map Prod.snd).sum = l.length := by
      have := h4 (fun _ => true)
      simpa using this
    rw [hE] at he
    have he' : (x, f) ∈ ecdfLoop ((((hist l).map Prod.snd).sum : Nat) / (l.length : ℝ)) ((hist l).map Prod.snd).sum (hist l) := by
      rw [htot, div_self hN]
      exact he
    obtain ⟨a, d, b, hab, hf⟩ := ecdfLoop_mem hN _ h2 he'
    rw [hab, List.map_append, List.map_cons] at h1
    obtain ⟨_, hxb, hax⟩ := List.pairwise_append.1 h1
    rw [List.pairwise_cons] at hxb
    have hgt := h4 (fun z => decide (x < z))
    rw [hab, List.map_append, List.sum_append, List.map_cons, List.sum_cons] at hgt
    have ea : (a.map fun e => if decide (x < e.1) = true then e.2 else 0).sum = 0 := by
      refine List.sum_eq_zero fun n hn => ?_
      obtain ⟨e, he, rfl⟩ := List.mem_map.1 hn
      have := hax e.1 (List.mem_map.2 ⟨e, he, rfl⟩) x (by simp)
      simp [not_lt.2 this.le]
    have eb : (b.map fun e => if decide (x < e.1) = true then e.2 else 0) = b.map Prod.snd := by
      refine List.map_congr_left fun e he => ?_
      have := hxb.1 e.1 (List.mem_map.2 ⟨e, he, rfl⟩)
      simp [this]
    rw [ea, eb] at hgt
    simp only [lt_irrefl, decide_false, Bool.false_eq_true, if_false, zero_add] at hgt
    have hsplit : l.length = l.countP (fun y => decide (y ≤ x)) + l.countP (fun y => decide (x < y)) := by
      rw [List.length_eq_countP_add_countP (fun y => decide (y ≤ x))]
      congr 1
      refine List.countP_congr fun y _ => ?_
      simp
    rw [hf, hgt]
    simp only [empiricalCdf]
    rw [eq_div_iff hN, sub_mul, div_mul_cancel₀ _ hN, one_mul]
    have := congrArg (fun n : Nat => (n : ℝ)) hsplit
    push_cast at this
    linarith

/-! ### The fit -/

theorem fitRows_eq {G : ℝ → ℝ → ℝ → ℝ} {p : Params} {es : List (ℝ × ℝ)} {rs : List (ℝ × ℝ × ℝ)} (h : fitRows G p es = some rs)
    (hx : 0 ≤ p.xi ∨ ∀ e ∈ es, 0 < 1 + p.xi * ((-e.1 - p.mu) / p.sigma)) :
    rs = es.map fun e => (G e.1 p.k p.theta, 1 - extremeValueCdf p.mu p.sigma p.xi (-e.1), e.2) := by
  induction es generalizing rs with
  | nil => simp only [fitRows, Option.some.injEq] at h; rw [← h]; rfl
  | cons e es ih =>
    obtain ⟨x, f⟩ := e
    rw [fitRows] at h
    split at h
    · next g rs' hg hrs =>
      simp only [Option.some.injEq] at h
      rw [← h, ih hrs (hx.imp id fun hx e he => hx e (List.mem_cons_of_mem _ he)), List.map_cons]
      congr 3
      unfold gevcdf at hg
      unfold extremeValueCdf
      split at hg
      · cases hg
      · simp only at hg
        split at hg
        · next h0 => rw [if_pos h0]; simpa using hg.symm
        · next h0 =>
          rw [if_neg h0]
          split at hg
          · next hle =>
            rw [if_neg (not_lt.2 hle)]
            rcases hx with hx | hx
            · rw [if_pos (lt_of_le_of_ne hx (Ne.symm h0))]
              simpa using hg.symm
            · exact absurd (hx (x, f) (by simp)) (not_lt.2 hle)
          · next hgt =>
            rw [if_pos (not_le.1 hgt)]
            simpa using hg.symm
    · cases h

theorem objective_program (u : ℝ) (rs : List (ℝ × ℝ × ℝ)) (x : ℝ × ℝ) :
    objective (program u rs) x = (rs.map fun r => (x.1 * r.1 + x.2 * r.2.1 - r.2.2) ^ 2).sum / 2 - (rs.map fun r => r.2.2 ^ 2).sum / 2 := by
  induction rs with
  | nil => simp [objective, program]
  | cons r rs ih =>
    simp only [objective, program] at ih ⊢
    simp only [List.map_cons, List.sum_cons]
    linear_combination ih

theorem feasible_program (u : ℝ) (rs : List (ℝ × ℝ × ℝ)) (x : ℝ × ℝ) :
    Feasible (program u rs) x ↔ x.2 = 1 - x.1 ∧ 0 ≤ x.1 ∧ x.1 ≤ u ∧ x.1 ≤ 1 := by
  simp only [Feasible, program, List.mem_cons, List.not_mem_nil, or_false, forall_eq_or_imp, forall_eq]
  constructor
  · rintro ⟨h1, h2, h3, h4, h5⟩
    refine ⟨by linarith, by linarith, by linarith, by linarith⟩
  · rintro ⟨h1, h2, h3, h4⟩
    refine ⟨by linarith, by linarith, by linarith, by linarith, by linarith⟩

theorem sum_rows (G H : ℝ → ℝ) (l : List ℝ) (r : ℝ) :
    (((ecdf l).map fun e => (G e.1, H e.1, e.2)).map fun q => (r * q.1 + (1 - r) * q.2.1 - q.2.2) ^ 2).sum = mixtureError G H l r := by
  obtain ⟨h1, h2, h3⟩ := ecdf_spec l
  have hnd : ((ecdf l).map Prod.fst).Nodup := h1.imp (fun h => h.ne)
  have hset : l.toFinset = ((ecdf l).map Prod.fst).toFinset := by
    ext z
    rw [List.mem_toFinset, List.mem_toFinset, h2]
  rw [mixtureError, hset, List.sum_toFinset _ hnd, List.map_map, List.map_map]
  refine congrArg List.sum (List.map_congr_left fun e he => ?_)
  simp only [Function.comp]
  rw [h3 e he]

/-! ### The posteriors -/

theorem gammapdf_nonneg (x k theta : ℝ) : 0 ≤ gammapdf x k theta := by
  unfold gammapdf
  split
  · exact le_rfl
  · next h =>
    simp only [not_or, not_le] at h
    have := Real.Gamma_pos_of_pos h.2.1
    have := Real.rpow_pos_of_pos h.2.2 k
    have := Real.rpow_pos_of_pos h.1 (k - 1)
    positivity

theorem gevpdf_nonneg {x mu sigma xi g : ℝ} (h : gevpdf x mu sigma xi = some g) : 0 ≤ g := by
  unfold gevpdf at h
  split at h
  · cases h
  · next hs =>
    have hs := not_le.1 hs
    simp only at h
    split at h
    · cases h
      positivity
    · split at h
      · cases h
        exact le_rfl
      · next ht =>
        cases h
        have := Real.rpow_pos_of_pos (not_le.1 ht) (-(1 / xi) - 1)
        positivity

theorem posterior_range {p : Params} (h0 : 0 ≤ p.inlierRatio) (h1 : p.inlierRatio ≤ 1) {x q : ℝ} (h : posterior p x = some q) :
    0 ≤ q ∧ q ≤ 1 := by
  unfold posterior at h
  simp only at h
  split at h
  · split at h
    · cases h
    · cases h
      exact ⟨le_rfl, zero_le_one⟩
  · next g hg =>
    have hg := gevpdf_nonneg hg
    have hgam := mul_nonneg h0 (gammapdf_nonneg x p.k p.theta)
    have hgev := mul_nonneg (sub_nonneg.2 h1) hg
    split at h
    · cases h
    · next hne =>
      cases h
      have hpos := lt_of_le_of_ne (add_nonneg hgam hgev) (Ne.symm hne)
      exact ⟨div_nonneg hgam hpos.le, (div_le_one hpos).2 (by linarith)⟩

theorem posteriors_eq (p : Params) (xs : List ℝ) (bs : List Bool) (h : xs.length = bs.length) :
    (posteriors p xs bs).1 = xs.map (posterior p) ∧
    (posteriors p xs bs).2 = (xs.zip bs).map fun e => if e.2 then posterior p e.1 else some 0 := by
  induction xs generalizing bs with
  | nil => cases bs <;> simp [posteriors]
  | cons x xs ih =>
    cases bs with
    | nil => simp at h
    | cons b bs =>
      obtain ⟨i1, i2⟩ := ih bs (by simpa using h)
      simp [posteriors, i1, i2]

/-! ### Whole calls -/

/-- What a successful fit consists of. -/
theorem mixtureModel_inv {lib : Library} {rows : List (List ℝ)} {t : ℝ} (h0 : 0 < t) (h1 : t ≤ 1) {p : Params}
    {ps ws : List (Option ℝ)} (h : mixtureModel lib rows t = .ok (some (p, ps, ws))) :
    (∀ r ∈ rows, 2 ≤ r.length) ∧
    lib.gammafit ((rows.filter fun r => decide (PredictedCorrect t r)).map (fun r => r.headD 0)) = some (p.k, p.theta) ∧
    lib.gevfit (rows.map fun r => -(r.tail.headD 0)) = some (p.mu, p.sigma, p.xi) ∧
    estimateInlierRatio lib ((rows.filter fun r => decide (PredictedCorrect t r)).length / rows.length)
      (rows.map fun r => r.headD 0) ⟨p.k, p.theta, p.mu, p.sigma, p.xi, 0⟩ = some p.inlierRatio ∧
    ps = rows.map (fun r => posterior p (r.headD 0)) ∧
    ws = rows.map fun r => if PredictedCorrect t r then posterior p (r.headD 0) else some 0 := by
  unfold mixtureModel at h
  split at h
  · cases h
  · cases h
  · next e he =>
    obtain ⟨e1, e2, e3, e4, e5⟩ := extract_ok h0 h1 he
    split at h
    · cases h
    · next k theta hg =>
      split at h
      · cases h
      · next mu sigma xi hgev =>
        split at h
        · cases h
        · next ratio hr =>
          simp only [Outcome.ok.injEq, Option.some.injEq, Prod.mk.injEq] at h
          obtain ⟨rfl, hps⟩ := h
          obtain ⟨q1, q2⟩ := posteriors_eq ⟨k, theta, mu, sigma, xi, ratio⟩ e.smallest e.predictions (by rw [e1, e2]; simp)
          refine ⟨e5, by rw [← e4]; exact hg, by rw [← e3]; exact hgev, ?_, ?_, ?_⟩
          · rw [upperBound, e1, e2, e4, List.length_map, List.length_map] at hr
            exact hr
          · have this : ps = _ := (congrArg Prod.fst hps).symm
            rw [this, q1, e2, List.map_map]
            rfl
          · have this : ws = _ := (congrArg Prod.snd hps).symm
            rw [this, q2, e1, e2, List.zip_map', List.map_map]
            refine List.map_congr_left fun r _ => ?_
            simp only [Function.comp, decide_eq_true_eq]

theorem distribution_ok {ws : List (Option ℝ)} {l : List ℝ} (h : distribution ws = .ok l) :
    ws = l.map some ∧ (∀ w ∈ l, 0 ≤ w) ∧ 0 < l.sum := by
  unfold distribution at h
  split at h
  · cases h
  · next l' hl =>
    split at h
    · next hc =>
      cases h
      refine ⟨?_, hc⟩
      clear hc
      induction ws generalizing l with
      | nil => simp at hl; subst hl; rfl
      | cons w ws ih =>
        rw [List.mapM_cons] at hl
        cases w with
        | none => simp at hl
        | some w =>
          cases hm : List.mapM id ws with
          | none => rw [hm] at hl; simp at hl
          | some l' =>
            rw [hm] at hl
            simp at hl
            subst hl
            rw [List.map_cons, ← ih hm]
    · cases h

theorem init_inv {lib : Library} {rows : List (List ℝ)} {t : ℝ} {n : Nat} {l : List ℝ} (h : init lib rows t n = .ok (some l)) :
    0 < t ∧ t ≤ 1 ∧ rows ≠ [] ∧ ∃ p ps, mixtureModel lib rows t = .ok (some (p, ps, l.map some)) ∧ (∀ w ∈ l, 0 ≤ w) ∧ 0 < l.sum := by
  unfold init at h
  by_cases h0 : t ≤ 0
  · rw [if_pos h0] at h; cases h
  · rw [if_neg h0] at h
    by_cases h1 : t > 1
    · rw [if_pos h1] at h; cases h
    · rw [if_neg h1] at h
      by_cases h2 : rows.length = 0
      · rw [if_pos h2] at h; cases h
      · rw [if_neg h2] at h
        by_cases h3 : rows.any (fun r => r.length == 0) = true
        · rw [if_pos h3] at h; cases h
        · rw [if_neg h3] at h
          refine ⟨not_le.1 h0, not_lt.1 h1, fun e => h2 (by rw [e]; rfl), ?_⟩
          split at h
          · cases h
          · cases h
          · cases h
          · next p ps ws hm =>
            split at h
            · cases h
            · cases h
            · next l' hd =>
              simp only [Outcome.ok.injEq, Option.some.injEq] at h
              subst h
              obtain ⟨d1, d2⟩ := distribution_ok hd
              exact ⟨p, ps, by rw [← d1]; exact hm, d2⟩

/-! ### Drawing -/

theorem reject_mem {used draws rest : List Nat} {r : Nat} (h : ProsacSampler.reject used draws = some (r, rest)) : r ∈ draws :=
  (ProsacSampler.reject_spec h).2.1

theorem drawUnique_mem (c : Nat) : ∀ (used draws out : List Nat), ProsacSampler.drawUnique c used draws = some out →
    ∀ x ∈ out, x ∈ used ∨ x ∈ draws := by
  induction c with
  | zero =>
    intro used draws out h x hx
    cases h
    exact Or.inl hx
  | succ c ih =>
    intro used draws out h x hx
    rw [ProsacSampler.drawUnique] at h
    split at h
    · cases h
    · next r rest hr =>
      obtain ⟨_, h2, h3⟩ := ProsacSampler.reject_spec hr
      rcases ih _ _ _ h x hx with h' | h'
      · rcases List.mem_append.1 h' with h' | h'
        · exact Or.inl h'
        · rw [List.mem_singleton] at h'
          exact Or.inr (h' ▸ h2)
      · exact Or.inr (h3 x h')

theorem reject_none {used draws : List Nat} (h : ProsacSampler.reject used draws = none) : ∀ x ∈ draws, x ∈ used := by
  induction draws with
  | nil => simp
  | cons a ds ih =>
    rw [ProsacSampler.reject] at h
    split at h
    · next ha =>
      intro x hx
      rcases List.mem_cons.1 hx with rfl | hx
      · exact ha
      · exact ih h x hx
    · cases h

theorem reject_rest {used draws rest : List Nat} {r : Nat} (h : ProsacSampler.reject used draws = some (r, rest)) :
    ∀ x ∈ draws, x ∈ used ∨ x = r ∨ x ∈ rest := by
  induction draws with
  | nil => simp
  | cons a ds ih =>
    rw [ProsacSampler.reject] at h
    split at h
    · next ha =>
      intro x hx
      rcases List.mem_cons.1 hx with rfl | hx
      · exact Or.inl ha
      · exact ih h x hx
    · simp only [Option.some.injEq, Prod.mk.injEq] at h
      obtain ⟨rfl, rfl⟩ := h
      intro x hx
      rcases List.mem_cons.1 hx with rfl | hx
      · exact Or.inr (Or.inl rfl)
      · exact Or.inr (Or.inr hx)

/-- The loop ends when enough different numbers have been drawn. -/
theorem drawUnique_ends (c : Nat) : ∀ (used draws fresh : List Nat), fresh.Nodup → c ≤ fresh.length → (∀ x ∈ fresh, x ∈ draws) →
    (∀ x ∈ fresh, x ∉ used) → ∃ out, ProsacSampler.drawUnique c used draws = some out := by
  induction c with
  | zero => intro used draws fresh _ _ _ _; exact ⟨_, rfl⟩
  | succ c ih =>
    intro used draws fresh hn hl hm hu
    rw [ProsacSampler.drawUnique]
    cases hr : ProsacSampler.reject used draws with
    | none =>
      match fresh, hl, hm, hu with
      | f :: _, _, hm, hu => exact absurd (reject_none hr f (hm f (by simp))) (hu f (by simp))
    | some q =>
      obtain ⟨r, rest⟩ := q
      refine ih (used ++ [r]) rest (fresh.erase r) (hn.erase r) ?_ ?_ ?_
      · rw [List.length_erase]
        split <;> omega
      · intro x hx
        have hx' := List.mem_of_mem_erase hx
        have hne : x ≠ r := fun e => by rw [e] at hx; exact (List.Nodup.not_mem_erase hn) hx
        rcases reject_rest hr x (hm x hx') with h | h | h
        · exact absurd h (hu x hx')
        · exact absurd h hne
        · exact h
      · intro x hx hmem
        have hx' := List.mem_of_mem_erase hx
        rcases List.mem_append.1 hmem with h | h
        · exact hu x hx' h
        · rw [List.mem_singleton] at h
          rw [h] at hx
          exact (List.Nodup.not_mem_erase hn) hx

end Evsac
end Theia
