import Mathlib.Analysis.Complex.ExponentialBounds
import Verif.Proof.Evsac

/-!
# C102: what the sampling of EVSAC guarantees
-/

namespace Theia

open Spec Evsac Classical

/-- The predictor compares the square of the smallest distance with the mean square of the others times the logarithm of the inverse
threshold. Rows whose other distances are all zero are never taken for correct. -/
theorem C102_predictor {t : ℝ} (h0 : 0 < t) (h1 : t ≤ 1) (x : ℝ) (tail : List ℝ) :
    mrRayleigh (x :: tail) t = .ok (decide (PredictedCorrect t (x :: tail))) := mrRayleigh_eq h0 h1 x tail

/-- The unit of the distances does not matter. -/
theorem C102_predictor_scale {t c : ℝ} (h0 : 0 < t) (h1 : t ≤ 1) (hc : c ≠ 0) (row : List ℝ) (hr : row ≠ []) :
    mrRayleigh (row.map (c * ·)) t = mrRayleigh row t := by
  match row, hr with
  | x :: tail, _ =>
    have hm : meanSquare (tail.map (c * ·)) = c ^ 2 * meanSquare tail := by
      unfold meanSquare
      rw [List.map_map, List.length_map]
      have : (tail.map ((fun z => z ^ 2) ∘ (c * ·))) = tail.map fun z => c ^ 2 * z ^ 2 := by
        refine List.map_congr_left fun z _ => ?_
        simp only [Function.comp]
        ring
      rw [this, List.sum_map_mul_left]
      ring
    rw [List.map_cons, mrRayleigh_eq h0 h1, mrRayleigh_eq h0 h1]
    congr 1
    rw [decide_eq_decide]
    simp only [PredictedCorrect, hm]
    have hc2 : 0 < c ^ 2 := by positivity
    constructor
    · rintro ⟨a, b⟩
      refine ⟨pos_of_mul_pos_right a hc2.le, le_of_mul_le_mul_left ?_ hc2⟩
      nlinarith
    · rintro ⟨a, b⟩
      refine ⟨mul_pos hc2 a, ?_⟩
      have := mul_le_mul_of_nonneg_left b hc2.le
      nlinarith

/-- With a threshold up to `1 / e` the predictor is useless: it takes every correspondence with sorted distances that are not all zero for
correct. -/
theorem C102_predictor_useless {t : ℝ} (h0 : 0 < t) (h1 : t ≤ Real.exp (-1)) {x : ℝ} {tail : List ℝ} (hx : 0 ≤ x)
    (hs : ∀ y ∈ tail, x ≤ y) (hp : ∃ y ∈ tail, 0 < y) : mrRayleigh (x :: tail) t = .ok true := by
  have ht1 : t ≤ 1 := h1.trans (Real.exp_le_one_iff.2 (by norm_num))
  rw [mrRayleigh_eq h0 ht1]
  congr 1
  rw [decide_eq_true_eq]
  obtain ⟨y, hy, hy0⟩ := hp
  have hn : 0 < (tail.length : ℝ) := by
    have : 0 < tail.length := List.length_pos_of_mem hy
    exact_mod_cast this
  have hsum : ∀ l : List ℝ, (∀ y ∈ l, x ≤ y) → x ^ 2 * l.length ≤ (l.map fun z => z ^ 2).sum := by
    intro l hl
    induction l with
    | nil => simp
    | cons z l ih =>
      have := ih (fun y hy => hl y (List.mem_cons_of_mem _ hy))
      have hz := hl z (by simp)
      simp only [List.map_cons, List.sum_cons, List.length_cons]
      push_cast
      nlinarith
  have hm : 0 < meanSquare tail := by
    refine div_pos (lt_of_lt_of_le (by positivity : 0 < y ^ 2) ?_) hn
    refine List.single_le_sum ?_ _ (List.mem_map.2 ⟨y, hy, rfl⟩)
    intro z hz
    obtain ⟨w, _, rfl⟩ := List.mem_map.1 hz
    positivity
  refine ⟨hm, ?_⟩
  have h2 : x ^ 2 ≤ meanSquare tail := (le_div_iff₀ hn).2 (hsum tail hs)
  have h3 : 1 ≤ Real.log (1 / t) := by
    rw [one_div, Real.log_inv]
    have := (Real.log_le_iff_le_exp h0).2 h1
    linarith
  nlinarith

/-- The library's empirical distribution function: its support are the different samples in increasing order, its values the fractions of
samples that are not larger. -/
theorem C102_ecdf (l : List ℝ) : ((ecdf l).map Prod.fst).Pairwise (· < ·) ∧ (∀ z, z ∈ (ecdf l).map Prod.fst ↔ z ∈ l) ∧
    ∀ e ∈ ecdf l, e.2 = empiricalCdf l e.1 := ecdf_spec l

/-- The estimated inlier ratio is at most the fraction of correspondences taken for correct, and among these ratios it gives the mixture of
the gamma distribution and of the distribution of the outliers that is closest to the empirical distribution of the smallest distances.
The outliers' distribution is that of the negative of an extreme value. Either its shape is not negative or all smallest distances are
inside its support. -/
theorem C102_ratio {lib : Library} (hq : SolvesPrograms lib.qp) {rows : List (List ℝ)} {t : ℝ} (h0 : 0 < t) (h1 : t ≤ 1) {p : Params}
    {ps ws : List (Option ℝ)} (h : mixtureModel lib rows t = .ok (some (p, ps, ws)))
    (hx : 0 ≤ p.xi ∨ ∀ r ∈ rows, 0 < 1 + p.xi * ((-(r.headD 0) - p.mu) / p.sigma)) :
    0 ≤ p.inlierRatio ∧ p.inlierRatio ≤ ((rows.filter fun r => decide (PredictedCorrect t r)).length : ℝ) / rows.length ∧
    p.inlierRatio ≤ 1 ∧
    ∀ r, 0 ≤ r → r ≤ ((rows.filter fun r => decide (PredictedCorrect t r)).length : ℝ) / rows.length → r ≤ 1 →
      mixtureError (fun x => lib.gammacdf x p.k p.theta) (fun x => 1 - extremeValueCdf p.mu p.sigma p.xi (-x))
        (rows.map fun r => r.headD 0) p.inlierRatio ≤
      mixtureError (fun x => lib.gammacdf x p.k p.theta) (fun x => 1 - extremeValueCdf p.mu p.sigma p.xi (-x))
        (rows.map fun r => r.headD 0) r := by
  obtain ⟨_, _, _, hr, _, _⟩ := mixtureModel_inv h0 h1 h
  unfold estimateInlierRatio at hr
  split at hr
  · cases hr
  · next rs hrs =>
    obtain ⟨⟨a, b⟩, hsol, hab⟩ := Option.map_eq_some_iff.1 hr
    simp only at hab
    subst hab
    obtain ⟨hf, hopt⟩ := hq _ _ _ hsol
    have hrs := fitRows_eq hrs (hx.imp id fun hx e he => by
      have := (ecdf_spec (rows.map fun r => r.headD 0)).2.1 e.1
      obtain ⟨r, hr, hre⟩ := List.mem_map.1 (this.1 (List.mem_map.2 ⟨e, he, rfl⟩))
      rw [← hre]
      exact hx r hr)
    rw [feasible_program] at hf
    obtain ⟨f1, f2, f3, f4⟩ := hf
    simp only at f1
    refine ⟨f2, f3, f4, fun r hr0 hr1 hr2 => ?_⟩
    have hle := hopt (r, 1 - r) ((feasible_program _ _ _).2 ⟨rfl, hr0, hr1, hr2⟩)
    rw [objective_program, objective_program, hrs, f1] at hle
    have e := fun r => sum_rows (fun x => lib.gammacdf x p.k p.theta) (fun x => 1 - extremeValueCdf p.mu p.sigma p.xi (-x))
      (rows.map fun r => r.headD 0) r
    simp only at e hle
    rw [e, e] at hle
    linarith

/-- One probability and one weight per correspondence. A probability that is a number is between 0 and 1. The weight is the probability for
correspondences taken for correct and 0 for the others. -/
theorem C102_weights {lib : Library} (hq : SolvesPrograms lib.qp) {rows : List (List ℝ)} {t : ℝ} (h0 : 0 < t) (h1 : t ≤ 1) {p : Params}
    {ps ws : List (Option ℝ)} (h : mixtureModel lib rows t = .ok (some (p, ps, ws))) :
    ps.length = rows.length ∧ ws.length = rows.length ∧ (∀ (i : Nat) (q : ℝ), ps[i]? = some (some q) → 0 ≤ q ∧ q ≤ 1) ∧
    ∀ (i : Nat) (r : List ℝ), rows[i]? = some r → (PredictedCorrect t r → ws[i]? = ps[i]?) ∧ (¬PredictedCorrect t r → ws[i]? = some (some 0)) := by
  obtain ⟨_, _, _, hr, hps, hws⟩ := mixtureModel_inv h0 h1 h
  have hrange : 0 ≤ p.inlierRatio ∧ p.inlierRatio ≤ 1 := by
    unfold estimateInlierRatio at hr
    split at hr
    · cases hr
    · obtain ⟨⟨a, b⟩, hsol, hab⟩ := Option.map_eq_some_iff.1 hr
      simp only at hab
      subst hab
      obtain ⟨hf, _⟩ := hq _ _ _ hsol
      rw [feasible_program] at hf
      exact ⟨hf.2.1, hf.2.2.2⟩
  refine ⟨by rw [hps]; simp, by rw [hws]; simp, ?_, ?_⟩
  · intro i q hi
    rw [hps, List.getElem?_map, Option.map_eq_some_iff] at hi
    obtain ⟨r, _, hr⟩ := hi
    exact posterior_range hrange.1 hrange.2 hr
  · intro i r hi
    rw [hps, hws, List.getElem?_map, List.getElem?_map, hi]
    simp only [Option.map_some]
    exact ⟨fun hp => by rw [if_pos hp], fun hp => by rw [if_neg hp]⟩

/-- A sample consists of the requested number of different correspondences, all of them taken for correct by the predictor. -/
theorem C102_sample {lib : Library} {rows : List (List ℝ)} {t : ℝ} {n : Nat} {ws : List ℝ} (h : init lib rows t n = .ok (some ws))
    {draws : List Nat} (hd : DrawnWith ws draws) {m : Nat} {out : List Nat} (hs : sample m draws = some out) :
    out.length = m ∧ out.Nodup ∧ ∀ i ∈ out, ∃ r, rows[i]? = some r ∧ PredictedCorrect t r := by
  obtain ⟨h0, h1, _, p, ps, hm, _, _⟩ := init_inv h
  obtain ⟨_, _, _, _, _, hws⟩ := mixtureModel_inv h0 h1 hm
  have hlen : ws.length = rows.length := by simpa using congrArg List.length hws
  have hmem := drawUnique_mem m [] draws out hs
  have hlt : ∀ x ∈ draws, x < rows.length := by
    intro x hx
    obtain ⟨w, hw, _⟩ := hd x hx
    rw [← hlen]
    exact (List.getElem?_eq_some_iff.1 hw).1
  obtain ⟨s1, s2, _⟩ := ProsacSampler.drawUnique_spec m [] draws rows.length out List.nodup_nil (by simp) hlt hs
  refine ⟨by simpa using s1, s2, fun i hi => ?_⟩
  have hi' : i ∈ draws := by simpa using hmem i hi
  obtain ⟨w, hw, hpos⟩ := hd i hi'
  have hil := hlt i hi'
  refine ⟨rows[i], List.getElem?_eq_getElem hil, ?_⟩
  by_contra hnp
  have h3 : (ws.map some)[i]? = some (some 0) := by
    rw [hws, List.getElem?_map, List.getElem?_eq_getElem hil]
    simp only [Option.map_some, if_neg hnp]
  rw [List.getElem?_map, hw] at h3
  simp only [Option.map_some, Option.some.injEq] at h3
  exact hpos.ne' h3

/-- A sample ends as soon as the requested number of different correspondences has been drawn, and not before: with too few
correspondences of positive weight it never ends. -/
theorem C102_ends_partial (m : Nat) (draws : List Nat) :
    ((∃ out, sample m draws = some out) ↔ ∃ l : List Nat, l.Nodup ∧ l.length = m ∧ ∀ x ∈ l, x ∈ draws) := by
  constructor
  · rintro ⟨out, h⟩
    have hb : ∀ x ∈ draws, x < draws.sum + 1 := fun x hx => Nat.lt_succ_of_le (List.single_le_sum (by simp) x hx)
    obtain ⟨s1, s2, _⟩ := ProsacSampler.drawUnique_spec m [] draws (draws.sum + 1) out List.nodup_nil (by simp) hb h
    exact ⟨out, s2, by simpa using s1, fun x hx => by simpa using drawUnique_mem m [] draws out h x hx⟩
  · rintro ⟨l, hn, hl, hm⟩
    exact drawUnique_ends m [] draws l hn (by omega) hm (by simp)

/-- With fewer correspondences of positive weight than a sample needs, no sequence of draws ends the loop. -/
theorem C102_never_ends {ws : List ℝ} {m : Nat} (hfew : (ws.filter fun w => decide (0 < w)).length < m) {draws : List Nat}
    (hd : DrawnWith ws draws) : sample m draws = none := by
  by_contra hne
  obtain ⟨out, ho⟩ := Option.ne_none_iff_exists'.1 hne
  obtain ⟨l, hn, hl, hm⟩ := (C102_ends_partial m draws).1 ⟨out, ho⟩
  have hsub : l ⊆ (List.range ws.length).filter fun i => decide (0 < ws.getD i 0) := by
    intro i hi
    obtain ⟨w, hw, hpos⟩ := hd i (hm i hi)
    rw [List.mem_filter, List.mem_range, decide_eq_true_eq]
    refine ⟨(List.getElem?_eq_some_iff.1 hw).1, ?_⟩
    rw [List.getD_eq_getElem?_getD, hw]
    exact hpos
  have hle := (hn.subperm hsub).length_le
  have heq : ∀ ws : List ℝ, ((List.range ws.length).filter fun i => decide (0 < ws.getD i 0)).length =
      (ws.filter fun w => decide (0 < w)).length := by
    intro ws
    have : ws = (List.range ws.length).map fun i => ws.getD i 0 := by
      refine List.ext_getElem (by simp) fun i h1 h2 => ?_
      simp [List.getD_eq_getElem?_getD, h1]
    conv_rhs => rw [this, List.filter_map, List.length_map]
    rfl
  rw [heq] at hle
  omega

/-! ### A run -/

namespace Evsac

/-- Two clear matches and one that is not. -/
noncomputable def exRows : List (List ℝ) := [[1, 10], [1, 10], [1, 1]]

/-- Fits that always give the same parameters, and a solver that is right about one program. -/
noncomputable def exLib : Library where
  gammafit _ := some (1, 1)
  gevfit _ := some (0, 1, 0)
  gammacdf _ _ _ := 1
  qp P _ := if Feasible P (2 / 3, 1 / 3) ∧ ∀ z, Feasible P z → objective P (2 / 3, 1 / 3) ≤ objective P z then some (2 / 3, 1 / 3) else none

theorem exLib_solves : SolvesPrograms exLib.qp := by
  intro P x0 x h
  simp only [exLib] at h
  split at h
  · next hc => cases h; exact hc
  · cases h

theorem ex_clear : PredictedCorrect (1 / 2) [1, 10] := by
  have := Real.log_two_gt_d9
  simp only [PredictedCorrect, meanSquare]
  norm_num
  linarith

theorem ex_unclear : ¬PredictedCorrect (1 / 2) [1, 1] := by
  have := Real.log_two_lt_d9
  simp only [PredictedCorrect, meanSquare]
  norm_num
  linarith

theorem ex_extract : extract (1 / 2) exRows = .ok ⟨[true, true, false], [1, 1, 1], [-10, -10, -1], [1, 1]⟩ := by
  simp only [exRows, extract, mrRayleigh_eq (t := 1 / 2) (by norm_num) (by norm_num), ex_clear, ex_unclear, decide_true, decide_false,
    if_true, Bool.false_eq_true, if_false]

theorem ex_ecdf : ecdf [1, 1, 1] = [(1, 1)] := by
  simp [ecdf, addToHist, ecdfLoop]

theorem ex_ratio : estimateInlierRatio exLib (2 / 3) [1, 1, 1] ⟨1, 1, 0, 1, 0, 0⟩ = some (2 / 3) := by
  have hrows : fitRows exLib.gammacdf ⟨1, 1, 0, 1, 0, 0⟩ [(1, 1)] = some [(1, 1 - Real.exp (-Real.exp 1), 1)] := by
    have h1 : ¬(1 : ℝ) ≤ 0 := by norm_num
    simp [fitRows, gevcdf, exLib, if_neg h1]
  unfold estimateInlierRatio
  rw [ex_ecdf, hrows]
  simp only
  have hopt : Feasible (program (2 / 3) [(1, 1 - Real.exp (-Real.exp 1), 1)]) (2 / 3, 1 / 3) ∧
      ∀ z, Feasible (program (2 / 3) [(1, 1 - Real.exp (-Real.exp 1), 1)]) z →
        objective (program (2 / 3) [(1, 1 - Real.exp (-Real.exp 1), 1)]) (2 / 3, 1 / 3) ≤
          objective (program (2 / 3) [(1, 1 - Real.exp (-Real.exp 1), 1)]) z := by
    refine ⟨(feasible_program _ _ _).2 (by norm_num), fun z hz => ?_⟩
    obtain ⟨h1, h2, h3, _⟩ := (feasible_program _ _ _).1 hz
    rw [objective_program, objective_program]
    simp only [List.map_cons, List.map_nil, List.sum_cons, List.sum_nil, h1]
    have e1 : (2 / 3 * 1 + 1 / 3 * (1 - Real.exp (-Real.exp 1)) - 1 : ℝ) ^ 2 = (1 / 3) ^ 2 * Real.exp (-Real.exp 1) ^ 2 := by ring
    have e2 : (z.1 * 1 + (1 - z.1) * (1 - Real.exp (-Real.exp 1)) - 1) ^ 2 = (1 - z.1) ^ 2 * Real.exp (-Real.exp 1) ^ 2 := by ring
    rw [e1, e2]
    have : (1 / 3 : ℝ) ^ 2 ≤ (1 - z.1) ^ 2 := by nlinarith
    have := mul_le_mul_of_nonneg_right this (sq_nonneg (Real.exp (-Real.exp 1)))
    linarith
  simp only [exLib]
  rw [if_pos hopt]
  rfl

theorem ex_posterior : ∃ q, posterior ⟨1, 1, 0, 1, 0, 2 / 3⟩ 1 = some q ∧ 0 < q := by
  have hg : 0 < gammapdf 1 1 1 := by
    have h1 : ¬((1 : ℝ) ≤ 0 ∨ (1 : ℝ) ≤ 0 ∨ (1 : ℝ) ≤ 0) := by norm_num
    have := Real.Gamma_pos_of_pos (one_pos (α := ℝ))
    rw [gammapdf, if_neg h1]
    positivity
  unfold posterior gevpdf
  simp only [show ¬(1 : ℝ) ≤ 0 by norm_num, if_false, if_true]
  rw [if_neg (by positivity)]
  exact ⟨_, rfl, by positivity⟩

theorem ex_init : ∃ q, 0 < q ∧ ∀ n, init exLib exRows (1 / 2) n = .ok (some [q, q, 0]) ∧
    mixtureModel exLib exRows (1 / 2) = .ok (some (⟨1, 1, 0, 1, 0, 2 / 3⟩, [some q, some q, some q], [some q, some q, some 0])) := by
  obtain ⟨q, hq, hpos⟩ := ex_posterior
  have hm : mixtureModel exLib exRows (1 / 2) =
      .ok (some (⟨1, 1, 0, 1, 0, 2 / 3⟩, [some q, some q, some q], [some q, some q, some 0])) := by
    unfold mixtureModel
    rw [ex_extract]
    simp only [exLib]
    have hu : upperBound ⟨[true, true, false], [1, 1, 1], [-10, -10, -1], [1, 1]⟩ = 2 / 3 := by norm_num [upperBound]
    have := ex_ratio
    simp only [exLib] at this
    rw [hu, this]
    simp [posteriors, hq]
  refine ⟨q, hpos, fun n => ⟨?_, hm⟩⟩
  unfold init
  rw [if_neg (by norm_num), if_neg (by norm_num), if_neg (by simp [exRows]), if_neg (by simp [exRows]), hm]
  have hd : distribution [some q, some q, some 0] = .ok [q, q, 0] := by
    unfold distribution
    have : List.mapM id [some q, some q, some 0] = some [q, q, 0] := by simp [List.mapM_cons]
    rw [this]
    simp only
    rw [if_pos]
    refine ⟨?_, by simp; linarith⟩
    intro w hw
    simp only [List.mem_cons, List.not_mem_nil, or_false] at hw
    rcases hw with rfl | rfl | rfl
    · exact hpos.le
    · exact hpos.le
    · exact le_rfl
  simp only [hd]

theorem ex_drawn {q : ℝ} (hq : 0 < q) : DrawnWith [q, q, 0] [1, 1, 0] := by
  intro i hi
  simp only [List.mem_cons, List.not_mem_nil, or_false] at hi
  rcases hi with rfl | rfl | rfl <;> exact ⟨q, rfl, hq⟩

end Evsac

/-- The hypotheses of the theorems are met by a run with two clear matches and one that is not: the ratio is 2/3 and the sample consists of
the two clear matches. -/
example : SolvesPrograms exLib.qp ∧ ∃ p ps ws, mixtureModel exLib exRows (1 / 2) = .ok (some (p, ps, ws)) ∧ 0 ≤ p.xi ∧
    p.inlierRatio = 2 / 3 ∧ ∃ l, init exLib exRows (1 / 2) 3 = .ok (some l) ∧ DrawnWith l [1, 1, 0] ∧ sample 2 [1, 1, 0] = some [1, 0] := by
  obtain ⟨q, hq, h⟩ := ex_init
  exact ⟨exLib_solves, _, _, _, (h 3).2, le_rfl, rfl, _, (h 3).1, ex_drawn hq, by decide⟩

/-! ### What does not hold -/

/-- False of the code: a sample may never come. Three correspondences and samples of three are accepted, but if the predictor rejects one of
the three, sampling goes on for ever. -/
theorem C102_hang_counterexample : ∃ ws, init exLib exRows (1 / 2) 3 = .ok (some ws) ∧ exRows.length = 3 ∧
    ∀ draws, DrawnWith ws draws → sample 3 draws = none := by
  obtain ⟨q, hq, h⟩ := ex_init
  refine ⟨_, (h 3).1, rfl, fun draws hd => C102_never_ends ?_ hd⟩
  simp [hq]

/-- False of the code: the number of data points is ignored. With more rows of distances than data, samples contain indices past the end of
the data, which the estimator reads. -/
theorem C102_size_counterexample : ∃ ws, init exLib exRows (1 / 2) 1 = .ok (some ws) ∧ DrawnWith ws [1, 1, 0] ∧
    sample 2 [1, 1, 0] = some [1, 0] := by
  obtain ⟨q, hq, h⟩ := ex_init
  exact ⟨_, (h 1).1, ex_drawn hq, by decide⟩

/-- False of the code: the checks let matrices with one column pass, whose second column is then read. -/
theorem C102_columns_counterexample (lib : Library) (n : Nat) : init lib [[1]] (1 / 2) n = .ub := by
  unfold init
  rw [if_neg (by norm_num), if_neg (by norm_num), if_neg (by simp), if_neg (by simp)]
  simp [mixtureModel, extract]

/-- False of the code: the probabilities are not the posteriors of the mixture. The extreme value distribution is fitted to negated
distances, but its density is evaluated at the distance itself. Whenever the fitted distribution is bounded by zero, as that of negated
distances should be, every probability is one. -/
theorem C102_sign_counterexample {p : Params} (hs : 0 < p.sigma) (hxi : p.xi < 0) (hb : p.mu - p.sigma / p.xi ≤ 0) (hk : 0 < p.k)
    (ht : 0 < p.theta) (hr : 0 < p.inlierRatio) {x : ℝ} (hx : 0 < x) : posterior p x = some 1 := by
  have hg : 0 < gammapdf x p.k p.theta := by
    unfold gammapdf
    rw [if_neg (by simp only [not_or, not_le]; exact ⟨hx, hk, ht⟩)]
    have := Real.Gamma_pos_of_pos hk
    have := Real.rpow_pos_of_pos ht p.k
    have := Real.rpow_pos_of_pos hx (p.k - 1)
    positivity
  have hle : 1 + p.xi * ((x - p.mu) * (1 / p.sigma)) ≤ 0 := by
    have h1 : p.mu - p.sigma / p.xi < x := lt_of_le_of_lt hb hx
    have h2 : p.xi * (x - p.mu) ≤ -p.sigma := by
      have h3 : -p.sigma / p.xi < x - p.mu := by rw [neg_div]; linarith
      have h4 := mul_lt_mul_of_neg_left h3 hxi
      rw [mul_div_cancel₀ _ hxi.ne] at h4
      linarith
    have h5 : p.xi * ((x - p.mu) * (1 / p.sigma)) = p.xi * (x - p.mu) / p.sigma := by ring
    rw [h5]
    have := (div_le_iff₀ hs (a := -1)).2 (by linarith : p.xi * (x - p.mu) ≤ -1 * p.sigma)
    linarith
  unfold posterior gevpdf
  simp only [if_neg (not_le.2 hs), if_neg hxi.ne, if_pos hle, mul_zero, add_zero]
  have : p.inlierRatio * gammapdf x p.k p.theta ≠ 0 := (mul_pos hr hg).ne'
  rw [if_neg this, div_self this]

/-- The parameters of the counterexample with numbers: outliers have distances above 1 with density `exp (1 - x)`, inliers all distances
with density `exp (-x)`. From half of either, a distance above 1 is an inlier with a probability below one half; the code says one. -/
theorem C102_posterior_counterexample {x : ℝ} (hx : 1 < x) :
    posterior ⟨1, 1, -2, 1, -1, 1 / 2⟩ x = some 1 ∧
    HasDerivAt (fun z => 1 - extremeValueCdf (-2) 1 (-1) (-z)) (Real.exp (1 - x)) x ∧ gammapdf x 1 1 = Real.exp (-x) ∧
    1 / 2 * Real.exp (-x) / (1 / 2 * Real.exp (-x) + 1 / 2 * Real.exp (1 - x)) < 1 / 2 := by
  have hcdf : ∀ z : ℝ, 1 < z → 1 - extremeValueCdf (-2) 1 (-1) (-z) = 1 - Real.exp (1 - z) := by
    intro z hz
    have e : (1 : ℝ) + -1 * ((-z - -2) / 1) = z - 1 := by ring
    rw [extremeValueCdf, if_neg (by norm_num), e, if_pos (by linarith)]
    norm_num
  refine ⟨?_, ?_, ?_, ?_⟩
  · exact C102_sign_counterexample (p := ⟨1, 1, -2, 1, -1, 1 / 2⟩) (by norm_num) (by norm_num) (by norm_num) (by norm_num) (by norm_num)
      (by norm_num) (by linarith)
  · have h1 : HasDerivAt (fun z => 1 - Real.exp (1 - z)) (Real.exp (1 - x)) x := by
      have h2 : HasDerivAt (fun z : ℝ => 1 - z) (-1) x := by simpa using (hasDerivAt_id x).const_sub 1
      have h3 := (h2.exp).const_sub 1
      simpa using h3
    refine h1.congr_of_eventuallyEq ?_
    filter_upwards [lt_mem_nhds hx] with z hz
    exact hcdf z hz
  · simp [gammapdf, not_le.2 (by linarith : 0 < x)]
  · have hpos : 0 < Real.exp (-x) := Real.exp_pos _
    have hlt : Real.exp (-x) < Real.exp (1 - x) := Real.exp_lt_exp.2 (by linarith)
    rw [div_lt_iff₀ (by positivity)]
    linarith

/-- False of the library: beyond the end of a distribution with negative shape the distribution function is 0 where it should be 1. In the
fit, distances below all outliers count as if all outliers were below them. -/
theorem C102_cdf_counterexample : gevcdf (-(1 / 2)) (-2) 1 (-1) = some 0 ∧ extremeValueCdf (-2) 1 (-1) (-(1 / 2)) = 1 ∧
    ∃ g, gevcdf (-(3 / 2)) (-2) 1 (-1) = some g ∧ 0 < g := by
  refine ⟨?_, ?_, ?_⟩
  · norm_num [gevcdf]
  · norm_num [extremeValueCdf]
  · refine ⟨Real.exp (-(1 / 2)), ?_, Real.exp_pos _⟩
    norm_num [gevcdf]

end Theia
