import Verif.Proof.Polynomial
import Mathlib.Analysis.Calculus.LocalExtr.Basic
import Mathlib.Analysis.Calculus.Deriv.Polynomial
import Mathlib.Topology.Algebra.Polynomial
import Mathlib.Topology.Order.Compact
import Mathlib.Data.Rat.Lemmas

/-!
# C36, C52: polynomial arithmetic and minimisation

The functions on coefficient vectors compute the operations of the polynomial ring, over any field. `Spec.poly`
is the polynomial of a vector.
-/

namespace Theia

open Polynomial Spec

variable {K : Type} [Field K] [DecidableEq K]

omit [DecidableEq K] in
/-- Evaluation gives the value of the polynomial. -/
theorem C36_eval (p : List K) (x : K) : Poly.eval p x = (poly p).eval x := by
  rw [Poly.eval, Poly.evalFrom_eq]
  simp

/-- Removing leading zeros keeps the polynomial, and the result has no leading zero unless it is a constant: it
has one coefficient more than the degree. -/
theorem C36_remove_leading_zeros (p : List K) (hp : p ≠ []) :
    poly (Poly.removeLeadingZeros p) = poly p ∧
      (Poly.removeLeadingZeros p).length = (poly p).natDegree + 1 := by
  obtain ⟨h1, _, h3⟩ := Poly.removeLeadingZeros_spec p
  obtain ⟨c, cs, h, hc⟩ := h3 hp
  refine ⟨h1, ?_⟩
  rw [← h1, h]
  rcases hc with hc | hc
  · rw [natDegree_eq_of_degree_eq_some (Poly.degree_poly_cons hc cs)]
    rfl
  · subst hc
    simp [poly]

omit [DecidableEq K] in
/-- Differentiation gives the derivative; it aborts on an empty vector only. -/
theorem C36_differentiate (p : List K) (hp : p ≠ []) :
    ∃ d, Poly.differentiate p = .ok d ∧ poly d = derivative (poly p) := by
  match p, hp with
  | [c], _ => exact ⟨[0], rfl, by simp [poly]⟩
  | c :: d :: cs, _ => exact ⟨_, rfl, (Poly.derivative_poly (c :: d :: cs)).1⟩

omit [DecidableEq K] in
/-- The product of two vectors, not both empty, is the product of the polynomials. -/
theorem C36_multiply (p q : List K) (h : p ≠ [] ∨ q ≠ []) :
    ∃ r, Poly.multiply p q = .ok r ∧ r.length = p.length + q.length - 1 ∧ poly r = poly p * poly q := by
  have hpos : p.length + q.length ≠ 0 := by
    intro h0
    have h1 : p.length = 0 := by omega
    have h2 : q.length = 0 := by omega
    rw [List.length_eq_zero_iff] at h1 h2
    tauto
  obtain ⟨r, e, hl, hp⟩ := Poly.mulOuter_spec q.reverse p.reverse 0
    (List.replicate (p.length + q.length - 1) 0) (by
      intro _ _
      simp only [List.length_reverse, List.length_replicate]
      omega)
  refine ⟨r.reverse, ?_, by simp [hl], ?_⟩
  · unfold Poly.multiply
    rw [if_neg hpos, e]
  · rw [hp]
    simp [Poly.poly_replicate]

omit [DecidableEq K] in
/-- The sum of two vectors of any sizes is the sum of the polynomials. -/
theorem C36_add (p q : List K) : poly (Poly.add p q) = poly p + poly q := by
  unfold Poly.add
  split
  · exact Poly.addTail_spec p q (by omega)
  · rw [Poly.addTail_spec q p (by omega), add_comm]

/-- Division by a divisor of degree at least one, without leading zeros, ends, and gives a quotient and a
remainder of lower degree with `polynomial = divisor * quotient + remainder`, if the polynomial has no leading
zeros either. The number of turns of the loop is at most the size of the polynomial. -/
theorem C36_divide (n : K) (ns : List K) (hn : n ≠ 0) (d : K) (ds : List K) (hd : d ≠ 0) (hds : ds ≠ []) :
    ∃ q r, (∀ fuel, (n :: ns).length ≤ fuel → Poly.divide fuel (n :: ns) (d :: ds) = some (.ok (q, r))) ∧
      poly (n :: ns) = poly (d :: ds) * poly q + poly r ∧ (poly r).degree < (poly (d :: ds)).degree := by
  by_cases hlen : (n :: ns).length < (d :: ds).length
  · refine ⟨[0], n :: ns, fun fuel _ => ?_, by simp [poly], ?_⟩
    · unfold Poly.divide
      rw [if_pos hlen]
    · rw [Poly.degree_poly_cons hd, Poly.degree_poly_cons hn]
      simp only [List.length_cons] at hlen
      exact_mod_cast (by omega : ns.length < ds.length)
  · have hnum : Poly.removeLeadingZeros (n :: ns) = n :: ns := by
      cases ns with
      | nil => rfl
      | cons m ms =>
        unfold Poly.removeLeadingZeros
        rw [if_neg hn]
    have hall : ∀ fuel, (n :: ns).length ≤ fuel → ∃ q r, Poly.divLoop (d :: ds) fuel (n :: ns)
        (List.replicate ((n :: ns).length + 1 - (d :: ds).length) 0) = some (.ok (q, r)) ∧
        r.length < (d :: ds).length ∧ poly q * poly (d :: ds) + poly r = poly (n :: ns) := by
      intro fuel hf
      obtain ⟨q, r, e, hr, _, hp⟩ := Poly.divLoop_spec hd hds fuel (n :: ns)
        (List.replicate ((n :: ns).length + 1 - (d :: ds).length) 0)
        (by simp only [List.length_cons] at hf ⊢; omega)
        (by rw [List.length_replicate]; omega)
        (by intro k _ _; simp)
      refine ⟨q, r, e, hr, ?_⟩
      rw [hp, Poly.poly_replicate]
      simp
    -- the result does not depend on the fuel: it is determined by division with remainder
    have hmono : ∀ (fuel k : Nat) (num quo : List K) (x : Outcome (List K × List K)),
        Poly.divLoop (d :: ds) fuel num quo = some x → Poly.divLoop (d :: ds) (fuel + k) num quo = some x := by
      intro fuel
      induction fuel with
      | zero =>
        intro k num quo x h
        unfold Poly.divLoop at h
        split at h
        · cases h
        · rename_i hl
          rw [Nat.zero_add]
          cases k with
          | zero => unfold Poly.divLoop; rw [if_neg hl]; exact h
          | succ k => unfold Poly.divLoop; rw [if_neg hl]; exact h
      | succ fuel ih =>
        intro k num quo x h
        rw [Nat.add_right_comm]
        unfold Poly.divLoop at h ⊢
        split
        · rename_i hl
          rw [if_pos hl] at h
          cases num with
          | nil => exact h
          | cons a as =>
            simp only [if_neg hd] at h ⊢
            split
            · rename_i hs; rw [hs] at h; exact h
            · rename_i hs; rw [hs] at h; exact h
            · rename_i quo' hs
              rw [hs] at h
              exact ih k _ _ x h
        · rename_i hl
          rw [if_neg hl] at h
          exact h
    obtain ⟨q, r, e, hr, hp⟩ := hall (n :: ns).length (Nat.le_refl _)
    refine ⟨q, r, ?_, ?_, ?_⟩
    · intro fuel hf
      unfold Poly.divide
      rw [if_neg hlen]
      simp only [hnum]
      rw [if_neg (by omega)]
      have := hmono _ (fuel - (n :: ns).length) _ _ _ e
      rwa [Nat.add_sub_cancel' hf] at this
    · rw [← hp]
      ring
    · rw [Poly.degree_poly_cons hd]
      refine lt_of_lt_of_le (Poly.degree_poly_lt r) ?_
      simp only [List.length_cons] at hr
      exact_mod_cast (by omega : r.length ≤ ds.length)

/-- Division by a constant does not end, for any nonempty polynomial. -/
theorem C36_constant_divisor_counterexample (n : K) (ns : List K) (d : K) (hd : d ≠ 0) (fuel : Nat) :
    Poly.divide fuel (n :: ns) [d] = none := by
  have key : ∀ (fuel : Nat) (num quo : List K), num ≠ [] → num.length ≤ quo.length →
      Poly.divLoop [d] fuel num quo = none := by
    intro fuel
    induction fuel with
    | zero =>
      intro num quo h _
      unfold Poly.divLoop
      rw [if_pos]
      exact List.length_pos_of_ne_nil h
    | succ fuel ih =>
      intro num quo h hq
      obtain ⟨a, as, rfl⟩ := List.exists_cons_of_ne_nil h
      unfold Poly.divLoop
      rw [if_pos (by simp)]
      simp only [if_neg hd, Poly.setPower]
      rw [if_pos (by simp only [List.length_cons, List.length_nil] at *; omega)]
      simp only
      have hs : (Poly.subtractHead (a / d) (a :: as) [d]).length = (a :: as).length :=
        (Poly.subtractHead_spec _ _ _ (by simp)).1
      have hne : (Poly.subtractHead (a / d) (a :: as) [d]).set 0 0 ≠ [] := by
        intro hc
        have := congrArg List.length hc
        rw [List.length_set, hs] at this
        simp at this
      obtain ⟨_, h2, h3⟩ := Poly.removeLeadingZeros_spec ((Poly.subtractHead (a / d) (a :: as) [d]).set 0 0)
      obtain ⟨c, cs, hcs, _⟩ := h3 hne
      refine ih _ _ (by rw [hcs]; simp) ?_
      rw [List.length_set] at h2
      rw [List.length_set]
      omega
  unfold Poly.divide
  rw [if_neg (by simp)]
  obtain ⟨_, h2, h3⟩ := Poly.removeLeadingZeros_spec (n :: ns)
  obtain ⟨c, cs, hcs, _⟩ := h3 (by simp)
  simp only
  rw [if_neg (by simp [hcs])]
  exact key fuel _ _ (by rw [hcs]; simp) (by simp [hcs])

/-- A polynomial with leading zeros can make the division undefined: `0x² + 0x + 1` divided by `x²` asks for a
quotient of size -1. -/
theorem C36_leading_zeros_counterexample (fuel : Nat) : Poly.divide fuel [0, 0, (1 : ℚ)] [1, 0, 0] = some .ub := by
  unfold Poly.divide
  rw [if_neg (by simp)]
  simp [Poly.removeLeadingZeros]

/-- `x³ - 2x² - 4 = (x - 3)(x² + x + 3) + 5`. -/
example : Poly.divide 4 [1, -2, 0, (-4 : ℚ)] [1, -3] = some (.ok ([1, 1, 3], [5])) := by decide +kernel

example : Poly.multiply [1, -3] [1, 1, (3 : ℚ)] = .ok [1, -2, 0, -9] := by decide +kernel

example : Poly.add [1, -2, 0, -9] [(5 : ℚ)] = [1, -2, 0, -4] := by decide +kernel

example : Poly.differentiate [1, -2, 0, (-4 : ℚ)] = .ok [3, -4, 0] := by decide +kernel

/-! ## Minimisation -/

theorem better_spec (p : List ℝ) {lo hi : ℝ} (x : ℝ) (best : ℝ × ℝ) (h1 : best.2 = Poly.eval p best.1)
    (h2 : lo ≤ best.1) (h3 : best.1 ≤ hi) (h4 : lo ≤ x) (h5 : x ≤ hi) :
    (Poly.better p x best).2 = Poly.eval p (Poly.better p x best).1 ∧ lo ≤ (Poly.better p x best).1 ∧
    (Poly.better p x best).1 ≤ hi ∧ (Poly.better p x best).2 ≤ best.2 ∧
    (Poly.better p x best).2 ≤ Poly.eval p x := by
  unfold Poly.better
  split
  · rename_i h
    exact ⟨rfl, h4, h5, le_of_lt h, le_refl _⟩
  · rename_i h
    exact ⟨h1, h2, h3, le_refl _, not_lt.1 h⟩

theorem minLoop_spec (p : List ℝ) (lo hi : ℝ) : ∀ (rs : List ℝ) (best : ℝ × ℝ), best.2 = Poly.eval p best.1 →
    lo ≤ best.1 → best.1 ≤ hi →
    (Poly.minLoop p lo hi rs best).2 = Poly.eval p (Poly.minLoop p lo hi rs best).1 ∧
    lo ≤ (Poly.minLoop p lo hi rs best).1 ∧ (Poly.minLoop p lo hi rs best).1 ≤ hi ∧
    (Poly.minLoop p lo hi rs best).2 ≤ best.2 ∧
    ∀ r ∈ rs, lo ≤ r → r ≤ hi → (Poly.minLoop p lo hi rs best).2 ≤ Poly.eval p r := by
  intro rs
  induction rs with
  | nil => intro best h1 h2 h3; exact ⟨h1, h2, h3, le_refl _, by simp⟩
  | cons r rs ih =>
    intro best h1 h2 h3
    unfold Poly.minLoop
    by_cases hr : r < lo ∨ r > hi
    · rw [if_pos hr]
      obtain ⟨a1, a2, a3, a4, a5⟩ := ih best h1 h2 h3
      refine ⟨a1, a2, a3, a4, ?_⟩
      intro x hx hxl hxh
      rcases List.mem_cons.1 hx with rfl | hx
      · rcases hr with h | h
        · exact absurd hxl (not_le.2 h)
        · exact absurd hxh (not_le.2 h)
      · exact a5 x hx hxl hxh
    · rw [if_neg hr]
      rw [not_or, not_lt, not_lt] at hr
      unfold Poly.better
      split
      · rename_i hlt
        obtain ⟨a1, a2, a3, a4, a5⟩ := ih (r, Poly.eval p r) rfl hr.1 hr.2
        refine ⟨a1, a2, a3, le_trans a4 (le_of_lt hlt), ?_⟩
        intro x hx hxl hxh
        rcases List.mem_cons.1 hx with rfl | hx
        · exact a4
        · exact a5 x hx hxl hxh
      · rename_i hlt
        obtain ⟨a1, a2, a3, a4, a5⟩ := ih best h1 h2 h3
        refine ⟨a1, a2, a3, a4, ?_⟩
        intro x hx hxl hxh
        rcases List.mem_cons.1 hx with rfl | hx
        · exact le_trans a4 (not_lt.1 hlt)
        · exact a5 x hx hxl hxh

/-- The minimum over an interval: if the root finder succeeds and finds (possibly among other numbers) all real
roots of the derivative when it is not the zero polynomial, the point returned is in the interval, the value is
that of the polynomial there, and no point of the interval has a smaller value. -/
theorem C52_minimize (roots : List ℝ → Option (List ℝ)) (hroots : ∀ d, ∃ rs, roots d = some rs ∧
      (poly d ≠ 0 → ∀ x, (poly d).eval x = 0 → x ∈ rs))
    (p : List ℝ) (lo hi : ℝ) (hlh : lo ≤ hi) :
    ∃ x v, Poly.minimize roots p lo hi = .ok (x, v) ∧ lo ≤ x ∧ x ≤ hi ∧ v = (poly p).eval x ∧
      ∀ y, lo ≤ y → y ≤ hi → v ≤ (poly p).eval y := by
  -- the three points looked at first
  obtain ⟨b, hb⟩ : ∃ b, b = Poly.better p hi (Poly.better p lo ((lo + hi) / 2, Poly.eval p ((lo + hi) / 2))) :=
    ⟨_, rfl⟩
  have hbest : b.2 = Poly.eval p b.1 ∧ lo ≤ b.1 ∧ b.1 ≤ hi ∧ b.2 ≤ Poly.eval p lo ∧ b.2 ≤ Poly.eval p hi ∧
      b.2 ≤ Poly.eval p ((lo + hi) / 2) := by
    have hmid1 : lo ≤ (lo + hi) / 2 := by linarith
    have hmid2 : (lo + hi) / 2 ≤ hi := by linarith
    obtain ⟨c1, c2, c3, c4, c5⟩ := better_spec p (lo := lo) (hi := hi) lo
      ((lo + hi) / 2, Poly.eval p ((lo + hi) / 2)) rfl hmid1 hmid2 (le_refl _) hlh
    obtain ⟨d1, d2, d3, d4, d5⟩ := better_spec p (lo := lo) (hi := hi) hi _ c1 c2 c3 hlh (le_refl _)
    rw [hb]
    exact ⟨d1, d2, d3, le_trans d4 c5, d5, le_trans d4 c4⟩
  obtain ⟨b1, b2, b3, b4, b5, b6⟩ := hbest
  -- a minimum is attained, at an end or where the derivative vanishes
  obtain ⟨z, hz, hzmin⟩ := isCompact_Icc.exists_isMinOn (Set.nonempty_Icc.2 hlh)
    ((poly p).continuous.continuousOn (s := Set.Icc lo hi))
  have hzmin' : ∀ y, lo ≤ y → y ≤ hi → (poly p).eval z ≤ (poly p).eval y := fun y h1 h2 => hzmin ⟨h1, h2⟩
  have hcrit : z ≠ lo → z ≠ hi → (derivative (poly p)).eval z = 0 := by
    intro h1 h2
    have hloc : IsLocalMin (fun x => (poly p).eval x) z :=
      hzmin.isLocalMin (Icc_mem_nhds (lt_of_le_of_ne hz.1 (Ne.symm h1)) (lt_of_le_of_ne hz.2 h2))
    have := hloc.deriv_eq_zero
    rwa [Polynomial.deriv] at this
  have hconst : derivative (poly p) = 0 → ∀ x y, (poly p).eval x = (poly p).eval y := by
    intro h0 x y
    have := Polynomial.derivative_eq_zero.1 h0
    obtain ⟨c, hc⟩ := Polynomial.natDegree_eq_zero.1 this
    rw [← hc]
    simp
  -- enough to be at least as good at `z`
  have enough : ∀ x v, v = Poly.eval p x → lo ≤ x → x ≤ hi → v ≤ Poly.eval p z →
      lo ≤ x ∧ x ≤ hi ∧ v = (poly p).eval x ∧ ∀ y, lo ≤ y → y ≤ hi → v ≤ (poly p).eval y := by
    intro x v h1 h2 h3 h4
    refine ⟨h2, h3, by rw [h1, C36_eval], fun y hy1 hy2 => ?_⟩
    rw [C36_eval] at h4
    exact le_trans h4 (hzmin' y hy1 hy2)
  -- if the derivative is constant or zero there
  have hends : (derivative (poly p) = 0 ∨ ∀ x, (derivative (poly p)).eval x ≠ 0) → b.2 ≤ Poly.eval p z := by
    intro h
    rcases h with h | h
    · rw [C36_eval, hconst h z lo, ← C36_eval]
      exact b4
    · by_cases h1 : z = lo
      · rw [h1]; exact b4
      · by_cases h2 : z = hi
        · rw [h2]; exact b5
        · exact absurd (hcrit h1 h2) (h z)
  unfold Poly.minimize
  simp only [← hb]
  by_cases hlen : p.length ≤ 2
  · rw [if_pos hlen]
    refine ⟨b.1, b.2, rfl, enough b.1 b.2 b1 b2 b3 (hends ?_)⟩
    match p, hlen with
    | [], _ => left; simp [poly]
    | [c], _ => left; simp [poly]
    | [c, d], _ =>
      by_cases hc : c = 0
      · left; simp [poly, hc]
      · right; intro x; simpa [poly] using hc
  · rw [if_neg hlen]
    have hne : p ≠ [] := by
      rintro rfl
      simp at hlen
    obtain ⟨d, hd, hdp⟩ := C36_differentiate p hne
    obtain ⟨rs, hrs, hall⟩ := hroots d
    simp only [hd, hrs]
    obtain ⟨m1, m2, m3, m4, m5⟩ := minLoop_spec p lo hi rs b b1 b2 b3
    refine ⟨(Poly.minLoop p lo hi rs b).1, (Poly.minLoop p lo hi rs b).2, rfl, enough _ _ m1 m2 m3 ?_⟩
    by_cases h0 : derivative (poly p) = 0
    · exact le_trans m4 (hends (Or.inl h0))
    · by_cases h1 : z = lo
      · rw [h1]; exact le_trans m4 b4
      · by_cases h2 : z = hi
        · rw [h2]; exact le_trans m4 b5
        · refine m5 z (hall (by rw [hdp]; exact h0) z ?_) hz.1 hz.2
          rw [hdp]
          exact hcrit h1 h2

/-- There is such a root finder. -/
example : ∃ roots : List ℝ → Option (List ℝ), ∀ d, ∃ rs, roots d = some rs ∧
    (poly d ≠ 0 → ∀ x, (poly d).eval x = 0 → x ∈ rs) := by
  refine ⟨fun d => some (poly d).roots.toList, fun d => ⟨_, rfl, fun h x hx => ?_⟩⟩
  rw [Multiset.mem_toList, mem_roots h]
  exact hx

/-- `x² - 2x` on `[0, 3]` has its minimum -1 at 1. -/
example : Poly.minimize (fun _ => some [1]) [1, -2, (0 : ℚ)] 0 3 = .ok (1, -1) := by decide +kernel

end Theia
