import Verif.Proof.CompanionCharpoly
import Verif.Props.RootSolvers
import Verif.Props.Polynomial
import Verif.Spec.CompanionRoots

/-!
# C65: the roots of a polynomial of any degree
-/

namespace Theia

open Polynomial Theia.Spec CompanionRoots Roots

private theorem exponent_small {infExp : ℤ} (h : infExp.tdiv 2 = 0) : exponent infExp = exponent 0 := by
  funext row col
  unfold exponent
  split
  · rw [h]
    rfl
  · rfl

private theorem balance_small {infExp : ℤ} (h : infExp.tdiv 2 = 0) {n : Nat} (fuel : Nat) (A : Matrix (Fin n) (Fin n) ℝ) :
    balance infExp fuel A = balance 0 fuel A := by
  have h1 : ∀ (A : Matrix (Fin n) (Fin n) ℝ) i, balanceAt infExp A i = balanceAt 0 A i := by
    intro A i
    unfold balanceAt
    rw [exponent_small h]
  have h2 : ∀ (is : List (Fin n)) (A : Matrix (Fin n) (Fin n) ℝ) ch, balancePass infExp is A ch = balancePass 0 is A ch := by
    intro is
    induction is with
    | nil =>
      intro A ch
      rfl
    | cons i is ih =>
      intro A ch
      rw [balancePass, balancePass, h1]
      simp only [ih]
  have h3 : ∀ (fuel : Nat) (A : Matrix (Fin n) (Fin n) ℝ), balanceLoop infExp fuel A = balanceLoop 0 fuel A := by
    intro fuel
    induction fuel with
    | zero =>
      intro A
      rfl
    | succ f ih =>
      intro A
      rw [balanceLoop, balanceLoop, h2]
      simp only [ih]
  unfold balance
  have e := h3 fuel (fun i j => if i = j then 0 else A i j)
  simp only [e]

private theorem leading {a : ℝ} (ha : a ≠ 0) (l : List ℝ) : (poly (a :: l)).leadingCoeff = a ∧
    poly (a :: l) = C a * poly (1 :: l.map (fun c => c / a)) := by
  have h : ∀ l : List ℝ, poly l = C a * poly (l.map (fun c => c / a)) := by
    intro l
    induction l with
    | nil => simp [poly]
    | cons c l ih =>
      rw [List.map_cons, poly, poly, ih, mul_add, ← mul_assoc, ← C_mul, List.length_map, mul_div_cancel₀ _ ha]
  have h1 : poly (a :: l) = C a * poly (1 :: l.map (fun c => c / a)) := by
    rw [h (a :: l), List.map_cons, div_self ha]
  refine ⟨?_, h1⟩
  rw [h1, leadingCoeff_mul, leadingCoeff_C, (monic_poly _).1.leadingCoeff, mul_one]

private theorem zip_parts (zs : List ℂ) : List.zipWith Complex.mk (zs.map Complex.re) (zs.map Complex.im) = zs := by
  induction zs with
  | nil => rfl
  | cons z zs ih => simp [ih]

private theorem map_of_eval {p : ℝ[X]} {q : ℂ[X]} (h : ∀ x : ℂ, (p.map (algebraMap ℝ ℂ)).eval x = q.eval x) :
    p.map (algebraMap ℝ ℂ) = q := Polynomial.funext h

/-- **C65.** For every polynomial that is not constant, and not of the form `a x²`, the search for roots ends, however many
rounds the balancing takes, and writes all complex roots with their multiplicities; or it returns false because the eigensolver
failed. Leading zeros do not matter. -/
theorem C65_roots {infExp : ℤ} (hinf : infExp.tdiv 2 = 0)
    {eig : (n : Nat) → Matrix (Fin n) (Fin n) ℝ → Option (List ℂ)} (heig : EigenvalueSolver eig) {p : List ℝ}
    (hdeg : 0 < (poly p).natDegree) (hsq : ∀ a : ℝ, poly p ≠ C a * X ^ 2) :
    ∃ N out, (∀ fuel ≥ N, find infExp eig fuel p = some (.ok out)) ∧
      ((∃ re im, out = (true, some (re, im)) ∧ AllRoots (poly p) re im) ∨
        (out = (false, none) ∧ ∃ n A, 3 ≤ n ∧ eig n A = none)) := by
  obtain ⟨hz, -, hz3⟩ := Poly.removeLeadingZeros_spec p
  have hne : p ≠ [] := by
    rintro rfl
    simp [poly] at hdeg
  obtain ⟨a, rest, hr, hor⟩ := hz3 hne
  rw [hr] at hz
  rw [← hz] at hdeg hsq ⊢
  have ha : a ≠ 0 := by
    rcases hor with h | h
    · exact h
    · subst h
      simp [poly] at hdeg
  have ha' : (a : ℂ) ≠ 0 := by exact_mod_cast ha
  obtain ⟨hlead, hmon⟩ := leading ha rest
  clear hor hz
  match rest, hr, hdeg, hsq, hlead, hmon with
  | [], hr, hdeg, _, _, _ => simp [poly] at hdeg
  | [b], hr, _, _, hlead, _ =>
    obtain ⟨r, h1, h2⟩ := C37_find_linear a b ha
    refine ⟨0, (true, some ([r], [0])), fun fuel _ => ?_, .inl ⟨_, _, rfl, rfl, ?_⟩⟩
    · unfold find
      rw [hr]
      simp only [h1]
    · rw [hlead]
      apply map_of_eval
      intro x
      simp only [poly, productOfRoots, List.zipWith, List.map, List.prod_cons, List.prod_nil, mul_one, Polynomial.map_add,
        Polynomial.map_mul, map_C, map_X, Polynomial.map_pow, List.length, pow_zero, Polynomial.map_one, eval_add, eval_mul,
        eval_C, eval_pow, eval_X, eval_one, eval_sub, Polynomial.map_zero, eval_zero, Complex.coe_algebraMap, add_zero, zero_add,
        pow_one]
      rw [h2 x]
      rfl
  | [b, c], hr, _, hsq, hlead, _ =>
    have hbc : b ≠ 0 ∨ c ≠ 0 := by
      by_contra hno
      push Not at hno
      obtain ⟨rfl, rfl⟩ := hno
      exact hsq a (by simp [poly])
    obtain ⟨r0, r1, h1, h2⟩ := C37_quadratic a b c ha hbc
    obtain ⟨hq1, hq2⟩ := C37_find_quadratic a b c ha
    rcases hq : findQuadratic [a, b, c] with ⟨re, im⟩ | _ | _
    · have h3 := hq1 re im hq
      rw [h1] at h3
      have h3 : [r0, r1] = List.zipWith Complex.mk re im := Outcome.ok.inj h3
      refine ⟨0, (true, some (re, im)), fun fuel _ => ?_, .inl ⟨_, _, rfl, ?_, ?_⟩⟩
      · unfold find
        rw [hr]
        simp only [hq]
      · have hlen : re.length = im.length := by
          unfold findQuadratic at hq
          simp only at hq
          repeat' split at hq
          all_goals first | (cases hq; rfl) | (cases hq)
        exact hlen
      · rw [hlead, ← h3]
        apply map_of_eval
        intro x
        simp only [poly, productOfRoots, List.map, List.prod_cons, List.prod_nil, mul_one, Polynomial.map_add,
          Polynomial.map_mul, map_C, map_X, Polynomial.map_pow, List.length, pow_zero, Polynomial.map_one, eval_add, eval_mul,
          eval_C, eval_pow, eval_X, eval_one, eval_sub, Polynomial.map_zero, eval_zero, Complex.coe_algebraMap, add_zero,
          zero_add, pow_one]
        rw [← mul_assoc, ← h2 x]
        ring
    · exfalso
      unfold findQuadratic at hq
      simp only at hq
      repeat' split at hq
      all_goals cases hq
    · rw [hq2.1 hq] at h1
      cases h1
  | b :: c :: d :: l, hr, _, _, hlead, hmon =>
    obtain ⟨dd, N, hN⟩ := balance_spec (((b :: c :: d :: l).map (fun c => c / a)).reverse) (by simp)
    have hfind : ∀ fuel ≥ N, find infExp eig fuel p =
        match eig _ (scaled (companion (((b :: c :: d :: l).map (fun c => c / a)).reverse)) dd) with
        | none => some (.ok (false, none))
        | some zs => some (.ok (true, some (zs.map Complex.re, zs.map Complex.im))) := by
      intro fuel hf
      unfold find
      rw [hr]
      simp only
      rw [balance_small hinf, hN fuel hf]
      rfl
    rcases he : eig _ (scaled (companion (((b :: c :: d :: l).map (fun c => c / a)).reverse)) dd) with _ | zs
    · refine ⟨N, (false, none), fun fuel hf => ?_, .inr ⟨rfl, _, _, ?_, he⟩⟩
      · rw [hfind fuel hf, he]
      · simp
    · refine ⟨N, _, fun fuel hf => ?_, .inl ⟨zs.map Complex.re, zs.map Complex.im, rfl, by simp, ?_⟩⟩
      · rw [hfind fuel hf, he]
      · have := heig _ _ _ he
        rw [charpoly_scaled, charpoly_companion, List.reverse_reverse] at this
        rw [hlead, zip_parts, ← this, hmon, Polynomial.map_mul, map_C]
        rfl

/-- For instance `x³ - 1`. -/
example : 0 < (poly [(1 : ℝ), 0, 0, -1]).natDegree ∧ ∀ a : ℝ, poly [(1 : ℝ), 0, 0, -1] ≠ C a * X ^ 2 := by
  refine ⟨by rw [(monic_poly _).2]; decide, fun a h => ?_⟩
  have := congrArg (fun q => q.coeff 3) h
  simp [poly, coeff_X, coeff_one] at this

/-- There is an eigensolver: the roots of the characteristic polynomial. -/
theorem exists_eigenvalueSolver : ∃ eig, EigenvalueSolver eig ∧ ∀ n A, (eig n A).isSome := by
  refine ⟨fun n A => some (A.charpoly.map (algebraMap ℝ ℂ)).roots.toList, ?_, fun _ _ => rfl⟩
  intro n A zs h
  cases h
  have h1 := (IsAlgClosed.splits (A.charpoly.map (algebraMap ℝ ℂ))).eq_prod_roots
  rw [((Matrix.charpoly_monic A).map _).leadingCoeff, C_1, one_mul] at h1
  rw [productOfRoots, ← Multiset.prod_coe, ← Multiset.map_coe, Multiset.coe_toList]
  exact h1

/-- **C65.** A constant polynomial, possibly with leading zeros, gives true and leaves the vectors for the roots as they were;
an empty one gives false. -/
theorem C65_constant (infExp : ℤ) (eig : (n : Nat) → Matrix (Fin n) (Fin n) ℝ → Option (List ℂ)) (fuel : Nat) {p : List ℝ}
    (hdeg : (poly p).natDegree = 0) : find infExp eig fuel p = some (.ok (!p.isEmpty, none)) := by
  obtain ⟨hz, -, hz3⟩ := Poly.removeLeadingZeros_spec p
  cases p with
  | nil => rfl
  | cons c l =>
    obtain ⟨a, rest, hr, ha⟩ := hz3 (by simp)
    have hrest : rest = [] := by
      rcases ha with ha | ha
      · rw [hr] at hz
        rw [← hz] at hdeg
        obtain ⟨-, hmon⟩ := leading ha rest
        rw [hmon, natDegree_C_mul ha, (monic_poly _).2, List.length_map] at hdeg
        exact List.length_eq_zero_iff.1 hdeg
      · exact ha
    subst hrest
    unfold find
    rw [hr]
    rfl

/-- **C65, counterexample.** For `a x²` one of the two roots is zero divided by zero, whatever the eigensolver. -/
theorem C65_square_counterexample (infExp : ℤ) (eig : (n : Nat) → Matrix (Fin n) (Fin n) ℝ → Option (List ℂ)) (fuel : Nat)
    {p : List ℝ} {a : ℝ} (ha : a ≠ 0) (hp : poly p = C a * X ^ 2) : find infExp eig fuel p = some .ub := by
  obtain ⟨hz, -, hz3⟩ := Poly.removeLeadingZeros_spec p
  have hne : p ≠ [] := by
    rintro rfl
    have := congrArg (fun q => q.coeff 2) hp
    simp [poly] at this
    exact ha this.symm
  obtain ⟨b, rest, hr, hb⟩ := hz3 hne
  rw [hr, hp] at hz
  have hdeg : (C a * X ^ 2 : ℝ[X]).natDegree = 2 := natDegree_C_mul_X_pow 2 a ha
  have hb : b ≠ 0 := by
    rcases hb with h | h
    · exact h
    · subst h
      rw [← hz] at hdeg
      simp [poly] at hdeg
  have hlen : rest.length = 2 := by
    obtain ⟨-, hmon⟩ := leading hb rest
    rw [← hz, hmon, natDegree_C_mul hb, (monic_poly _).2, List.length_map] at hdeg
    exact hdeg
  match rest, hlen with
  | [c, d], _ =>
    have h1 := congrArg (fun q => q.coeff 1) hz
    have h0 := congrArg (fun q => q.coeff 0) hz
    simp [poly, coeff_X, coeff_C] at h1 h0
    subst h1
    subst h0
    unfold find
    rw [hr]
    simp [findQuadratic]

/-- `3 x²`, the derivative of `x³`. -/
example : poly [(3 : ℝ), 0, 0] = C 3 * X ^ 2 := by simp [poly]

/-- The last column is zero and the last row is not. -/
private def Endless (A : Matrix (Fin 3) (Fin 3) ℝ) : Prop := (∀ j, A j 2 = 0) ∧ A 2 1 ≠ 0

private theorem endless_rescale {A : Matrix (Fin 3) (Fin 3) ℝ} (h : Endless A) (i : Fin 3) (e : ℤ) : Endless (rescale A i e) := by
  have hp : ∀ (c : Prop) [Decidable c] (x : ℤ), (if c then (2 : ℝ) ^ x else 1) ≠ 0 := by
    intro c _ x
    split
    · exact zpow_ne_zero _ (by norm_num)
    · exact one_ne_zero
  refine ⟨fun j => ?_, ?_⟩
  · unfold rescale
    rw [h.1 j, mul_zero]
  · unfold rescale
    exact mul_ne_zero (mul_ne_zero (hp _ _) (hp _ _)) h.2

private theorem endless_pass {infExp : ℤ} (hinf : 2 ≤ infExp) : ∀ (is : List (Fin 3)) (A : Matrix (Fin 3) (Fin 3) ℝ) (ch : Bool),
    Endless A → ∃ B, balancePass infExp is A ch = (B, ch || is.contains 2) ∧ Endless B ∨
      balancePass infExp is A ch = (B, true) ∧ Endless B := by
  intro is
  induction is with
  | nil =>
    intro A ch h
    exact ⟨A, .inl ⟨by simp [balancePass], h⟩⟩
  | cons i is ih =>
    intro A ch h
    unfold balancePass
    rcases hb : balanceAt infExp A i with _ | B
    · have hi : i ≠ 2 := by
        rintro rfl
        have hcol : colNorm A 2 = 0 := by
          rw [colNorm_eq]
          exact Finset.sum_eq_zero fun j _ => by rw [h.1 j, abs_zero]
        have hrow : 0 < rowNorm A 2 := by
          rw [rowNorm_eq]
          refine lt_of_lt_of_le (abs_pos.2 h.2) ?_
          exact Finset.single_le_sum (f := fun j => |A 2 j|) (fun _ _ => abs_nonneg _) (Finset.mem_univ 1)
        have he : 1 ≤ exponent infExp (rowNorm A 2) (colNorm A 2) := by
          unfold exponent
          rw [if_pos hcol]
          rw [Int.tdiv_eq_ediv_of_nonneg (by omega)]
          omega
        unfold balanceAt at hb
        simp only at hb
        rw [if_pos (by omega), if_pos] at hb
        · cases hb
        · rw [hcol, zero_mul, zero_add, zero_add]
          have h1 : (2 : ℝ) ^ (-exponent infExp (rowNorm A 2) 0) ≤ 2 ^ (-1 : ℤ) := by
            rw [hcol] at he
            exact zpow_le_zpow_right₀ (by norm_num) (by omega)
          rw [zpow_neg_one] at h1
          nlinarith
      obtain ⟨B, hB⟩ := ih A ch h
      refine ⟨B, ?_⟩
      rcases hB with ⟨h1, h2⟩ | h1
      · refine .inl ⟨?_, h2⟩
        simp only
        rw [h1]
        have : (2 : Fin 3) ≠ i := hi.symm
        simp [this]
      · exact .inr h1
    · have hB : Endless B := by
        unfold balanceAt at hb
        simp only at hb
        split at hb
        · split at hb
          · cases hb
            exact endless_rescale h _ _
          · cases hb
        · cases hb
      obtain ⟨B', hB'⟩ := ih B true hB
      refine ⟨B', .inr ?_⟩
      simpa using hB'

/-- **C65, counterexample.** The exponent that `frexp` stores for infinity is unspecified in C. If it were two or more (it is
zero in glibc), the balancing of the companion matrix of `x³` would never end. -/
theorem C65_frexp_counterexample {infExp : ℤ} (hinf : 2 ≤ infExp)
    (eig : (n : Nat) → Matrix (Fin n) (Fin n) ℝ → Option (List ℂ)) (fuel : Nat) : find infExp eig fuel [1, 0, 0, 0] = none := by
  have hloop : ∀ (fuel : Nat) (A : Matrix (Fin 3) (Fin 3) ℝ), Endless A → balanceLoop infExp fuel A = none := by
    intro fuel
    induction fuel with
    | zero =>
      intro A _
      rfl
    | succ f ih =>
      intro A h
      unfold balanceLoop
      obtain ⟨B, hB⟩ := endless_pass hinf (List.finRange 3) A false h
      rcases hB with ⟨h1, h2⟩ | ⟨h1, h2⟩
      · have : (List.finRange 3).contains 2 = true := by decide
        rw [h1, this]
        exact ih B h2
      · rw [h1]
        exact ih B h2
  have hstart : Endless (fun i j => if i = j then 0 else companion ([0, 0, 0] : List ℝ) i j) := by
    refine ⟨fun j => ?_, ?_⟩
    · beta_reduce
      split
      · rfl
      · unfold companion
        rw [if_pos (by rfl)]
        have : ∀ i : Fin 3, ([0, 0, 0] : List ℝ)[i] = 0 := by
          intro i
          fin_cases i <;> rfl
        rw [this j, neg_zero]
    · simp [companion]
  have hr : Poly.removeLeadingZeros ([1, 0, 0, 0] : List ℝ) = [1, 0, 0, 0] := by simp [Poly.removeLeadingZeros]
  unfold find
  rw [hr]
  have hcs : (([0, 0, 0] : List ℝ).map (fun c => c / 1)).reverse = [0, 0, 0] := by simp
  have hbal : balance infExp fuel (companion ([0, 0, 0] : List ℝ)) = none := by
    unfold balance
    have : balanceLoop infExp fuel (fun i j => if i = j then 0 else companion ([0, 0, 0] : List ℝ) i j) = none :=
      hloop fuel _ hstart
    simp only [this]
  simp only
  rw [hcs, hbal]

/-- `FindPolynomialRoots` as called by `MinimizePolynomial` (polynomial.cc:263-268): the real parts of the roots, none for a
constant. -/
noncomputable def realParts (infExp : ℤ) (eig : (n : Nat) → Matrix (Fin n) (Fin n) ℝ → Option (List ℂ)) (fuel : Nat)
    (p : List ℝ) : Option (List ℝ) :=
  match find infExp eig fuel p with
  | some (.ok (true, some (re, _))) => some re
  | some (.ok (true, none)) => some []
  | _ => none

theorem real_root_mem {p : ℝ[X]} (hp : p ≠ 0) {re im : List ℝ} (h : AllRoots p re im) {x : ℝ} (hx : p.eval x = 0) : x ∈ re := by
  obtain ⟨hlen, h⟩ := h
  have h1 : (p.map (algebraMap ℝ ℂ)).eval (x : ℂ) = 0 := by
    have := Polynomial.eval_map_apply (algebraMap ℝ ℂ) (p := p) x
    rw [hx] at this
    simpa using this
  rw [h, eval_mul, eval_C] at h1
  have hl : (p.leadingCoeff : ℂ) ≠ 0 := by
    exact_mod_cast leadingCoeff_ne_zero.2 hp
  have h2 := (mul_eq_zero.1 h1).resolve_left hl
  unfold productOfRoots at h2
  rw [eval_list_prod, List.prod_eq_zero_iff] at h2
  simp only [List.map_map, List.mem_map, Function.comp, eval_sub, eval_X, eval_C] at h2
  obtain ⟨z, hz, h0⟩ := h2
  have hzx : z = x := (sub_eq_zero.1 h0).symm
  subst hzx
  clear h h1 h0
  induction re generalizing im with
  | nil => simp at hz
  | cons r re ih =>
    cases im with
    | nil => simp at hlen
    | cons i im =>
      simp only [List.zipWith_cons_cons, List.mem_cons] at hz
      rcases hz with hz | hz
      · have := congrArg Complex.re hz
        simp only [Complex.ofReal_re] at this
        simp [this]
      · exact List.mem_cons_of_mem _ (ih (by simpa using hlen) hz)

private theorem differentiate_long {p : List ℝ} (h : ¬ p.length ≤ 2) : Poly.differentiate p = .ok (Poly.diffLoop p) := by
  rcases p with _ | ⟨a, _ | ⟨b, l⟩⟩
  · simp at h
  · simp at h
  · rfl

/-- **C65.** The minimum of a polynomial over an interval, with this search for the critical points: if the derivative is not
of the form `a x²`, the result is a point of the interval with the least value. -/
theorem C65_minimize {infExp : ℤ} (hinf : infExp.tdiv 2 = 0)
    {eig : (n : Nat) → Matrix (Fin n) (Fin n) ℝ → Option (List ℂ)} (heig : EigenvalueSolver eig)
    (hok : ∀ n A, (eig n A).isSome) {p : List ℝ} (hsq : ∀ a : ℝ, derivative (poly p) ≠ C a * X ^ 2) {lo hi : ℝ} (hlh : lo ≤ hi) :
    ∃ N x v, (∀ fuel ≥ N, Poly.minimize (realParts infExp eig fuel) p lo hi = .ok (x, v)) ∧ lo ≤ x ∧ x ≤ hi ∧
      v = (poly p).eval x ∧ ∀ y, lo ≤ y → y ≤ hi → v ≤ (poly p).eval y := by
  classical
  -- the roots of the derivative
  obtain ⟨hd, -⟩ := Poly.derivative_poly p
  obtain ⟨N, rs, hN, hrs⟩ : ∃ N rs, (∀ fuel ≥ N, p.length ≤ 2 ∨ realParts infExp eig fuel (Poly.diffLoop p) = some rs) ∧
      (poly (Poly.diffLoop p) ≠ 0 → ∀ x, (poly (Poly.diffLoop p)).eval x = 0 → x ∈ rs ∨ p.length ≤ 2) := by
    by_cases hlen : p.length ≤ 2
    · exact ⟨0, [], fun _ _ => .inl hlen, fun _ _ _ => .inr hlen⟩
    by_cases hdeg : 0 < (poly (Poly.diffLoop p)).natDegree
    · obtain ⟨N, out, h1, h2⟩ := C65_roots hinf heig hdeg (by rw [hd]; exact hsq)
      rcases h2 with ⟨re, im, rfl, h2⟩ | ⟨-, n, A, -, h2⟩
      · refine ⟨N, re, fun fuel hf => .inr ?_, fun h0 x hx => .inl (real_root_mem h0 h2 hx)⟩
        unfold realParts
        rw [h1 fuel hf]
      · have := hok n A
        rw [h2] at this
        cases this
    · have hdeg : (poly (Poly.diffLoop p)).natDegree = 0 := by omega
      refine ⟨0, [], fun fuel _ => .inr ?_, fun h0 x hx => ?_⟩
      · unfold realParts
        rw [C65_constant infExp eig fuel hdeg]
        have : (Poly.diffLoop p).isEmpty = false := by
          have := (Poly.derivative_poly p).2
          rw [List.isEmpty_eq_false_iff_exists_mem]
          cases hq : Poly.diffLoop p with
          | nil =>
            rw [hq] at this
            simp at this
            omega
          | cons a l => exact ⟨a, by simp⟩
        simp [this]
      · rw [eq_C_of_natDegree_eq_zero hdeg, eval_C] at hx
        rw [eq_C_of_natDegree_eq_zero hdeg, hx, C_0] at h0
        exact absurd rfl h0
  -- any root finder with the same result for the derivative
  let roots : List ℝ → Option (List ℝ) := fun d =>
    if d = Poly.diffLoop p then some (if p.length ≤ 2 then (poly d).roots.toList else rs) else some (poly d).roots.toList
  have hroots : ∀ d, ∃ rs, roots d = some rs ∧ (poly d ≠ 0 → ∀ x, (poly d).eval x = 0 → x ∈ rs) := by
    intro d
    by_cases h : d = Poly.diffLoop p
    · subst h
      refine ⟨_, if_pos rfl, fun h0 x hx => ?_⟩
      split
      · exact Multiset.mem_toList.2 ((mem_roots h0).2 hx)
      · rename_i hl
        exact (hrs h0 x hx).resolve_right hl
    · exact ⟨_, if_neg h, fun h0 x hx => Multiset.mem_toList.2 ((mem_roots h0).2 hx)⟩
  obtain ⟨x, v, h1, h2⟩ := C52_minimize roots hroots p lo hi hlh
  refine ⟨N, x, v, fun fuel hf => ?_, h2⟩
  rw [← h1]
  unfold Poly.minimize
  simp only
  split
  · rfl
  · rename_i hlen
    simp only [differentiate_long hlen]
    rw [(hN fuel hf).resolve_left hlen, show roots (Poly.diffLoop p) = some rs by simp [roots, hlen]]

/-- For instance `x⁴`, whose derivative is a cubic. -/
example : ∀ a : ℝ, derivative (poly [(1 : ℝ), 0, 0, 0, 0]) ≠ C a * X ^ 2 := by
  intro a h
  have := congrArg (fun q => q.coeff 3) h
  simp only [coeff_derivative] at this
  simp [poly, coeff_X] at this
  norm_num at this

end Theia
