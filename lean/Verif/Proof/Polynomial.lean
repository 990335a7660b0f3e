import Verif.Model.Polynomial
import Verif.Spec.Polynomial
import Mathlib.Tactic.Ring
import Mathlib.Tactic.FieldSimp

/-!
# Lemmas on polynomial arithmetic
-/

namespace Theia
namespace Poly

open Polynomial Spec

variable {K : Type} [Field K] [DecidableEq K]

omit [DecidableEq K] in
theorem evalFrom_eq (x : K) : ∀ (p : List K) (v : K), evalFrom x v p = v * x ^ p.length + (poly p).eval x := by
  intro p
  induction p with
  | nil => intro v; simp [evalFrom, poly]
  | cons c cs ih =>
    intro v
    rw [evalFrom, ih, poly]
    simp only [List.length_cons, eval_add, eval_mul, eval_C, eval_pow, eval_X]
    ring

omit [DecidableEq K] in
theorem degree_poly_lt (p : List K) : (poly p).degree < p.length := by
  induction p with
  | nil => simp [poly]
  | cons c cs ih =>
    rw [poly]
    refine lt_of_le_of_lt (degree_add_le _ _) (max_lt ?_ ?_)
    · refine lt_of_le_of_lt (degree_C_mul_X_pow_le _ _) ?_
      simp only [List.length_cons]
      exact_mod_cast Nat.lt_succ_self _
    · refine lt_trans ih ?_
      simp only [List.length_cons]
      exact_mod_cast Nat.lt_succ_self _

omit [DecidableEq K] in
theorem degree_poly_cons {c : K} (hc : c ≠ 0) (cs : List K) : (poly (c :: cs)).degree = cs.length := by
  rw [poly, degree_add_eq_left_of_degree_lt]
  · exact degree_C_mul_X_pow _ hc
  · rw [degree_C_mul_X_pow _ hc]
    exact degree_poly_lt cs

omit [DecidableEq K] in
theorem poly_append (p q : List K) : poly (p ++ q) = poly p * X ^ q.length + poly q := by
  induction p with
  | nil => simp [poly]
  | cons c cs ih =>
    rw [List.cons_append, poly, ih, poly, List.length_append]
    ring

omit [DecidableEq K] in
theorem poly_replicate (n : Nat) : poly (List.replicate n (0 : K)) = 0 := by
  induction n with
  | zero => simp [poly]
  | succ n ih => rw [List.replicate_succ, poly, ih]; simp

theorem removeLeadingZeros_spec : ∀ (p : List K), poly (removeLeadingZeros p) = poly p ∧
    (removeLeadingZeros p).length ≤ p.length ∧
    (p ≠ [] → ∃ c cs, removeLeadingZeros p = c :: cs ∧ (c ≠ 0 ∨ cs = [])) := by
  intro p
  fun_induction removeLeadingZeros p with
  | case1 => simp
  | case2 c => simp
  | case3 d cs ih =>
    obtain ⟨h1, h2, h3⟩ := ih
    refine ⟨?_, ?_, ?_⟩
    · rw [h1, poly.eq_2 (0 : K)]; simp
    · simp only [List.length_cons] at h2 ⊢; omega
    · intro _; exact h3 (by simp)
  | case4 c d cs h => simp [h]

omit [DecidableEq K] in
theorem derivative_poly : ∀ (p : List K), poly (diffLoop p) = derivative (poly p) ∧
    (diffLoop p).length = p.length - 1 := by
  intro p
  fun_induction diffLoop p with
  | case1 => simp [poly]
  | case2 c => simp [poly]
  | case3 c d cs ih =>
    obtain ⟨h1, h2⟩ := ih
    constructor
    · rw [poly, h1, h2, poly.eq_2 c, derivative_add, derivative_C_mul_X_pow]
      simp only [List.length_cons, Nat.add_sub_cancel]
      congr 2
      rw [mul_comm]
    · simp only [List.length_cons, h2]
      omega

omit [DecidableEq K] in
/-- Lowest power first. -/
theorem poly_reverse_cons (c : K) (cs : List K) : poly (c :: cs).reverse = poly cs.reverse * X + C c := by
  rw [List.reverse_cons, poly_append]
  simp [poly]

omit [DecidableEq K] in
theorem addAt_spec : ∀ (l : List K) (k : Nat) (x : K), k < l.length →
    ∃ r, addAt l k x = .ok r ∧ r.length = l.length ∧
      poly r.reverse = poly l.reverse + C x * X ^ k := by
  intro l
  induction l with
  | nil => intro k x h; simp at h
  | cons c cs ih =>
    intro k x h
    cases k with
    | zero =>
      refine ⟨_, rfl, by simp, ?_⟩
      rw [poly_reverse_cons, poly_reverse_cons, C_add]
      ring
    | succ k =>
      obtain ⟨r, e, hl, hp⟩ := ih k x (by simpa using h)
      refine ⟨c :: r, by simp [addAt, e], by simp [hl], ?_⟩
      rw [poly_reverse_cons, poly_reverse_cons, hp]
      ring

omit [DecidableEq K] in
theorem mulInner_spec (a : K) : ∀ (bs : List K) (k : Nat) (acc : List K), (bs ≠ [] → k + bs.length ≤ acc.length) →
    ∃ r, mulInner a k bs acc = .ok r ∧ r.length = acc.length ∧
      poly r.reverse = poly acc.reverse + C a * poly bs.reverse * X ^ k := by
  intro bs
  induction bs with
  | nil => intro k acc _; exact ⟨acc, rfl, rfl, by simp [poly]⟩
  | cons b bs ih =>
    intro k acc h
    have h' := h (by simp)
    simp only [List.length_cons] at h'
    obtain ⟨r1, e1, l1, p1⟩ := addAt_spec acc k (a * b) (by omega)
    obtain ⟨r2, e2, l2, p2⟩ := ih (k + 1) r1 (fun _ => by omega)
    refine ⟨r2, by simp [mulInner, e1, e2], by omega, ?_⟩
    rw [p2, p1, poly_reverse_cons, C_mul]
    ring

omit [DecidableEq K] in
theorem mulOuter_spec (q : List K) : ∀ (as : List K) (i : Nat) (acc : List K),
    (as ≠ [] → q ≠ [] → i + as.length + q.length ≤ acc.length + 1) →
    ∃ r, mulOuter q i as acc = .ok r ∧ r.length = acc.length ∧
      poly r.reverse = poly acc.reverse + poly as.reverse * poly q.reverse * X ^ i := by
  intro as
  induction as with
  | nil => intro i acc _; exact ⟨acc, rfl, rfl, by simp [poly]⟩
  | cons a as ih =>
    intro i acc h
    obtain ⟨r1, e1, l1, p1⟩ := mulInner_spec a q i acc (fun hq => by
      have := h (by simp) hq
      simp only [List.length_cons] at this
      omega)
    obtain ⟨r2, e2, l2, p2⟩ := ih (i + 1) r1 (fun _ hq => by
      have := h (by simp) hq
      simp only [List.length_cons] at this
      omega)
    refine ⟨r2, by simp [mulOuter, e1, e2], by omega, ?_⟩
    rw [p2, p1, poly_reverse_cons]
    ring

omit [DecidableEq K] in
theorem poly_zipWith_add : ∀ (p q : List K), p.length = q.length →
    poly (List.zipWith (· + ·) p q) = poly p + poly q := by
  intro p
  induction p with
  | nil =>
    intro q h
    have : q = [] := by simpa using h.symm
    subst this
    simp [poly]
  | cons c cs ih =>
    intro q h
    cases q with
    | nil => simp at h
    | cons d ds =>
      simp only [List.length_cons, Nat.add_right_cancel_iff] at h
      rw [List.zipWith_cons_cons, poly, ih ds h, List.length_zipWith, poly, poly, h, C_add]
      simp only [Nat.min_self]
      ring

omit [DecidableEq K] in
theorem addTail_spec (p q : List K) (h : q.length ≤ p.length) :
    poly (p.take (p.length - q.length) ++ List.zipWith (· + ·) (p.drop (p.length - q.length)) q) =
      poly p + poly q := by
  have hl : (p.drop (p.length - q.length)).length = q.length := by rw [List.length_drop]; omega
  rw [poly_append, poly_zipWith_add _ _ hl, List.length_zipWith, hl, Nat.min_self]
  conv_rhs => rw [← List.take_append_drop (p.length - q.length) p, poly_append, hl]
  ring

omit [DecidableEq K] in
theorem subtractHead_spec (s : K) : ∀ (ns ds : List K), ds.length ≤ ns.length →
    (subtractHead s ns ds).length = ns.length ∧
    poly (subtractHead s ns ds) = poly ns - C s * poly ds * X ^ (ns.length - ds.length) := by
  intro ns
  induction ns with
  | nil =>
    intro ds h
    have : ds = [] := by simpa using h
    subst this
    simp [subtractHead, poly]
  | cons n ns ih =>
    intro ds h
    cases ds with
    | nil => simp [subtractHead, poly]
    | cons d ds =>
      simp only [List.length_cons, Nat.add_le_add_iff_right] at h
      obtain ⟨h1, h2⟩ := ih ds h
      refine ⟨by simp [subtractHead, h1], ?_⟩
      rw [subtractHead, poly, h2, h1, poly, poly, C_sub, C_mul]
      have hx : (X : K[X]) ^ ns.length = X ^ ds.length * X ^ (ns.length - ds.length) := by
        rw [← pow_add]; congr 1; omega
      simp only [List.length_cons, Nat.add_sub_add_right]
      rw [hx]
      ring

omit [DecidableEq K] in
theorem poly_set (q : List K) (i : Nat) (hi : i < q.length) (x : K) (h0 : q[i] = 0) :
    poly (q.set i x) = poly q + C x * X ^ (q.length - 1 - i) := by
  induction q generalizing i with
  | nil => simp at hi
  | cons c cs ih =>
    cases i with
    | zero =>
      simp only [List.getElem_cons_zero] at h0
      subst h0
      rw [List.set_cons_zero, poly, poly]
      simp [add_comm]
    | succ i =>
      simp only [List.getElem_cons_succ] at h0
      rw [List.set_cons_succ, poly, ih i (by simpa using hi) h0, poly, List.length_set]
      simp only [List.length_cons]
      have : cs.length + 1 - 1 - (i + 1) = cs.length - 1 - i := by omega
      rw [this]
      ring

/-- The loop of the division, for a divisor of degree at least one with a nonzero leading coefficient. The
powers of the quotient not yet reached are zero. -/
theorem divLoop_spec {d : K} (hd : d ≠ 0) {ds : List K} (hds : ds ≠ []) :
    ∀ (fuel : Nat) (numerator quotient : List K), numerator.length < fuel + (d :: ds).length →
    numerator.length < quotient.length + (d :: ds).length →
    (∀ k (_ : k + (d :: ds).length ≤ numerator.length) (h : quotient.length - 1 - k < quotient.length),
      quotient[quotient.length - 1 - k] = 0) →
    ∃ q r, divLoop (d :: ds) fuel numerator quotient = some (.ok (q, r)) ∧ r.length < (d :: ds).length ∧
      q.length = quotient.length ∧
      poly q * poly (d :: ds) + poly r = poly quotient * poly (d :: ds) + poly numerator := by
  intro fuel
  induction fuel with
  | zero =>
    intro numerator quotient h _ _
    refine ⟨quotient, numerator, ?_, by omega, rfl, rfl⟩
    unfold divLoop
    rw [if_neg (by omega)]
  | succ fuel ih =>
    intro numerator quotient hf hq hz
    unfold divLoop
    by_cases hlen : numerator.length ≥ (d :: ds).length
    · rw [if_pos hlen]
      obtain ⟨n, ns, rfl⟩ : ∃ n ns, numerator = n :: ns := by
        cases numerator with
        | nil => simp at hlen
        | cons n ns => exact ⟨n, ns, rfl⟩
      simp only [if_neg hd]
      have hk : (n :: ns).length - (d :: ds).length < quotient.length := by omega
      simp only [setPower, if_pos hk]
      obtain ⟨s1, s2⟩ := subtractHead_spec (n / d) (n :: ns) (d :: ds) hlen
      -- the new numerator
      have hhead : (subtractHead (n / d) (n :: ns) (d :: ds)).set 0 0 = subtractHead (n / d) (n :: ns) (d :: ds) := by
        have : n - d * (n / d) = 0 := by field_simp; ring
        simp only [subtractHead, List.set_cons_zero, this]
      have hhead0 : ∃ l, subtractHead (n / d) (n :: ns) (d :: ds) = 0 :: l := by
        have : n - d * (n / d) = 0 := by field_simp; ring
        exact ⟨subtractHead (n / d) ns ds, by simp only [subtractHead, this]⟩
      obtain ⟨l, hl⟩ := hhead0
      obtain ⟨z1, z2, _⟩ := removeLeadingZeros_spec (subtractHead (n / d) (n :: ns) (d :: ds))
      have hshort : (removeLeadingZeros (subtractHead (n / d) (n :: ns) (d :: ds))).length < (n :: ns).length := by
        rw [hl]
        have hl2 : l.length + 1 = (n :: ns).length := by rw [← s1, hl]; rfl
        have hne : l ≠ [] := by
          rintro rfl
          have : 0 < ds.length := List.length_pos_of_ne_nil hds
          simp only [List.length_cons, List.length_nil] at hl2 hlen
          omega
        obtain ⟨a, l', rfl⟩ := List.exists_cons_of_ne_nil hne
        unfold removeLeadingZeros
        rw [if_pos rfl]
        have := (removeLeadingZeros_spec (a :: l')).2.1
        omega
      rw [hhead]
      have hidx : quotient.length - 1 - ((n :: ns).length - (d :: ds).length) < quotient.length := by omega
      obtain ⟨q, r, e, hr, hql, hp⟩ := ih (removeLeadingZeros (subtractHead (n / d) (n :: ns) (d :: ds)))
        (quotient.set (quotient.length - 1 - ((n :: ns).length - (d :: ds).length)) (n / d))
        (by omega) (by rw [List.length_set]; omega) (by
          intro k hk2 h2
          have hq0 : quotient.length - 1 - k < quotient.length := by omega
          simp only [List.length_set]
          rw [List.getElem_set]
          split
          · rename_i heq
            omega
          · exact hz k (by omega) (by omega))
      refine ⟨q, r, e, hr, by rw [hql, List.length_set], ?_⟩
      rw [hp, poly_set _ _ hidx _ (hz _ (by omega) hidx), z1, s2]
      have : quotient.length - 1 - (quotient.length - 1 - ((n :: ns).length - (d :: ds).length)) =
          (n :: ns).length - (d :: ds).length := by omega
      rw [this]
      ring
    · rw [if_neg hlen]
      exact ⟨quotient, numerator, rfl, by omega, rfl, rfl⟩

end Poly
end Theia
