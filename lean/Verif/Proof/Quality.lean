import Mathlib.Tactic.Linarith
import Mathlib.Tactic.NormNum
import Mathlib.Tactic.Positivity
import Mathlib.Data.List.Forall2
import Mathlib.Algebra.BigOperators.Group.List.Basic
import Mathlib.Algebra.Order.Field.Basic
import Verif.Model.Quality
import Verif.Spec.Quality

namespace Theia

open Spec

namespace Quality

variable {K : Type}

theorem mem_inlierIndices (test : K → Bool) (rs : List K) : ∀ (i k : Nat),
    k ∈ inlierIndices test i rs ↔ i ≤ k ∧ ∃ r, rs[k - i]? = some r ∧ test r = true := by
  induction rs with
  | nil => intro i k; simp [inlierIndices]
  | cons a rs ih =>
    intro i k
    rw [inlierIndices]
    have key : (k ∈ inlierIndices test (i + 1) rs) ↔
        (i + 1 ≤ k ∧ ∃ r, (a :: rs)[k - i]? = some r ∧ test r = true) := by
      rw [ih (i + 1) k]
      refine and_congr_right fun h => ?_
      have : k - i = (k - (i + 1)) + 1 := by omega
      rw [this, List.getElem?_cons_succ]
    split
    · next ht =>
      rw [List.mem_cons, key]
      constructor
      · rintro (rfl | ⟨h1, h2⟩)
        · exact ⟨le_refl _, a, by simp, ht⟩
        · exact ⟨by omega, h2⟩
      · rintro ⟨h1, h2⟩
        by_cases hk : k = i
        · exact Or.inl hk
        · exact Or.inr ⟨by omega, h2⟩
    · next ht =>
      rw [key]
      constructor
      · rintro ⟨h1, h2⟩
        exact ⟨by omega, h2⟩
      · rintro ⟨h1, r, h2, h3⟩
        by_cases hk : k = i
        · subst hk
          simp only [Nat.sub_self, List.getElem?_cons_zero, Option.some.injEq] at h2
          subst h2
          exact absurd h3 ht
        · exact ⟨by omega, r, h2, h3⟩

theorem sorted_inlierIndices (test : K → Bool) (rs : List K) : ∀ i,
    (inlierIndices test i rs).Pairwise (· < ·) := by
  induction rs with
  | nil => intro i; simp [inlierIndices]
  | cons a rs ih =>
    intro i
    rw [inlierIndices]
    split
    · rw [List.pairwise_cons]
      refine ⟨fun k hk => ?_, ih (i + 1)⟩
      have := ((mem_inlierIndices test rs (i + 1) k).1 hk).1
      omega
    · exact ih (i + 1)

theorem exactly_inlierIndices (test : K → Bool) (rs : List K) :
    ExactlyThePositions rs (fun r => test r = true) (inlierIndices test 0 rs) :=
  ⟨sorted_inlierIndices test rs 0, fun i => by rw [mem_inlierIndices]; simp⟩

theorem length_inlierIndices (test : K → Bool) (rs : List K) : ∀ i,
    (inlierIndices test i rs).length = rs.countP test := by
  induction rs with
  | nil => intro i; rfl
  | cons a rs ih =>
    intro i
    rw [inlierIndices, List.countP_cons]
    split
    · rw [List.length_cons, ih]
    · rw [ih]; rfl

section field
variable [Field K] [LinearOrder K] [IsStrictOrderedRing K]

omit [IsStrictOrderedRing K] in
theorem mleScore_eq (thresh : K) (rs : List K) : ∀ score,
    mleScore thresh score rs = score + (rs.map fun r => min r thresh).sum := by
  induction rs with
  | nil => intro s; simp [mleScore]
  | cons a rs ih =>
    intro s
    rw [mleScore, ih, List.map_cons, List.sum_cons]
    split
    · next h => rw [min_eq_left h.le]; ring
    · next h => rw [min_eq_right (not_lt.1 h)]; ring

omit [Field K] [IsStrictOrderedRing K] in
theorem countP_sorted_le {s : List K} (hs : s.Pairwise (· ≤ ·)) {k : Nat} {x : K} (hx : s[k]? = some x) :
    k + 1 ≤ s.countP (fun y => decide (y ≤ x)) := by
  obtain ⟨hk, rfl⟩ := List.getElem?_eq_some_iff.1 hx
  have h1 : (s.take (k + 1)).countP (fun y => decide (y ≤ s[k])) = (s.take (k + 1)).length := by
    rw [List.countP_eq_length]
    intro y hy
    obtain ⟨i, hi, rfl⟩ := List.getElem_of_mem hy
    rw [List.length_take] at hi
    rw [List.getElem_take]
    rcases Nat.lt_or_ge i k with h | h
    · exact decide_eq_true (List.pairwise_iff_getElem.1 hs i k (by omega) hk h)
    · have : i = k := by omega
      subst this
      simp
  rw [List.length_take, min_eq_left (by omega)] at h1
  rw [← h1]
  exact (List.take_sublist _ _).countP_le

omit [Field K] [IsStrictOrderedRing K] in
theorem countP_sorted_ge {s : List K} (hs : s.Pairwise (· ≤ ·)) {k : Nat} {x : K} (hx : s[k]? = some x) :
    s.length - k ≤ s.countP (fun y => decide (x ≤ y)) := by
  obtain ⟨hk, rfl⟩ := List.getElem?_eq_some_iff.1 hx
  have h1 : (s.drop k).countP (fun y => decide (s[k] ≤ y)) = (s.drop k).length := by
    rw [List.countP_eq_length]
    intro y hy
    obtain ⟨i, hi, rfl⟩ := List.getElem_of_mem hy
    rw [List.length_drop] at hi
    rw [List.getElem_drop]
    cases i with
    | zero => simp
    | succ i => exact decide_eq_true (List.pairwise_iff_getElem.1 hs k (k + (i + 1)) hk (by omega) (by omega))
  rw [List.length_drop] at h1
  rw [← h1]
  exact (List.drop_sublist _ _).countP_le

omit [Field K] [IsStrictOrderedRing K] in
theorem orderStatistic_spec {l : List K} {k : Nat} (hk : k < l.length) :
    ∃ x, orderStatistic l k = .ok x ∧ x ∈ l ∧ k + 1 ≤ l.countP (fun y => decide (y ≤ x)) ∧
      l.length - k ≤ l.countP (fun y => decide (x ≤ y)) := by
  have hp := List.mergeSort_perm l (fun a b => decide (a ≤ b))
  have hs : (l.mergeSort (fun a b => decide (a ≤ b))).Pairwise (· ≤ ·) := by
    have := List.pairwise_mergeSort (le := fun a b : K => decide (a ≤ b))
      (fun a b c h1 h2 => by simp only [decide_eq_true_eq] at *; exact le_trans h1 h2)
      (fun a b => by simp only [Bool.or_eq_true, decide_eq_true_eq]; exact le_total a b) l
    exact this.imp (fun h => by simpa using h)
  have hk' : k < (l.mergeSort (fun a b => decide (a ≤ b))).length := by rw [hp.length_eq]; exact hk
  have hx := List.getElem?_eq_getElem hk'
  refine ⟨(l.mergeSort (fun a b => decide (a ≤ b)))[k], ?_, hp.mem_iff.1 (List.getElem_mem hk'), ?_, ?_⟩
  · rw [orderStatistic, hx]
  · rw [← hp.countP_eq]
    exact countP_sorted_le hs hx
  · have := countP_sorted_ge hs hx
    rwa [hp.length_eq, hp.countP_eq] at this

omit [Field K] [IsStrictOrderedRing K] in
theorem orderStatistic_mono {l : List K} {k : Nat} {a b : K} (ha : orderStatistic l k = .ok a)
    (hb : orderStatistic l (k + 1) = .ok b) : a ≤ b := by
  have hs : (l.mergeSort (fun a b => decide (a ≤ b))).Pairwise (· ≤ ·) := by
    have := List.pairwise_mergeSort (le := fun a b : K => decide (a ≤ b))
      (fun a b c h1 h2 => by simp only [decide_eq_true_eq] at *; exact le_trans h1 h2)
      (fun a b => by simp only [Bool.or_eq_true, decide_eq_true_eq]; exact le_total a b) l
    exact this.imp (fun h => by simpa using h)
  unfold orderStatistic at ha hb
  split at ha
  · cases ha
  · next x hx =>
    cases ha
    split at hb
    · cases hb
    · next y hy =>
      cases hb
      obtain ⟨h1, rfl⟩ := List.getElem?_eq_some_iff.1 hx
      obtain ⟨h2, rfl⟩ := List.getElem?_eq_some_iff.1 hy
      exact List.pairwise_iff_getElem.1 hs k (k + 1) h1 h2 (by omega)

end field
end Quality

end Theia
