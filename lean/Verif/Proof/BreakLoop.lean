import Mathlib.Logic.Function.Iterate
import Mathlib.Data.Nat.Find

/-!
# Loops with a bounded number of iterations and a `break`
-/

namespace Theia.Admm

open Classical in
/-- A loop of at most `n` iterations that ends after an iteration that says so. -/
noncomputable def runLoop {S : Type} (it : S → S × Prop) : ℕ → S → S
  | 0, t => t
  | k + 1, t => if (it t).2 then (it t).1 else runLoop it k (it t).1

variable {S : Type} (it : S → S × Prop)

theorem runLoop_never : ∀ (n : ℕ) (t : S),
    (∀ k < n, ¬(it ((fun t => (it t).1)^[k] t)).2) →
      runLoop it n t = (fun t => (it t).1)^[n] t
  | 0, _, _ => rfl
  | n + 1, t, h => by
    rw [runLoop, if_neg (show ¬(it t).2 from h 0 (Nat.succ_pos n)), runLoop_never n _ fun k hk => ?_]
    · rfl
    · exact h (k + 1) (Nat.succ_lt_succ hk)

theorem runLoop_stop : ∀ (n K : ℕ) (t : S),
    (∀ k < K, ¬(it ((fun t => (it t).1)^[k] t)).2) → (it ((fun t => (it t).1)^[K] t)).2 →
      K < n → runLoop it n t = (fun t => (it t).1)^[K + 1] t
  | 0, _, _, _, _, h => absurd h (Nat.not_lt_zero _)
  | n + 1, 0, t, _, h, _ => by
    rw [runLoop, if_pos (show (it t).2 from h)]
    rfl
  | n + 1, K + 1, t, h, hK, hn => by
    rw [runLoop, if_neg (show ¬(it t).2 from h 0 (Nat.succ_pos K)),
      runLoop_stop n K _ (fun k hk => h (k + 1) (Nat.succ_lt_succ hk)) hK
        (Nat.lt_of_succ_lt_succ hn)]
    rfl

/-- If some iteration says so, the loop ends at the first one that does, however many iterations
are allowed beyond it. -/
theorem runLoop_stops (t : S) (h : ∃ k, (it ((fun t => (it t).1)^[k] t)).2) :
    ∃ K, (it ((fun t => (it t).1)^[K] t)).2 ∧
      ∀ n, K < n → runLoop it n t = (fun t => (it t).1)^[K + 1] t := by
  classical
  exact ⟨Nat.find h, Nat.find_spec h, fun n hn =>
    runLoop_stop it n (Nat.find h) t (fun k hk => Nat.find_min h hk) (Nat.find_spec h) hn⟩

/-- A loop that may iterate at least once does so. -/
theorem runLoop_exists : ∀ (n : ℕ) (t : S),
    ∃ j, runLoop it (n + 1) t = (fun t => (it t).1)^[j + 1] t
  | 0, t => by
    refine ⟨0, ?_⟩
    rw [runLoop, runLoop]
    split <;> rfl
  | n + 1, t => by
    rw [runLoop]
    split
    · exact ⟨0, rfl⟩
    · obtain ⟨j, h⟩ := runLoop_exists n (it t).1
      exact ⟨j + 1, h⟩

end Theia.Admm
