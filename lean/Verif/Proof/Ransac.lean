import Mathlib.Analysis.SpecialFunctions.Log.Basic
import Mathlib.Algebra.Order.Floor.Ring
import Mathlib.Tactic.Linarith
import Mathlib.Tactic.Positivity
import Mathlib.Tactic.FieldSimp
import Mathlib.Tactic.NormNum
import Verif.Spec.Ransac

/-! # Lemmas on sample consensus -/

namespace Theia
namespace Ransac

open Spec

theorem truncate_bounds {a b : Int} {x : ℝ} (ha : (a : ℝ) ≤ x) (hb : x ≤ (b : ℝ)) :
    a ≤ truncate x ∧ truncate x ≤ b := by
  unfold truncate
  split
  · exact ⟨Int.le_floor.2 ha, Int.cast_le.1 ((Int.floor_le x).trans hb)⟩
  · exact ⟨Int.cast_le.1 (ha.trans (Int.le_ceil x)), Int.ceil_le.2 hb⟩

theorem truncate_mono {x y : ℝ} (h : x ≤ y) : truncate x ≤ truncate y := by
  unfold truncate
  by_cases hx : 0 ≤ x
  · rw [if_pos hx, if_pos (hx.trans h)]
    exact Int.floor_le_floor h
  · rw [if_neg hx]
    by_cases hy : 0 ≤ y
    · rw [if_pos hy]
      have h1 : ⌈x⌉ ≤ 0 := Int.ceil_le.2 (by push_cast; linarith)
      have h2 : 0 ≤ ⌊y⌋ := Int.floor_nonneg.2 hy
      omega
    · rw [if_neg hy]
      exact Int.ceil_le_ceil h

theorem truncate_int (a : Int) : truncate (a : ℝ) = a := by
  unfold truncate
  split <;> simp

theorem truncate_lt (x : ℝ) : x < truncate x + 1 := by
  unfold truncate
  split
  · exact Int.lt_floor_add_one x
  · have := Int.le_ceil x
    linarith

theorem epsilon_pos : 0 < epsilon := by
  unfold epsilon; positivity

/-- The number of inliers all samples must consist of. -/
def Params.exponent (p : Params) (s : Nat) : Nat := if p.useTdd then s + 1 else s

theorem log_prob_neg {w : ℝ} (h0 : 0 < w) (h1 : w < 1) {s : Nat} (hs : 1 ≤ s) :
    0 < 1 - w ^ s ∧ 1 - w ^ s < 1 ∧ Real.log (1 - w ^ s) - epsilon < 0 := by
  have hp : 0 < w ^ s := pow_pos h0 s
  have hl : w ^ s < 1 := pow_lt_one₀ h0.le h1 (by omega)
  refine ⟨by linarith, by linarith, ?_⟩
  have := Real.log_neg (by linarith : 0 < 1 - w ^ s) (by linarith)
  have := epsilon_pos
  linarith

theorem compute_bounds (p : Params) (hp : p.minIterations ≤ p.maxIterations) (s : Nat) (w l : ℝ)
    (hw : 0 < w) :
    ∃ k, computeMaxIterations p s w l = .ok k ∧ p.minIterations ≤ k ∧ k ≤ p.maxIterations := by
  unfold computeMaxIterations
  rw [if_pos hw]
  split
  · exact ⟨_, rfl, le_refl _, hp⟩
  · refine ⟨_, rfl, ?_⟩
    have hp' : (p.minIterations : ℝ) ≤ (p.maxIterations : ℝ) := by exact_mod_cast hp
    exact truncate_bounds (le_max_left _ _) (max_le hp' (min_le_right _ _))

section Loop

variable {D M C : Type} [LinearOrder C]

/-- What the loop maintains after evaluating the models `E`. -/
structure LoopInv (eval : M → C × List Nat) (sampleSize : Nat) (bound : Nat → Outcome Int)
    (start : Int) (E : List M) (s : LoopState M C) : Prop where
  none : s.best = none ↔ E = []
  some : ∀ m c, s.best = some (m, c) → c = (eval m).1 ∧ FirstCheapest (fun m => (eval m).1) E m
  le : s.maxIterations ≤ start
  why : s.maxIterations = start ∨ ∃ m ∈ E, sampleSize ≤ (eval m).2.length ∧
    bound (eval m).2.length = .ok s.maxIterations

theorem evalModel_inv {eval : M → C × List Nat} {sampleSize : Nat} {bound : Nat → Outcome Int}
    {start : Int} {E : List M} {s : LoopState M C} (h : LoopInv eval sampleSize bound start E s) (m : M)
    (hb : sampleSize ≤ (eval m).2.length → ∃ k, bound (eval m).2.length = .ok k) :
    ∃ s', evalModel sampleSize eval bound s m = .ok s' ∧
      LoopInv eval sampleSize bound start (E ++ [m]) s' := by
  unfold evalModel
  simp only
  by_cases hbetter : isBetter s.best (eval m).1 = true
  · rw [if_pos hbetter]
    have hcheap : FirstCheapest (fun m => (eval m).1) (E ++ [m]) m := by
      refine ⟨E, [], rfl, ?_, by simp⟩
      intro x hx
      cases hbest : s.best with
      | none =>
        rw [h.none.1 hbest] at hx
        cases hx
      | some b =>
        simp only [isBetter, hbest, decide_eq_true_eq] at hbetter
        obtain ⟨hc, pre, post, hE, h1, h2⟩ := h.some b.1 b.2 hbest
        rw [hc] at hbetter
        rw [hE] at hx
        rcases List.mem_append.1 hx with hx | hx
        · exact hbetter.trans (h1 x hx)
        · rcases List.mem_cons.1 hx with rfl | hx
          · exact hbetter
          · exact lt_of_lt_of_le hbetter (not_lt.1 (h2 x hx))
    by_cases hsmall : (eval m).2.length < sampleSize
    · rw [if_pos hsmall]
      refine ⟨_, rfl, ⟨by simp, ?_, h.le, ?_⟩⟩
      · intro m' c' e
        simp only [Option.some.injEq, Prod.mk.injEq] at e
        obtain ⟨rfl, rfl⟩ := e
        exact ⟨rfl, hcheap⟩
      · rcases h.why with hw | ⟨m', hm', hw⟩
        · exact Or.inl hw
        · exact Or.inr ⟨m', by simp [hm'], hw⟩
    · rw [if_neg hsmall]
      obtain ⟨k, hk⟩ := hb (by omega)
      simp only [hk]
      refine ⟨_, rfl, ⟨by simp, ?_, le_trans (min_le_right _ _) h.le, ?_⟩⟩
      · intro m' c' e
        simp only [Option.some.injEq, Prod.mk.injEq] at e
        obtain ⟨rfl, rfl⟩ := e
        exact ⟨rfl, hcheap⟩
      · simp only
        by_cases hkm : k ≤ s.maxIterations
        · rw [min_eq_left hkm]
          exact Or.inr ⟨m, by simp, by omega, hk⟩
        · rw [min_eq_right (by omega)]
          rcases h.why with hw | ⟨m', hm', hw⟩
          · exact Or.inl hw
          · exact Or.inr ⟨m', by simp [hm'], hw⟩
  · rw [if_neg hbetter]
    refine ⟨s, rfl, ⟨?_, ?_, h.le, ?_⟩⟩
    · cases hbest : s.best with
      | none => simp [isBetter, hbest] at hbetter
      | some b => simp
    · intro m' c' e
      obtain ⟨hc, pre, post, hE, h1, h2⟩ := h.some m' c' e
      refine ⟨hc, pre, post ++ [m], by simp [hE], h1, ?_⟩
      intro x hx
      rcases List.mem_append.1 hx with hx | hx
      · exact h2 x hx
      · rw [List.mem_singleton.1 hx]
        simp only [isBetter, e, decide_eq_true_eq] at hbetter
        rw [hc] at hbetter
        exact hbetter
    · rcases h.why with hw | ⟨m', hm', hw⟩
      · exact Or.inl hw
      · exact Or.inr ⟨m', by simp [hm'], hw⟩

theorem evalModel_le {eval : M → C × List Nat} {sampleSize : Nat} {bound : Nat → Outcome Int}
    {s s' : LoopState M C} {m : M} (h : evalModel sampleSize eval bound s m = .ok s') :
    s'.maxIterations ≤ s.maxIterations := by
  unfold evalModel at h
  simp only at h
  split at h
  · split at h
    · cases h; exact le_refl _
    · split at h
      · cases h
      · cases h
      · cases h; exact min_le_right _ _
  · cases h; exact le_refl _

theorem evalModels_inv {eval : M → C × List Nat} {sampleSize : Nat} {bound : Nat → Outcome Int}
    {start : Int} (ms : List M)
    (hb : ∀ m, sampleSize ≤ (eval m).2.length → ∃ k, bound (eval m).2.length = .ok k)
    {E : List M} {s : LoopState M C} (h : LoopInv eval sampleSize bound start E s) :
    ∃ s', evalModels sampleSize eval bound ms s = .ok s' ∧
      LoopInv eval sampleSize bound start (E ++ ms) s' ∧ s'.maxIterations ≤ s.maxIterations := by
  induction ms generalizing E s with
  | nil => exact ⟨s, rfl, by simpa using h, le_refl _⟩
  | cons m ms ih =>
    obtain ⟨s1, e1, h1⟩ := evalModel_inv h m (hb m)
    obtain ⟨s2, e2, h2, h3⟩ := ih h1
    refine ⟨s2, ?_, by simpa using h2, h3.trans (evalModel_le e1)⟩
    unfold evalModels
    simp only [e1, e2]

theorem loop_spec {data : List D} {sample : Nat → Option (List Nat)}
    {estimate : List D → Option (List M)} {eval : M → C × List Nat} {sampleSize : Nat}
    {bound : Nat → Outcome Int} {start : Int}
    (hs : ∀ i idx, sample i = some idx → ∀ j ∈ idx, j < data.length)
    (hb : ∀ m, sampleSize ≤ (eval m).2.length → ∃ k, bound (eval m).2.length = .ok k)
    (fuel i : Nat) (s : LoopState M C)
    (h : LoopInv eval sampleSize bound start (modelsUpTo data sample estimate i) s)
    (hfuel : s.maxIterations ≤ i + fuel) :
    ∃ n s', loop data sample estimate sampleSize eval bound fuel i s = .ok (n, s') ∧
      LoopInv eval sampleSize bound start (modelsUpTo data sample estimate n) s' ∧
      s'.maxIterations ≤ n ∧ i ≤ n ∧ ((n : Int) ≤ max (i : Int) s.maxIterations) := by
  induction fuel generalizing i s with
  | zero =>
    refine ⟨i, s, ?_, h, by simpa using hfuel, le_refl _, le_max_left _ _⟩
    unfold loop
    rw [if_neg (by simp at hfuel; omega)]
  | succ fuel ih =>
    unfold loop
    by_cases hlt : (i : Int) < s.maxIterations
    · rw [if_pos hlt]
      have hiter : ∃ s', iteration data sample estimate sampleSize eval bound i s = .ok s' ∧
          LoopInv eval sampleSize bound start (modelsUpTo data sample estimate (i + 1)) s' ∧
          s'.maxIterations ≤ s.maxIterations := by
        have hup : modelsUpTo data sample estimate (i + 1) =
            modelsUpTo data sample estimate i ++ modelsOf data sample estimate i := by
          simp [modelsUpTo, List.range_succ, List.flatMap_append]
        rw [hup]
        unfold iteration
        cases hsm : sample i with
        | none =>
          refine ⟨s, rfl, ?_, le_refl _⟩
          simpa [modelsOf, hsm] using h
        | some idx =>
          have hsub : ∃ ds, idx.mapM (fun j => data[j]?) = some ds := by
            have hidx := hs i idx hsm
            clear hsm
            induction idx with
            | nil => exact ⟨[], rfl⟩
            | cons j idx ihx =>
              obtain ⟨ds, hds⟩ := ihx (fun j' hj' => hidx j' (by simp [hj']))
              have hj := hidx j (by simp)
              exact ⟨data[j] :: ds, by simp [List.mapM_cons, hds, List.getElem?_eq_getElem hj]⟩
          obtain ⟨ds, hds⟩ := hsub
          simp only [subset, hds]
          cases hest : estimate ds with
          | none =>
            refine ⟨s, rfl, ?_, le_refl _⟩
            simpa [modelsOf, hsm, hds, hest] using h
          | some ms =>
            obtain ⟨s1, e1, h1, h2⟩ := evalModels_inv ms hb h
            refine ⟨s1, e1, ?_, h2⟩
            simpa [modelsOf, hsm, hds, hest] using h1
      obtain ⟨s1, e1, h1, h2⟩ := hiter
      simp only [e1]
      obtain ⟨n, s', e, hI, hmax, hin, hle⟩ := ih (i + 1) s1 h1 (by push_cast at hfuel ⊢; omega)
      refine ⟨n, s', e, hI, hmax, by omega, ?_⟩
      push_cast at hle
      omega
    · rw [if_neg hlt]
      exact ⟨i, s, rfl, h, by omega, le_refl _, le_max_left _ _⟩

end Loop

end Ransac
end Theia
