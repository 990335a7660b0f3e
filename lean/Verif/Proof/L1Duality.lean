import Verif.Proof.Farkas
import Mathlib.LinearAlgebra.Matrix.ToLin
import Mathlib.Order.ConditionallyCompleteLattice.Basic
import Mathlib.Algebra.Order.Archimedean.Real.Basic
import Mathlib.Tactic.NormNum

/-!
# Duality for L1 minimisation under linear inequalities

If the constraints can be met, the sum of the absolute residuals attains its minimum, and there is a
dual certificate for it.
-/

namespace Theia.Admm

open Matrix

variable {ι κ : Type} [Fintype ι] [Fintype κ]

/-- The rows outside `L` are constraints. -/
def Feasible (A : Matrix ι κ ℝ) (b : ι → ℝ) (L : ι → Bool) (x : κ → ℝ) : Prop :=
  ∀ i, L i = false → 0 ≤ (A *ᵥ x - b) i

/-- The sum of the absolute residuals of the rows in `L`. -/
def l1Cost (A : Matrix ι κ ℝ) (b : ι → ℝ) (L : ι → Bool) (x : κ → ℝ) : ℝ :=
  ∑ i, if L i then |(A *ᵥ x - b) i| else 0

theorem l1Cost_nonneg (A : Matrix ι κ ℝ) (b : ι → ℝ) (L : ι → Bool) (x : κ → ℝ) :
    0 ≤ l1Cost A b L x :=
  Finset.sum_nonneg fun i _ => by
    cases L i
    · simp
    · simp

/-- The space of the homogenised program: the unknowns, the slacks, the homogenising variable. -/
abbrev Prog (ι κ : Type) := (κ → ℝ) × (ι → ℝ) × ℝ

/-- The homogenised residual. -/
def resForm (A : Matrix ι κ ℝ) (b : ι → ℝ) (i : ι) : Prog ι κ →ₗ[ℝ] ℝ where
  toFun v := (A *ᵥ v.1) i - v.2.2 * b i
  map_add' v w := by
    simp only [Prod.fst_add, Prod.snd_add, mulVec_add, Pi.add_apply]
    ring
  map_smul' c v := by
    simp only [Prod.smul_fst, Prod.smul_snd, mulVec_smul, Pi.smul_apply, smul_eq_mul,
      RingHom.id_apply]
    ring

def slackForm (ι κ : Type) (i : ι) : Prog ι κ →ₗ[ℝ] ℝ where
  toFun v := v.2.1 i
  map_add' _ _ := rfl
  map_smul' _ _ := rfl

def lastForm (ι κ : Type) : Prog ι κ →ₗ[ℝ] ℝ where
  toFun v := v.2.2
  map_add' _ _ := rfl
  map_smul' _ _ := rfl

def costForm (ι κ : Type) [Fintype ι] (L : ι → Bool) : Prog ι κ →ₗ[ℝ] ℝ where
  toFun v := ∑ i, if L i then v.2.1 i else 0
  map_add' v w := by
    rw [← Finset.sum_add_distrib]
    refine Finset.sum_congr rfl fun i _ => ?_
    cases L i <;> simp
  map_smul' c v := by
    rw [RingHom.id_apply, smul_eq_mul, Finset.mul_sum]
    refine Finset.sum_congr rfl fun i _ => ?_
    cases L i <;> simp

/-- The constraints of the program. -/
def conForm (A : Matrix ι κ ℝ) (b : ι → ℝ) (L : ι → Bool) :
    ι ⊕ ι ⊕ Unit → (Prog ι κ →ₗ[ℝ] ℝ)
  | .inl i => if L i then slackForm ι κ i - resForm A b i else resForm A b i
  | .inr (.inl i) => if L i then slackForm ι κ i + resForm A b i else 0
  | .inr (.inr _) => lastForm ι κ

variable {A : Matrix ι κ ℝ} {b : ι → ℝ} {L : ι → Bool}

/-- A point of the cone with positive last variable gives a feasible point. -/
theorem feasible_of_cone {v : Prog ι κ} (hv : ∀ j, 0 ≤ conForm A b L j v) (ht : 0 < v.2.2) :
    Feasible A b L ((v.2.2)⁻¹ • v.1) ∧
      v.2.2 * l1Cost A b L ((v.2.2)⁻¹ • v.1) ≤ costForm ι κ L v := by
  have e : ∀ i, v.2.2 * (A *ᵥ ((v.2.2)⁻¹ • v.1) - b) i = resForm A b i v := by
    intro i
    show v.2.2 * (A *ᵥ ((v.2.2)⁻¹ • v.1) - b) i = (A *ᵥ v.1) i - v.2.2 * b i
    rw [mulVec_smul, Pi.sub_apply, Pi.smul_apply, smul_eq_mul, mul_sub, ← mul_assoc,
      mul_inv_cancel₀ ht.ne', one_mul]
  constructor
  · intro i hi
    have h := hv (.inl i)
    simp only [conForm, hi, Bool.false_eq_true, if_false] at h
    rw [← e i] at h
    exact nonneg_of_mul_nonneg_right h ht
  · show _ ≤ ∑ i, if L i then v.2.1 i else 0
    rw [l1Cost, Finset.mul_sum]
    refine Finset.sum_le_sum fun i _ => ?_
    cases hi : L i
    · simp
    · have h1 := hv (.inl i)
      have h2 := hv (.inr (.inl i))
      simp only [conForm, hi, if_true, LinearMap.sub_apply, LinearMap.add_apply, ← e i] at h1 h2
      have e2 : slackForm ι κ i v = v.2.1 i := rfl
      rw [e2] at h1 h2
      simp only [if_true]
      rw [← abs_of_pos ht, ← abs_mul, abs_of_pos ht]
      rw [abs_le]
      constructor <;> linarith

omit [Fintype ι] in
/-- A feasible point gives a point of the cone. -/
theorem cone_of_feasible {x : κ → ℝ} (hx : Feasible A b L x) :
    ∀ j, 0 ≤ conForm A b L j (x, fun i => |(A *ᵥ x - b) i|, 1) := by
  have e : ∀ i, resForm A b i (x, fun i => |(A *ᵥ x - b) i|, 1) = (A *ᵥ x - b) i := by
    intro i
    show (A *ᵥ x) i - 1 * b i = _
    rw [one_mul, Pi.sub_apply]
  have e2 : ∀ i, slackForm ι κ i (x, fun i => |(A *ᵥ x - b) i|, 1) = |(A *ᵥ x - b) i| :=
    fun _ => rfl
  rintro (i | i | i)
  · cases hi : L i
    · simp only [conForm, hi, Bool.false_eq_true, if_false, e]
      exact hx i hi
    · simp only [conForm, hi, if_true, LinearMap.sub_apply, e, e2]
      linarith [le_abs_self ((A *ᵥ x - b) i)]
  · cases hi : L i
    · simp [conForm, hi]
    · simp only [conForm, hi, if_true, LinearMap.add_apply, e, e2]
      linarith [neg_abs_le ((A *ᵥ x - b) i)]
  · exact zero_le_one

theorem costForm_of_feasible (x : κ → ℝ) :
    costForm ι κ L (x, fun i => |(A *ᵥ x - b) i|, 1) = l1Cost A b L x := rfl

/-- The minimum is attained when the constraints can be met. -/
theorem exists_l1_minimizer (hf : ∃ x, Feasible A b L x) :
    ∃ x, Feasible A b L x ∧ ∀ y, Feasible A b L y → l1Cost A b L x ≤ l1Cost A b L y := by
  let S : Set ℝ := l1Cost A b L '' {x | Feasible A b L x}
  have hne : S.Nonempty := by
    obtain ⟨x, hx⟩ := hf
    exact ⟨_, x, hx, rfl⟩
  have hbd : BddBelow S := ⟨0, by rintro _ ⟨x, -, rfl⟩; exact l1Cost_nonneg A b L x⟩
  have hinf : ∀ y, Feasible A b L y → sInf S ≤ l1Cost A b L y := fun y hy =>
    csInf_le hbd ⟨y, hy, rfl⟩
  by_contra hno
  push Not at hno
  have hgt : ∀ x, Feasible A b L x → sInf S < l1Cost A b L x := by
    intro x hx
    obtain ⟨y, hy, hlt⟩ := hno x hx
    exact (hinf y hy).trans_lt hlt
  -- the program has no point of value at most the infimum
  obtain ⟨l, hl, e⟩ := farkas
    (fun j : Option (ι ⊕ ι ⊕ Unit) => match j with
      | some j => conForm A b L j
      | none => sInf S • lastForm ι κ - costForm ι κ L)
    (-lastForm ι κ) (by
      intro v hv
      by_contra hn
      have ht : 0 < v.2.2 := by
        have : (-lastForm ι κ) v = -v.2.2 := rfl
        rw [this] at hn
        linarith
      obtain ⟨h1, h2⟩ := feasible_of_cone (fun j => hv (some j)) ht
      have h3 := hv none
      have h4 := hgt _ h1
      have h5 : (sInf S • lastForm ι κ - costForm ι κ L) v = sInf S * v.2.2 - costForm ι κ L v := rfl
      simp only [h5] at h3
      have := mul_lt_mul_of_pos_left h4 ht
      linarith)
  have key : ∀ x, Feasible A b L x → 1 ≤ l none * (l1Cost A b L x - sInf S) := by
    intro x hx
    have h := e (x, fun i => |(A *ᵥ x - b) i|, 1)
    rw [Fintype.sum_option] at h
    have h5 : (sInf S • lastForm ι κ - costForm ι κ L) (x, fun i => |(A *ᵥ x - b) i|, 1) =
        sInf S * 1 - l1Cost A b L x := rfl
    have h6 : (-lastForm ι κ) (x, fun i => |(A *ᵥ x - b) i|, 1) = -1 := rfl
    simp only [h5, h6] at h
    have h7 : 0 ≤ ∑ j, l (some j) * conForm A b L j (x, fun i => |(A *ᵥ x - b) i|, 1) :=
      Finset.sum_nonneg fun j _ => mul_nonneg (hl _) (cone_of_feasible hx j)
    nlinarith
  obtain ⟨x0, hx0⟩ := hf
  have hpos : 0 < l none := by
    rcases (hl none).lt_or_eq with h | h
    · exact h
    · have := key x0 hx0
      rw [← h] at this
      linarith
  obtain ⟨_, ⟨x, hx, rfl⟩, hlt⟩ := exists_lt_of_csInf_lt hne
    (show sInf S < sInf S + (l none)⁻¹ / 2 by have := inv_pos.mpr hpos; linarith)
  have h1 := key x hx
  have h2 : l none * (l1Cost A b L x - sInf S) ≤ l none * ((l none)⁻¹ / 2) :=
    mul_le_mul_of_nonneg_left (by linarith) hpos.le
  rw [mul_div_assoc', mul_inv_cancel₀ hpos.ne'] at h2
  linarith

/-- A minimiser has a dual certificate. -/
theorem exists_l1_dual {x : κ → ℝ} (hx : Feasible A b L x)
    (hmin : ∀ y, Feasible A b L y → l1Cost A b L x ≤ l1Cost A b L y) :
    ∃ y : ι → ℝ, Aᵀ *ᵥ y = 0 ∧ ∀ i,
      if L i then |y i| ≤ 1 ∧ y i * (A *ᵥ x - b) i = |(A *ᵥ x - b) i|
      else y i ≤ 0 ∧ y i * (A *ᵥ x - b) i = 0 := by
  classical
  obtain ⟨l, hl, e⟩ := farkas (conForm A b L) (costForm ι κ L - l1Cost A b L x • lastForm ι κ) (by
    intro v hv
    have h5 : (costForm ι κ L - l1Cost A b L x • lastForm ι κ) v =
        costForm ι κ L v - l1Cost A b L x * v.2.2 := rfl
    rw [h5]
    have ht : 0 ≤ v.2.2 := hv (.inr (.inr ()))
    rcases ht.lt_or_eq with ht | ht
    · obtain ⟨h1, h2⟩ := feasible_of_cone hv ht
      have := mul_le_mul_of_nonneg_left (hmin _ h1) ht.le
      linarith
    · rw [← ht, mul_zero, sub_zero]
      refine Finset.sum_nonneg fun i _ => ?_
      cases hi : L i
      · simp
      · have h1 := hv (.inl i)
        have h2 := hv (.inr (.inl i))
        simp only [conForm, hi, if_true, LinearMap.sub_apply, LinearMap.add_apply] at h1 h2
        have e2 : slackForm ι κ i v = v.2.1 i := rfl
        rw [e2] at h1 h2
        simp only [if_true]
        linarith)
  -- the multipliers of the two sides
  have hsum : ∀ v, costForm ι κ L v - l1Cost A b L x * v.2.2 =
      ∑ i, l (.inl i) * conForm A b L (.inl i) v +
        (∑ i, l (.inr (.inl i)) * conForm A b L (.inr (.inl i)) v + l (.inr (.inr ())) * v.2.2) := by
    intro v
    have := e v
    rw [Fintype.sum_sum_type, Fintype.sum_sum_type] at this
    simpa [conForm, lastForm] using this
  refine ⟨fun i => if L i then l (.inl i) - l (.inr (.inl i)) else -l (.inl i), ?_, ?_⟩
  · apply funext
    intro j
    have h := hsum (Pi.single j 1, 0, 0)
    have e1 : costForm ι κ L ((Pi.single j 1, 0, 0) : Prog ι κ) = 0 := by
      show (∑ i, if L i then (0 : ι → ℝ) i else 0) = 0
      simp
    have e2 : ∀ i, resForm A b i ((Pi.single j 1, 0, 0) : Prog ι κ) = A i j := by
      intro i
      show (A *ᵥ Pi.single j 1) i - 0 * b i = _
      simp
    have e3 : ∀ i, slackForm ι κ i ((Pi.single j 1, 0, 0) : Prog ι κ) = 0 := fun _ => rfl
    rw [e1] at h
    simp only [mul_zero, sub_zero, add_zero] at h
    rw [← Finset.sum_add_distrib] at h
    show ∑ i, A i j * _ = 0
    rw [← neg_eq_zero, ← Finset.sum_neg_distrib, h]
    refine Finset.sum_congr rfl fun i _ => ?_
    cases hi : L i
    · simp [conForm, hi, e2, mul_comm]
    · simp only [conForm, hi, if_true, LinearMap.sub_apply, LinearMap.add_apply, e2, e3]
      ring
  · -- complementary slackness
    have h := hsum (x, fun i => |(A *ᵥ x - b) i|, 1)
    rw [costForm_of_feasible, mul_one, sub_self, mul_one] at h
    have hc := cone_of_feasible hx
    have n1 : ∀ i, 0 ≤ l (.inl i) *
        conForm A b L (.inl i) (x, fun i => |(A *ᵥ x - b) i|, 1) := fun i =>
      mul_nonneg (hl _) (hc _)
    have n2 : ∀ i, 0 ≤ l (.inr (.inl i)) *
        conForm A b L (.inr (.inl i)) (x, fun i => |(A *ᵥ x - b) i|, 1) := fun i =>
      mul_nonneg (hl _) (hc _)
    have s1 := Finset.sum_nonneg fun i (_ : i ∈ Finset.univ) => n1 i
    have s2 := Finset.sum_nonneg fun i (_ : i ∈ Finset.univ) => n2 i
    have s3 := hl (.inr (.inr ()))
    have z1 := (Finset.sum_eq_zero_iff_of_nonneg fun i _ => n1 i).mp (by linarith)
    have z2 := (Finset.sum_eq_zero_iff_of_nonneg fun i _ => n2 i).mp (by linarith)
    intro i
    have a1 := z1 i (Finset.mem_univ i)
    have a2 := z2 i (Finset.mem_univ i)
    have e1 : resForm A b i (x, fun i => |(A *ᵥ x - b) i|, 1) = (A *ᵥ x - b) i := by
      show (A *ᵥ x) i - 1 * b i = _
      rw [one_mul, Pi.sub_apply]
    have e2 : slackForm ι κ i (x, fun i => |(A *ᵥ x - b) i|, 1) = |(A *ᵥ x - b) i| := rfl
    cases hi : L i
    · simp only [Bool.false_eq_true, if_false]
      rw [hi]
      simp only [Bool.false_eq_true, if_false]
      simp only [conForm, hi, Bool.false_eq_true, if_false, e1] at a1
      refine ⟨by linarith [hl (.inl i)], ?_⟩
      rw [neg_mul, a1, neg_zero]
    · simp only [if_true]
      rw [hi]
      simp only [if_true]
      simp only [conForm, hi, if_true, LinearMap.sub_apply, LinearMap.add_apply, e1, e2] at a1 a2
      have one : l (.inl i) + l (.inr (.inl i)) = 1 := by
        have h := hsum (0, Pi.single i 1, 0)
        have c1 : costForm ι κ L ((0, Pi.single i 1, 0) : Prog ι κ) = 1 := by
          show (∑ j, if L j then (Pi.single i (1 : ℝ) : ι → ℝ) j else 0) = 1
          rw [Finset.sum_eq_single i]
          · simp [hi]
          · intro j _ hj
            simp [hj]
          · simp
        have c2 : ∀ j, resForm A b j ((0, Pi.single i 1, 0) : Prog ι κ) = 0 := by
          intro j
          show (A *ᵥ 0) j - 0 * b j = 0
          simp
        have c3 : ∀ j, slackForm ι κ j ((0, Pi.single i 1, 0) : Prog ι κ) =
            (Pi.single i (1 : ℝ) : ι → ℝ) j := fun _ => rfl
        rw [c1] at h
        simp only [mul_zero, sub_zero, add_zero] at h
        rw [Finset.sum_eq_single i, Finset.sum_eq_single i] at h
        · simp only [conForm, hi, if_true, LinearMap.sub_apply, LinearMap.add_apply, c2, c3,
            Pi.single_eq_same] at h
          linarith
        · intro j _ hj
          cases hj' : L j <;> simp [conForm, hj', c2, c3, hj]
        · simp
        · intro j _ hj
          cases hj' : L j <;> simp [conForm, hj', c2, c3, hj]
        · simp
      have p1 := hl (.inl i)
      have p2 := hl (.inr (.inl i))
      constructor
      · rw [abs_le]
        constructor <;> linarith
      · linear_combination (-1 : ℝ) * a1 - a2 + |(A *ᵥ x - b) i| * one

end Theia.Admm
