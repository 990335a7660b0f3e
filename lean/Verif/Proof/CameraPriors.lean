import Mathlib.Algebra.Field.Rat
import Mathlib.Algebra.Order.Ring.Rat
import Mathlib.Tactic.Linarith
import Verif.Spec.CameraPriors

/-!
# Helper lemmas on camera priors: every setter as an update of a named parameter
-/

namespace Theia
namespace CameraPriors

open Spec

section
variable {K : Type} [Field K] [LinearOrder K]

theorem focal_step (t : ModelType) (ht : t ≠ .invalid) (factor : K) (p : IntrinsicsPrior K) (l : Lens K) :
    setFocalFromPrior factor p ⟨t, layout t l⟩ =
      if (p.focal.isSet = true ∧ p.focal.value ≤ 0) ∨
        (p.focal.isSet = false ∧ SizeKnown p ∧ factor * (max p.width p.height : Int) ≤ 0) then .abort
      else .ok ⟨t, layout t { l with
        focal := if p.focal.isSet then p.focal.value else if SizeKnown p then factor * (max p.width p.height : Int)
          else l.focal }⟩ := by
  have hset : ∀ x : K, setParameter (focalIndex t) x ⟨t, layout t l⟩ = .ok ⟨t, layout t { l with focal := x }⟩ := by
    intro x
    cases t
    · exact absurd rfl ht
    all_goals rfl
  unfold setFocalFromPrior setFocalLength
  simp only [hset]
  by_cases hfs : p.focal.isSet = true
  · by_cases hp : p.focal.value > 0
    · simp only [hfs, if_true, if_pos hp]
      rw [if_neg]
      rintro (⟨_, h1⟩ | ⟨h1, _⟩)
      · exact absurd hp (not_lt.2 h1)
      · cases h1
    · simp only [hfs, if_true, if_neg hp]
      rw [if_pos (Or.inl ⟨trivial, not_lt.1 hp⟩)]
  · have hff : p.focal.isSet = false := by simpa using hfs
    by_cases hs : SizeKnown p
    · have hs' : p.width ≠ 0 ∧ p.height ≠ 0 := hs
      by_cases hp : factor * ((max p.width p.height : Int) : K) > 0
      · simp only [hff, Bool.false_eq_true, if_false, if_pos hs, if_pos hs', if_pos hp]
        rw [if_neg]
        rintro (⟨h1, _⟩ | ⟨_, _, h3⟩)
        · exact h1
        · exact absurd hp (not_lt.2 h3)
      · simp only [hff, Bool.false_eq_true, if_false, if_pos hs', if_neg hp]
        rw [if_pos (Or.inr ⟨trivial, hs, not_lt.1 hp⟩)]
    · have hs' : ¬ (p.width ≠ 0 ∧ p.height ≠ 0) := hs
      simp only [hff, Bool.false_eq_true, if_false, if_neg hs, if_neg hs']
      rw [if_neg]
      rintro (⟨h1, _⟩ | ⟨_, h2, _⟩)
      · exact h1
      · exact hs h2

omit [LinearOrder K] in
theorem principal_step (t : ModelType) (ht : t ≠ .invalid) (p : IntrinsicsPrior K) (l : Lens K) :
    setPrincipalFromPrior p ⟨t, layout t l⟩ = .ok ⟨t, layout t { l with
        px := if p.principal.isSet then p.principal.value.1 else if SizeKnown p then p.width / 2 else l.px
        py := if p.principal.isSet then p.principal.value.2 else if SizeKnown p then p.height / 2 else l.py }⟩ := by
  have hset : ∀ x y : K, setPrincipalPoint x y ⟨t, layout t l⟩ = .ok ⟨t, layout t { l with px := x, py := y }⟩ := by
    intro x y
    cases t
    · exact absurd rfl ht
    all_goals rfl
  unfold setPrincipalFromPrior
  simp only [hset]
  by_cases hfs : p.principal.isSet = true
  · simp only [hfs, if_true]
  · by_cases hs : SizeKnown p
    · have hs' : p.width ≠ 0 ∧ p.height ≠ 0 := hs
      simp only [hfs, if_pos hs, if_pos hs']
      rfl
    · have hs' : ¬ (p.width ≠ 0 ∧ p.height ≠ 0) := hs
      simp only [hfs, if_neg hs, if_neg hs']
      rfl

omit [Field K] [LinearOrder K] in
theorem aspect_step (t : ModelType) (ht : t ≠ .invalid) (b : Bool) (x : K) (l : Lens K) :
    setIf b (aspectIndex t) x ⟨t, layout t l⟩ = .ok ⟨t, layout t { l with aspect := if b then x else l.aspect }⟩ := by
  cases t <;> first
    | (cases b <;> rfl)
    | simp at ht

omit [Field K] [LinearOrder K] in
theorem skew_step (t : ModelType) (ht : t = .pinhole ∨ t = .pinholeRadialTangential ∨ t = .fisheye) (b : Bool) (x : K) (l : Lens K) :
    setIf b (skewIndex t) x ⟨t, layout t l⟩ = .ok ⟨t, layout t { l with skew := if b then x else l.skew }⟩ := by
  cases t <;> first
    | (cases b <;> rfl)
    | simp at ht

omit [Field K] [LinearOrder K] in
theorem radial1_step (t : ModelType) (ht : t = .pinhole ∨ t = .pinholeRadialTangential ∨ t = .fisheye) (b : Bool) (x : K) (l : Lens K) :
    setIf b (radialIndex t 1) x ⟨t, layout t l⟩ = .ok ⟨t, layout t { l with r1 := if b then x else l.r1 }⟩ := by
  cases t <;> first
    | (cases b <;> rfl)
    | simp at ht

omit [Field K] [LinearOrder K] in
theorem radial2_step (t : ModelType) (ht : t = .pinhole ∨ t = .pinholeRadialTangential ∨ t = .fisheye) (b : Bool) (x : K) (l : Lens K) :
    setIf b (radialIndex t 2) x ⟨t, layout t l⟩ = .ok ⟨t, layout t { l with r2 := if b then x else l.r2 }⟩ := by
  cases t <;> first
    | (cases b <;> rfl)
    | simp at ht

omit [Field K] [LinearOrder K] in
theorem radial3_step (t : ModelType) (ht : t = .pinholeRadialTangential ∨ t = .fisheye) (b : Bool) (x : K) (l : Lens K) :
    setIf b (radialIndex t 3) x ⟨t, layout t l⟩ = .ok ⟨t, layout t { l with r3 := if b then x else l.r3 }⟩ := by
  cases t <;> first
    | (cases b <;> rfl)
    | simp at ht

omit [Field K] [LinearOrder K] in
theorem radial4_step (t : ModelType) (ht : t = .fisheye) (b : Bool) (x : K) (l : Lens K) :
    setIf b (radialIndex t 4) x ⟨t, layout t l⟩ = .ok ⟨t, layout t { l with r4 := if b then x else l.r4 }⟩ := by
  cases t <;> first
    | (cases b <;> rfl)
    | simp at ht

omit [Field K] [LinearOrder K] in
theorem tangential1_step (t : ModelType) (ht : t = .pinholeRadialTangential) (b : Bool) (x : K) (l : Lens K) :
    setIf b (tangentialIndex 1) x ⟨t, layout t l⟩ = .ok ⟨t, layout t { l with t1 := if b then x else l.t1 }⟩ := by
  cases t <;> first
    | (cases b <;> rfl)
    | simp at ht

omit [Field K] [LinearOrder K] in
theorem tangential2_step (t : ModelType) (ht : t = .pinholeRadialTangential) (b : Bool) (x : K) (l : Lens K) :
    setIf b (tangentialIndex 2) x ⟨t, layout t l⟩ = .ok ⟨t, layout t { l with t2 := if b then x else l.t2 }⟩ := by
  cases t <;> first
    | (cases b <;> rfl)
    | simp at ht

end

theorem pushUnless_eq (mask k : Nat) (is : List Nat) :
    pushUnless mask (2 ^ k) is = if mask.testBit k then [] else is := by
  unfold pushUnless
  cases hb : mask.testBit k
  · rw [if_pos, if_neg (by simp)]
    apply Nat.eq_of_testBit_eq
    intro i
    rw [Nat.testBit_and, Nat.testBit_two_pow, Nat.zero_testBit]
    by_cases hi : k = i
    · subst hi
      simp [hb]
    · simp [hi]
  · rw [if_neg, if_pos rfl]
    intro h
    have h2 : (mask &&& 2 ^ k).testBit k = false := by rw [h, Nat.zero_testBit]
    rw [Nat.testBit_and, Nat.testBit_two_pow, hb] at h2
    simp at h2

/-- The constant parameters as a function of the six bits. -/
def subsetBits (t : ModelType) (b0 b1 b2 b3 b4 b5 : Bool) : List Nat :=
  match t with
  | .pinhole =>
    (if b0 then [] else [0]) ++ (if b1 then [] else [1]) ++ (if b2 then [] else [2]) ++ (if b3 then [] else [3, 4]) ++
      (if b4 then [] else [5, 6])
  | .pinholeRadialTangential =>
    (if b0 then [] else [0]) ++ (if b1 then [] else [1]) ++ (if b2 then [] else [2]) ++ (if b3 then [] else [3, 4]) ++
      (if b4 then [] else [5, 6, 7]) ++ (if b5 then [] else [8, 9])
  | .fisheye =>
    (if b0 then [] else [0]) ++ (if b1 then [] else [1]) ++ (if b2 then [] else [2]) ++ (if b3 then [] else [3, 4]) ++
      (if b4 then [] else [5, 6, 7, 8])
  | .fov =>
    (if b0 then [] else [0]) ++ (if b1 then [] else [1]) ++ (if b3 then [] else [2, 3]) ++ (if b4 then [] else [4])
  | .division =>
    (if b0 then [] else [0]) ++ (if b1 then [] else [1]) ++ (if b3 then [] else [2, 3]) ++ (if b4 then [] else [4])
  | .invalid => []

theorem constantSubset_eq (t : ModelType) (mask : Nat) :
    constantSubset t mask = subsetBits t (mask.testBit 0) (mask.testBit 1) (mask.testBit 2) (mask.testBit 3)
      (mask.testBit 4) (mask.testBit 5) := by
  unfold constantSubset
  by_cases hm : mask = maskAll
  · subst hm
    cases t <;> decide
  · rw [if_neg hm]
    have h0 : ∀ is, pushUnless mask 1 is = _ := pushUnless_eq mask 0
    have h1 : ∀ is, pushUnless mask 2 is = _ := pushUnless_eq mask 1
    have h2 : ∀ is, pushUnless mask 4 is = _ := pushUnless_eq mask 2
    have h3 : ∀ is, pushUnless mask 8 is = _ := pushUnless_eq mask 3
    have h4 : ∀ is, pushUnless mask 16 is = _ := pushUnless_eq mask 4
    have h5 : ∀ is, pushUnless mask 32 is = _ := pushUnless_eq mask 5
    cases t <;> simp only [h0, h1, h2, h3, h4, h5] <;> rfl

/-- The bit of a kind among six bits. -/
def bitOf (b0 b1 b2 b3 b4 b5 : Bool) : Kind → Bool
  | .focal => b0
  | .aspect => b1
  | .skew => b2
  | .principal => b3
  | .radial => b4
  | .tangential => b5

theorem subsetBits_nodup (t : ModelType) : ∀ b0 b1 b2 b3 b4 b5, (subsetBits t b0 b1 b2 b3 b4 b5).Nodup := by
  cases t <;> decide +kernel

theorem subsetBits_lt (t : ModelType) :
    ∀ b0 b1 b2 b3 b4 b5, ∀ i ∈ subsetBits t b0 b1 b2 b3 b4 b5, i < 10 := by
  cases t <;> decide +kernel

theorem subsetBits_mem (t : ModelType) : ∀ b0 b1 b2 b3 b4 b5, ∀ i < 10,
    (i ∈ subsetBits t b0 b1 b2 b3 b4 b5 ↔ (kinds t)[i]?.map (bitOf b0 b1 b2 b3 b4 b5) = some false) := by
  cases t <;> decide +kernel

end CameraPriors
end Theia
