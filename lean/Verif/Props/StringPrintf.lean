import Verif.Model.StringPrintf

/-!
# C114: formatted strings
-/

namespace Theia

open Printf

/-- **C114, partial.** Missing, because the code does not do it: texts of the largest `int` and more characters
(`C114_huge`). A text of any other length, also of more than the 1024 characters of the first buffer, comes back whole,
and appending keeps what was there. -/
theorem C114_whole_partial (dst s : List Char) (h : s.length < 2147483647) :
    stringPrintf (some s) = .ok s ∧ stringAppendV dst (some s) = .ok (dst ++ s) := by
  have main : ∀ dst, stringAppendV dst (some s) = .ok (dst ++ s) := by
    intro dst
    have hle : (s.length : Int) ≤ intMax := by unfold intMax; omega
    have hne : (s.length : Int) ≠ intMax := by unfold intMax; omega
    have hv : ∀ n, vsnprintf n (some s) = ((s.length : Int), s.take (n - 1)) := fun n => by simp only [vsnprintf, if_pos hle]
    have hu : toUnsigned s.length = s.length := by unfold toUnsigned; rw [if_neg (by omega)]
    simp only [stringAppendV, hv, hu]
    by_cases h1 : (s.length : Int) < 1024
    · rw [if_pos h1, if_pos (by omega)]
      have : s.take (1024 - 1) = s := List.take_of_length_le (by omega)
      simp [append, this]
    · rw [if_neg h1, if_neg hne, if_neg (by omega), if_pos (by omega)]
      have e : ((s.length : Int) + 1).toNat - 1 = s.length := by omega
      rw [e, List.take_length]
      simp [append]
  exact ⟨by simpa [stringPrintf] using main [], main dst⟩

/-- **C114.** If the text cannot be made, nothing is appended. -/
theorem C114_error (dst : List Char) : stringAppendV dst none = .ok dst ∧ stringPrintf none = .ok [] :=
  ⟨rfl, rfl⟩

/-- **C114, finding.** A text with as many characters as the largest `int` overflows the computation of the size of the
buffer; of a longer one nothing is returned, without an error. -/
theorem C114_huge (dst s : List Char) :
    (s.length = 2147483647 → stringAppendV dst (some s) = .ub) ∧
    (2147483647 < s.length → stringAppendV dst (some s) = .ok dst) := by
  constructor
  · intro h
    have hle : (s.length : Int) ≤ intMax := by unfold intMax; omega
    have hu : toUnsigned s.length = s.length := by unfold toUnsigned; rw [if_neg (by omega)]
    simp only [stringAppendV, vsnprintf, if_pos hle, hu]
    rw [if_neg (by omega), if_pos (by unfold intMax; omega)]
  · intro h
    have hle : ¬ (s.length : Int) ≤ intMax := by unfold intMax; omega
    simp only [stringAppendV, vsnprintf, if_neg hle]
    rfl

/-- A text of two thousand characters. -/
example : stringPrintf (some (List.replicate 2000 'x')) = .ok (List.replicate 2000 'x') :=
  (C114_whole_partial [] _ (by rw [List.length_replicate]; omega)).1

/-- A text that is too long exists. -/
example : ∃ s : List Char, s.length = 2147483647 := ⟨List.replicate 2147483647 'x', List.length_replicate⟩

end Theia
