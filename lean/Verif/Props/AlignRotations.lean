import Verif.Model.AlignRotations
import Verif.Spec.AlignRotations
import Verif.Proof.PairwiseErrors
import Mathlib.Analysis.Real.Pi.Bounds

/-!
# C97: aligning one set of orientations with another
-/

namespace Theia
namespace AlignRotations

open Spec AngleAxis

variable {ofM : M3 ℝ → V3 ℝ} {solve : (V3 ℝ → ℝ) → V3 ℝ} {gts rs out : List (V3 ℝ)}

theorem aligned_toM (hlog : IsLog ofM) (w r : V3 ℝ) : toM (aligned ofM w r) = (toM r).mul (toM w) :=
  (hlog _ ((isRotation_toM r).mul (isRotation_toM w))).1

theorem cost_eq (w : V3 ℝ) : ∀ gts rs : List (V3 ℝ), cost ofM gts rs w = vectorsApart gts (rs.map (aligned ofM w))
  | [], rs => by cases rs <;> simp [cost, vectorsApart]
  | g :: gts, [] => by simp [cost, vectorsApart]
  | g :: gts, r :: rs => by
    have := cost_eq w gts rs
    simp only [cost] at this
    simp only [cost, List.zipWith_cons_cons, List.sum_cons, List.map_cons, vectorsApart, this]
    rfl

theorem vectorsApart_nonneg : ∀ as bs : List (V3 ℝ), 0 ≤ vectorsApart as bs
  | [], bs => by cases bs <;> simp [vectorsApart]
  | a :: as, [] => by simp [vectorsApart]
  | a :: as, b :: bs => by
    unfold vectorsApart
    exact add_nonneg (dot_self_nonneg _) (vectorsApart_nonneg as bs)

theorem vectorsApart_self : ∀ as : List (V3 ℝ), vectorsApart as as = 0
  | [] => rfl
  | a :: as => by
    unfold vectorsApart
    rw [vectorsApart_self as]
    simp [V3.sub, V3.dot]

theorem eq_of_apart : ∀ as bs : List (V3 ℝ), as.length = bs.length → vectorsApart as bs = 0 → as = bs
  | [], [], _, _ => rfl
  | [], b :: bs, h, _ => by simp at h
  | a :: as, [], h, _ => by simp at h
  | a :: as, b :: bs, h, h0 => by
    unfold vectorsApart at h0
    have h1 := dot_self_nonneg (a.sub b)
    have h2 := vectorsApart_nonneg as bs
    rw [eq_of_apart as bs (by simpa using h) (by linarith)]
    have := eq_zero_of_dot (show (a.sub b).dot (a.sub b) = 0 by linarith)
    simp only [V3.sub, V3.zero, V3.mk.injEq] at this
    have hab : a = b := V3.ext (by linarith [this.1]) (by linarith [this.2.1]) (by linarith [this.2.2])
    rw [hab]

theorem turned (hlog : IsLog ofM) (w : V3 ℝ) : ∀ rs : List (V3 ℝ), TurnedBy (toM w) rs (rs.map (aligned ofM w))
  | [] => List.Forall₂.nil
  | r :: rs => List.Forall₂.cons (aligned_toM hlog w r) (turned hlog w rs)

/-- C97: the call aborts exactly if the numbers of orientations differ. Otherwise all orientations are turned by one and the same
rotation of the world, whatever the solver does, and the vectors written are at most π long. -/
theorem C97_result (hlog : IsLog ofM) (solve : (V3 ℝ → ℝ) → V3 ℝ) (gts rs : List (V3 ℝ)) :
    (alignRotations ofM solve gts rs = .abort ↔ gts.length ≠ rs.length) ∧
    (gts.length = rs.length → ∃ out S, alignRotations ofM solve gts rs = .ok out ∧ S.IsRotation ∧ TurnedBy S rs out ∧
      ∀ v ∈ out, v.dot v ≤ Real.pi * Real.pi) := by
  unfold alignRotations
  by_cases h : gts.length = rs.length
  · rw [if_neg (not_not.2 h)]
    refine ⟨⟨fun h' => (by cases h'), fun h' => absurd h h'⟩, fun _ => ?_⟩
    refine ⟨_, _, rfl, isRotation_toM (solve (cost ofM gts rs)), turned hlog _ rs, ?_⟩
    intro v hv
    obtain ⟨r, -, rfl⟩ := List.mem_map.1 hv
    exact (hlog _ ((isRotation_toM r).mul (isRotation_toM _))).2
  · rw [if_pos h]
    exact ⟨⟨fun _ => h, fun _ => rfl⟩, fun h' => absurd h' h⟩

/-- C97: the relative rotation of any two orientations is the same before and after. -/
theorem C97_relative (hlog : IsLog ofM) (h : alignRotations ofM solve gts rs = .ok out) :
    out.length = rs.length ∧ ∀ i j (hi : i < rs.length) (hj : j < rs.length) (hi' : i < out.length) (hj' : j < out.length),
      (toM out[i]).mul (toM out[j]).transpose = (toM rs[i]).mul (toM rs[j]).transpose := by
  have hlen : gts.length = rs.length := by
    by_contra hne
    rw [((C97_result hlog solve gts rs).1).2 hne] at h
    cases h
  obtain ⟨out', S, h', hS, ht, -⟩ := (C97_result hlog solve gts rs).2 hlen
  rw [h] at h'
  cases h'
  have hl := ht.length_eq
  refine ⟨hl.symm, fun i j hi hj hi' hj' => ?_⟩
  have hall := List.forall₂_iff_get.1 ht
  have h1 := hall.2 i hi hi'
  have h2 := hall.2 j hj hj'
  simp only [List.get_eq_getElem] at h1 h2
  rw [h1, h2]
  apply M3_ext_mulVec
  intro p
  rw [M3.mulVec_mul, M3.mulVec_mul, M3.mulVec_mul]
  congr 1
  have hj2 : ((toM rs[j]).mul S).transpose.mulVec p = S.transpose.mulVec ((toM rs[j]).transpose.mulVec p) := by
    apply V3.ext <;> simp only [M3.transpose, M3.mul, M3.mulVec, V3.dot] <;> ring
  rw [hj2, hS.mulVec_transpose]

/-- C97: if the solver does not end above the cost at which it starts, the vectors written are no further from the given ones than
before, in the sum of squares. -/
theorem C97_no_worse (hs : NoWorse solve) (hc : ∀ r ∈ rs, CanonicalVector ofM r)
    (h : alignRotations ofM solve gts rs = .ok out) : vectorsApart gts out ≤ vectorsApart gts rs := by
  unfold alignRotations at h
  split at h
  · cases h
  · cases h
    have := hs (cost ofM gts rs)
    rw [cost_eq, cost_eq] at this
    refine this.trans (le_of_eq ?_)
    congr 1
    conv_rhs => rw [← List.map_id rs]
    refine List.map_congr_left fun r hr => ?_
    rw [aligned, toM_zero, M3.mul_one]
    exact hc r hr

/-- C97: if the solver reaches the minimum, no other turn of the orientations gets closer. -/
theorem C97_best (hlog : IsLog ofM) (hs : ∀ w, cost ofM gts rs (solve (cost ofM gts rs)) ≤ cost ofM gts rs w)
    (h : alignRotations ofM solve gts rs = .ok out) {S : M3 ℝ} (hS : S.IsRotation) {other : List (V3 ℝ)} (ho : TurnedBy S rs other)
    (hc : ∀ r ∈ other, CanonicalVector ofM r) : vectorsApart gts out ≤ vectorsApart gts other := by
  unfold alignRotations at h
  split at h
  · cases h
  · cases h
    have hother : other = rs.map (aligned ofM (ofM S)) := by
      clear hs
      rename_i hlen
      clear hlen
      unfold TurnedBy at ho
      induction ho with
      | nil => rfl
      | cons h1 _ ih =>
        rw [List.map_cons, ih fun r hr => hc r (List.mem_cons_of_mem _ hr)]
        refine congrArg₂ List.cons ?_ rfl
        rw [aligned, (hlog S hS).1, ← h1]
        exact (hc _ List.mem_cons_self).symm
    rw [hother, ← cost_eq, ← cost_eq]
    exact hs _

/-- C97: if the given orientations differ from the others only by a turn of the world, and the solver reaches the minimum, exactly the
given orientations are written. -/
theorem C97_recovers_partial (hlog : IsLog ofM) (hs : ∀ w, cost ofM gts rs (solve (cost ofM gts rs)) ≤ cost ofM gts rs w)
    {S : M3 ℝ} (hS : S.IsRotation) (ht : TurnedBy S rs gts) (hc : ∀ g ∈ gts, CanonicalVector ofM g) :
    alignRotations ofM solve gts rs = .ok gts := by
  obtain ⟨out, S', h, -, ht', -⟩ := (C97_result hlog solve gts rs).2 ht.length_eq.symm
  have h1 := C97_best hlog hs h hS ht hc
  rw [vectorsApart_self] at h1
  have h2 := vectorsApart_nonneg gts out
  rw [h, ← eq_of_apart gts out (ht.length_eq.symm.trans ht'.length_eq) (by linarith)]

theorem toM_x (a : ℝ) (h : 0 ≤ a) : toM ⟨a, 0, 0⟩ = ⟨⟨1, 0, 0⟩, ⟨0, Real.cos a, -Real.sin a⟩, ⟨0, Real.sin a, Real.cos a⟩⟩ := by
  rcases eq_or_lt_of_le h with rfl | h
  · have : (⟨0, 0, 0⟩ : V3 ℝ) = V3.zero := rfl
    rw [this, toM_zero]
    simp [M3.one]
  · unfold toM
    have h1 : (⟨a, 0, 0⟩ : V3 ℝ).dot ⟨a, 0, 0⟩ = a * a := by simp [V3.dot]
    rw [h1, Real.sqrt_mul_self h.le]
    simp only [rodriguesMatrix, V3.smul]
    rw [inv_mul_cancel₀ h.ne']
    simp

/-- The vector for a turn of one radian about the first axis. -/
theorem log_x (hlog : IsLog ofM) : ofM (toM ⟨1, 0, 0⟩) = ⟨1, 0, 0⟩ := by
  have h1 := (hlog _ (isRotation_toM ⟨1, 0, 0⟩)).1
  have hang := hlog.angle (isRotation_toM ⟨1, 0, 0⟩)
  have hd : (⟨1, 0, 0⟩ : V3 ℝ).dot ⟨1, 0, 0⟩ = 1 := by simp [V3.dot]
  rw [angle_toM (by rw [hd]; nlinarith [Real.pi_gt_three]), hd, Real.sqrt_one] at hang
  generalize ofM (toM ⟨1, 0, 0⟩) = v at *
  rw [toM_x 1 zero_le_one] at h1
  unfold toM at h1
  rw [hang] at h1
  simp only [rodriguesMatrix, inv_one, V3.smul, one_mul, M3.mk.injEq, V3.mk.injEq] at h1
  obtain ⟨⟨-, a1, a2⟩, ⟨a3, -, a4⟩, ⟨a5, a6, -⟩⟩ := h1
  have hsin : 0 < Real.sin 1 := Real.sin_pos_of_pos_of_lt_pi one_pos (by linarith [Real.pi_gt_three])
  apply V3.ext
  · have : (v.x - 1) * Real.sin 1 = 0 := by linarith
    rcases mul_eq_zero.1 this with h | h
    · show v.x = 1; linarith
    · exact absurd h hsin.ne'
  · have : v.y * Real.sin 1 = 0 := by linarith
    exact (mul_eq_zero.1 this).resolve_right hsin.ne'
  · have : v.z * Real.sin 1 = 0 := by linarith
    exact (mul_eq_zero.1 this).resolve_right hsin.ne'

/-- C97: two orientations that are aligned already are turned apart, if the given one is written with an angle above π. The solver
minimises the difference of the vectors, and any step that makes it smaller leads away from the right rotation. -/
theorem C97_turned_away_counterexample (hlog : IsLog ofM) : ∃ gt r : V3 ℝ, toM gt = toM r ∧ CanonicalVector ofM r ∧
    (∃ w, cost ofM [gt] [r] w < cost ofM [gt] [r] V3.zero) ∧
    ∀ solve, cost ofM [gt] [r] (solve (cost ofM [gt] [r])) < cost ofM [gt] [r] V3.zero →
      ∃ out, alignRotations ofM solve [gt] [r] = .ok [out] ∧ toM out ≠ toM gt := by
  have hz : ofM (toM V3.zero) = V3.zero := by
    rw [toM_zero]
    exact (PairwiseErrors.isLog_zero hlog M3.IsRotation.one).2 rfl
  have h2pi : toM ⟨2 * Real.pi, 0, 0⟩ = toM V3.zero := by
    rw [toM_x _ (by linarith [Real.pi_pos]), toM_zero, Real.cos_two_pi, Real.sin_two_pi]
    simp [M3.one]
  refine ⟨⟨2 * Real.pi, 0, 0⟩, V3.zero, h2pi, hz, ?_, ?_⟩
  · refine ⟨⟨1, 0, 0⟩, ?_⟩
    simp only [cost_eq, List.map_cons, List.map_nil, vectorsApart, aligned, toM_zero, M3.one_mul]
    rw [log_x hlog, ← toM_zero, hz]
    simp only [V3.sub, V3.dot, V3.zero]
    nlinarith [Real.pi_gt_three]
  · intro solve h
    refine ⟨aligned ofM (solve (cost ofM [⟨2 * Real.pi, 0, 0⟩] [V3.zero])) V3.zero, by simp [alignRotations], fun heq => ?_⟩
    generalize solve (cost ofM [⟨2 * Real.pi, 0, 0⟩] [V3.zero]) = w at h heq
    rw [aligned_toM hlog, h2pi, toM_zero, M3.one_mul] at heq
    apply lt_irrefl (cost ofM [⟨2 * Real.pi, 0, 0⟩] [V3.zero] V3.zero)
    have : cost ofM [⟨2 * Real.pi, 0, 0⟩] [V3.zero] w = cost ofM [⟨2 * Real.pi, 0, 0⟩] [V3.zero] V3.zero := by
      simp only [cost_eq, List.map_cons, List.map_nil, vectorsApart, aligned, heq, toM_zero]
    rw [this] at h
    exact h

/-- The hypotheses can be met: two orientations a radian from the given ones, and a solver that reaches the minimum. -/
example : ∃ (ofM : M3 ℝ → V3 ℝ) (solve : (V3 ℝ → ℝ) → V3 ℝ) (gts rs : List (V3 ℝ)), IsLog ofM ∧ NoWorse solve ∧ gts ≠ rs ∧
    alignRotations ofM solve gts rs = .ok gts := by
  classical
  obtain ⟨ofM, hlog⟩ := exists_isLog
  have hz : ofM (toM V3.zero) = V3.zero := by
    rw [toM_zero]
    exact (PairwiseErrors.isLog_zero hlog M3.IsRotation.one).2 rfl
  have key : ∀ f : V3 ℝ → ℝ, ∃ w, f w ≤ f V3.zero ∧ ((∃ m, ∀ v, f m ≤ f v) → ∀ v, f w ≤ f v) := by
    intro f
    by_cases h : ∃ m, ∀ v, f m ≤ f v
    · obtain ⟨m, hm⟩ := h
      exact ⟨m, hm _, fun _ => hm⟩
    · exact ⟨V3.zero, le_refl _, fun h' => absurd h' h⟩
  choose solve h1 h2 using key
  have ht : TurnedBy (toM ⟨1, 0, 0⟩) [V3.zero, V3.zero] [⟨1, 0, 0⟩, ⟨1, 0, 0⟩] := by
    have : toM ⟨1, 0, 0⟩ = (toM V3.zero).mul (toM ⟨1, 0, 0⟩) := by rw [toM_zero, M3.one_mul]
    exact List.Forall₂.cons this (List.Forall₂.cons this List.Forall₂.nil)
  refine ⟨ofM, solve, [⟨1, 0, 0⟩, ⟨1, 0, 0⟩], [V3.zero, V3.zero], hlog, h1, ?_, ?_⟩
  · simp [V3.zero]
  · refine C97_recovers_partial hlog (h2 _ ⟨⟨1, 0, 0⟩, fun v => ?_⟩) (isRotation_toM _) ht ?_
    · rw [cost_eq, cost_eq]
      refine le_trans (le_of_eq ?_) (vectorsApart_nonneg _ _)
      simp only [List.map_cons, List.map_nil, aligned, toM_zero, M3.one_mul, log_x hlog, vectorsApart_self]
    · intro g hg
      simp at hg
      subst hg
      exact log_x hlog

end AlignRotations
end Theia
