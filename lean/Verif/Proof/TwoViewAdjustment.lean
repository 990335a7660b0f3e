import Verif.Spec.TwoViewAdjustment
import Mathlib.Analysis.Real.Pi.Bounds
import Mathlib.Tactic.LinearCombination

/-!
# Lemmas on adjusting two views
-/

namespace Theia
namespace TwoViewAdjustment

open Spec AngleAxis

section Solver

variable {X D : Type} {plus : X → D → X} {cost : X → Option ℝ}

/-- Whatever the steps are, the point reached has a cost that is no larger, and shares every property that steps keep. -/
theorem descend_spec (P : X → Prop) (hP : ∀ x d, P x → P (plus x d)) :
    ∀ (ds : List D) (x : X) (c : ℝ), cost x = some c → P x →
      P (descend plus cost x c ds) ∧ ∃ c', cost (descend plus cost x c ds) = some c' ∧ c' ≤ c
  | [], x, c, hc, hx => ⟨hx, c, hc, le_refl c⟩
  | d :: ds, x, c, hc, hx => by
    rw [descend]
    cases h : cost (plus x d) with
    | none => exact descend_spec P hP ds x c hc hx
    | some c' =>
      simp only
      by_cases hlt : c' < c
      · rw [if_pos hlt]
        obtain ⟨h1, c'', h2, h3⟩ := descend_spec P hP ds (plus x d) c' h (hP x d hx)
        exact ⟨h1, c'', h2, h3.trans hlt.le⟩
      · rw [if_neg hlt]
        exact descend_spec P hP ds x c hc hx

theorem solve_spec (P : X → Prop) (hP : ∀ x d, P x → P (plus x d)) (x : X) (hx : P x) (ds : List D) :
    P (solve plus cost x ds).1 ∧ ((solve plus cost x ds).2 = false ↔ cost x = none) ∧
      (cost x = none → (solve plus cost x ds).1 = x) ∧
      ∀ c, cost x = some c → ∃ c', cost (solve plus cost x ds).1 = some c' ∧ c' ≤ c := by
  unfold solve
  cases h : cost x with
  | none => exact ⟨hx, by simp, fun _ => rfl, fun c hc => (by cases hc)⟩
  | some c =>
    obtain ⟨h1, h2⟩ := descend_spec P hP ds x c h hx
    refine ⟨h1, by simp, fun h => (by cases h), fun c' hc' => ?_⟩
    cases hc'
    exact h2

theorem solve_one {x : X} {d : D} {c c' : ℝ} (h : cost x = some c) (h' : cost (plus x d) = some c') (hlt : c' < c) :
    solve plus cost x [d] = (plus x d, true) := by
  unfold solve
  rw [h]
  simp only [descend]
  rw [h']
  simp only [if_pos hlt]

end Solver

/-! ### The parameter blocks -/

theorem problem_extrinsics1 (k1 k2 : Bool) (c1 c2 : Camera) : problem k1 k2 c1 c2 .extrinsics1 = some ⟨true, false⟩ := by
  cases k1 <;> cases k2 <;> simp [problem, addCamera, addBlock, addSubset, setConstant]

theorem problem_extrinsics2 (k1 k2 : Bool) (c1 c2 : Camera) : problem k1 k2 c1 c2 .extrinsics2 = some ⟨false, false⟩ := by
  cases k1 <;> cases k2 <;> simp [problem, addCamera, addBlock, addSubset, setConstant]

/-- The intrinsics of a camera may move if no camera with them should keep them, and then only the first of them. -/
theorem problem_intrinsics (k1 k2 : Bool) (c1 c2 : Camera) (a : Nat) (i : Nat) (x d : ℝ) :
    move (problem k1 k2 c1 c2 (.intrinsics a)) i x d =
      if i = 0 ∧ (a = c1.intrinsics ∨ a = c2.intrinsics) ∧ (a = c1.intrinsics → k1 = false) ∧ (a = c2.intrinsics → k2 = false)
      then x + d else x := by
  by_cases h1 : a = c1.intrinsics <;> by_cases h2 : a = c2.intrinsics <;>
    cases k1 <;> cases k2 <;> rcases i with _ | i <;>
    simp [problem, addCamera, addBlock, addSubset, setConstant, move, h1, h2] <;> simp_all

theorem mayBecome_refl (k1 k2 : Bool) (c1 c2 : Camera) (v : Values) : MayBecome k1 k2 c1 c2 v v :=
  ⟨rfl, rfl, fun _ _ _ => rfl, fun _ h => absurd rfl h⟩

theorem plus_length (p : Problem) (v : Values) (d : Step) : (plus p v d).points.length = v.points.length := by
  simp [plus]

theorem mayBecome_plus {k1 k2 : Bool} {c1 c2 : Camera} {v w : Values} (d : Step) (h : MayBecome k1 k2 c1 c2 v w) :
    MayBecome k1 k2 c1 c2 v (plus (problem k1 k2 c1 c2) w d) := by
  refine ⟨?_, ?_, ?_, ?_⟩
  · rw [← h.pose1]
    funext i
    simp [plus, problem_extrinsics1, move]
  · rw [plus_length, h.points]
  · intro a i hi
    simp only [plus, problem_intrinsics]
    rw [if_neg fun h' => hi h'.1]
    exact h.other a i hi
  · intro a ha
    simp only [plus, problem_intrinsics] at ha
    split at ha
    · rename_i h'
      exact h'.2
    · exact h.focal a ha

/-- The step from one set of values to another. -/
noncomputable def stepTo (v w : Values) : Step :=
  ⟨fun i => w.extrinsics1 i - v.extrinsics1 i, fun i => w.extrinsics2 i - v.extrinsics2 i,
    fun a i => w.intrinsics a i - v.intrinsics a i, List.zipWith (fun y x => fun i => y i - x i) w.points v.points⟩

theorem plus_stepTo {k1 k2 : Bool} {c1 c2 : Camera} {v w : Values} (h : MayBecome k1 k2 c1 c2 v w) :
    plus (problem k1 k2 c1 c2) v (stepTo v w) = w := by
  have hp : ∀ xs ys : List (Fin 4 → ℝ), ys.length = xs.length → ∀ n,
      List.zipWith (fun x d => fun i => x i + d i) xs
        (List.zipWith (fun y x => fun i => y i - x i) ys xs ++ List.replicate n fun _ => (0 : ℝ)) = ys := by
    intro xs
    induction xs with
    | nil => intro ys h n; rw [List.length_eq_zero_iff.1 h]; rfl
    | cons x xs ih =>
      intro ys h n
      obtain _ | ⟨y, ys⟩ := ys
      · simp at h
      · simp only [List.zipWith_cons_cons, List.cons_append]
        rw [ih ys (by simpa using h) n]
        simp
  obtain ⟨e1, e2, heap, pts⟩ := w
  unfold plus stepTo
  congr 1
  · rw [← h.pose1]
    funext i
    simp [problem_extrinsics1, move]
  · funext i
    simp [problem_extrinsics2, move]
  · funext a i
    rw [problem_intrinsics]
    by_cases hi : i = 0
    · subst hi
      by_cases hne : heap a 0 = v.intrinsics a 0
      · split
        · ring
        · exact hne.symm
      · rw [if_pos ⟨rfl, h.focal a hne⟩]
        ring
    · rw [if_neg fun h' => hi h'.1]
      exact (h.other a i hi).symm
  · exact hp _ _ h.points _

theorem pairsCost_iff (err : Reprojection) (c1 c2 : Camera) (v : Values) :
    ∀ (cs : List ((ℝ × ℝ) × (ℝ × ℝ))) (xs : List (Fin 4 → ℝ)), xs.length = cs.length → ∀ s,
      pairsCost err c1 c2 v cs xs = some s ↔ TotalError err c1 c2 v cs xs s
  | [], [], _, s => by
    constructor
    · intro h
      simp only [pairsCost, Option.some.injEq] at h
      subst h
      exact .nil
    · rintro ⟨⟩
      rfl
  | [], _ :: _, h, _ => by simp at h
  | _ :: _, [], h, _ => by simp at h
  | (f1, f2) :: cs, x :: xs, h, s => by
    have ih := pairsCost_iff err c1 c2 v cs xs (by simpa using h)
    constructor
    · intro hs
      simp only [pairsCost, pairCost, Option.bind_eq_bind, Option.bind_eq_some_iff, Option.pure_def, Option.some.injEq] at hs
      obtain ⟨a, ⟨e1, h1, e2, h2, rfl⟩, b, hb, rfl⟩ := hs
      exact .cons h1 h2 ((ih b).1 hb)
    · rintro (_ | ⟨h1, h2, h'⟩)
      simp only [pairsCost, pairCost, Option.bind_eq_bind, Option.bind_eq_some_iff, Option.pure_def, Option.some.injEq]
      exact ⟨_, ⟨_, h1, _, h2, rfl⟩, _, (ih _).2 h', rfl⟩

/-! ### The angular error -/

theorem unitPlus_unit (x d : V3 ℝ) : (unitPlus x d).dot (unitPlus x d) = 1 ∨ unitPlus x d = V3.zero := by
  unfold unitPlus
  simp only
  by_cases h : 0 < (x.add d).dot (x.add d)
  · rw [if_pos h]
    exact Or.inl (unit_axis h)
  · rw [if_neg h]
    right
    exact eq_zero_of_dot (le_antisymm (not_lt.1 h) (dot_self_nonneg _))

/-- The part of `f` across the unit vector `t`, squared. -/
noncomputable def across (t f : V3 ℝ) : ℝ := f.dot f - t.dot f * t.dot f

/-- With an orthonormal basis `n`, `t × n` of the plane across `t`. -/
theorem basis {t n : V3 ℝ} (ht : t.dot t = 1) (hn : n.dot n = 1) (h : n.dot t = 0) (f g : V3 ℝ) :
    across t f = n.dot f ^ 2 + (t.cross n).dot f ^ 2 ∧
      t.dot (f.cross g) = n.dot f * (t.cross n).dot g - (t.cross n).dot f * n.dot g := by
  constructor
  · have gram : (t.cross n).dot f ^ 2 = t.dot t * n.dot n * f.dot f + 2 * n.dot t * n.dot f * t.dot f - t.dot t * n.dot f ^ 2 -
        n.dot n * t.dot f ^ 2 - f.dot f * n.dot t ^ 2 := by
      simp only [V3.dot, V3.cross]; ring
    rw [gram, ht, hn, h, across]; ring
  · have h1 : n.dot f * (t.cross n).dot g - (t.cross n).dot f * n.dot g = n.dot n * t.dot (f.cross g) - n.dot t * n.dot (f.cross g) := by
      simp only [V3.dot, V3.cross]; ring
    rw [h1, hn, h]; ring

/-- The least eigenvalue of a two by two matrix, as a minimum over the planes. -/
theorem leastPlaneError {t : V3 ℝ} (ht : t.dot t = 1) (f g : V3 ℝ) :
    0 ≤ (across t f + across t g) * (across t f + across t g) / 4 - t.dot (f.cross g) * t.dot (f.cross g) ∧
      LeastPlaneError t f g ((across t f + across t g) / 2 -
        Real.sqrt ((across t f + across t g) * (across t f + across t g) / 4 - t.dot (f.cross g) * t.dot (f.cross g))) := by
  have disc : ∀ p q r s : ℝ, 0 ≤ (p ^ 2 + r ^ 2 + (q ^ 2 + s ^ 2)) * (p ^ 2 + r ^ 2 + (q ^ 2 + s ^ 2)) / 4 -
      (p * s - r * q) * (p * s - r * q) := by
    intro p q r s
    nlinarith [sq_nonneg (p ^ 2 + q ^ 2 - r ^ 2 - s ^ 2), sq_nonneg (p * r + q * s)]
  obtain ⟨n0, hn0, h0⟩ := exists_orthogonal t
  have h0' : n0.dot t = 0 := by rw [← h0]; simp only [V3.dot]; ring
  obtain ⟨b1, b3⟩ := basis ht hn0 h0' f g
  obtain ⟨b2, -⟩ := basis ht hn0 h0' g g
  have hd : 0 ≤ (across t f + across t g) * (across t f + across t g) / 4 - t.dot (f.cross g) * t.dot (f.cross g) := by
    rw [b1, b2, b3]
    exact disc _ _ _ _
  refine ⟨hd, ?_, ?_⟩
  · have hsq := Real.mul_self_sqrt hd
    generalize Real.sqrt _ = root at hsq
    rw [b1, b2, b3] at hsq
    rw [b1, b2]
    have hm : (t.cross n0).dot (t.cross n0) = 1 := by
      have : (t.cross n0).dot (t.cross n0) = t.dot t * n0.dot n0 - n0.dot t * n0.dot t := by
        simp only [V3.dot, V3.cross]; ring
      rw [this, ht, hn0, h0']; ring
    have hnm : n0.dot (t.cross n0) = 0 := by simp only [V3.dot, V3.cross]; ring
    have hmt : (t.cross n0).dot t = 0 := by simp only [V3.dot, V3.cross]; ring
    generalize t.cross n0 = m at *
    generalize hp : n0.dot f = p at *
    generalize hq : n0.dot g = q at *
    generalize hr : m.dot f = r at *
    generalize hs : m.dot g = s at *
    generalize hl : (p ^ 2 + r ^ 2 + (q ^ 2 + s ^ 2)) / 2 - root = l
    have hroot : root = (p ^ 2 + r ^ 2 + (q ^ 2 + s ^ 2)) / 2 - l := by linarith
    rw [hroot] at hsq
    have hchar : (p ^ 2 + q ^ 2 - l) * (r ^ 2 + s ^ 2 - l) = (p * r + q * s) ^ 2 := by
      linear_combination hsq
    have hcomb : ∀ x y : ℝ, x ^ 2 + y ^ 2 = 1 →
        (p ^ 2 + q ^ 2) * x ^ 2 + 2 * (p * r + q * s) * x * y + (r ^ 2 + s ^ 2) * y ^ 2 = l →
        ∃ n : V3 ℝ, n.dot n = 1 ∧ n.dot t = 0 ∧ rayDistances n f g = l := by
      intro x y hxy hval
      refine ⟨(n0.smul x).add (m.smul y), ?_, ?_, ?_⟩
      · have : ((n0.smul x).add (m.smul y)).dot ((n0.smul x).add (m.smul y)) =
            x ^ 2 * n0.dot n0 + 2 * x * y * n0.dot m + y ^ 2 * m.dot m := by
          simp only [V3.dot, V3.add, V3.smul]; ring
        rw [this, hn0, hm, hnm]; linarith
      · have : ((n0.smul x).add (m.smul y)).dot t = x * n0.dot t + y * m.dot t := by
          simp only [V3.dot, V3.add, V3.smul]; ring
        rw [this, h0', hmt]; ring
      · have e : ∀ v : V3 ℝ, ((n0.smul x).add (m.smul y)).dot v = x * n0.dot v + y * m.dot v := by
          intro v
          simp only [V3.dot, V3.add, V3.smul]; ring
        unfold rayDistances
        rw [e, e, hp, hq, hr, hs, ← hval]
        ring
    by_cases hz : (p * r + q * s) ^ 2 + (p ^ 2 + q ^ 2 - l) ^ 2 = 0
    · have hA : p ^ 2 + q ^ 2 - l = 0 := by nlinarith [sq_nonneg (p * r + q * s), sq_nonneg (p ^ 2 + q ^ 2 - l)]
      exact hcomb 1 0 (by ring) (by linarith)
    · have hpos : 0 < (p * r + q * s) ^ 2 + (p ^ 2 + q ^ 2 - l) ^ 2 :=
        lt_of_le_of_ne (by positivity) (Ne.symm hz)
      have hw := Real.sq_sqrt hpos.le
      have hw0 := (Real.sqrt_pos.2 hpos).ne'
      generalize Real.sqrt ((p * r + q * s) ^ 2 + (p ^ 2 + q ^ 2 - l) ^ 2) = w at hw hw0
      refine hcomb (-(p * r + q * s) / w) ((p ^ 2 + q ^ 2 - l) / w) ?_ ?_
      · field_simp
        linarith
      · field_simp
        rw [hw]
        linear_combination (p ^ 2 + q ^ 2 - l) * hchar
  · intro n hn h
    obtain ⟨c1, c3⟩ := basis ht hn h f g
    obtain ⟨c2, -⟩ := basis ht hn h g g
    rw [c1, c2, c3]
    unfold rayDistances
    generalize n.dot f = p
    generalize n.dot g = q
    generalize (t.cross n).dot f = r
    generalize (t.cross n).dot g = s
    by_cases hle : (p ^ 2 + r ^ 2 + (q ^ 2 + s ^ 2)) / 2 ≤ p ^ 2 + q ^ 2
    · linarith [Real.sqrt_nonneg ((p ^ 2 + r ^ 2 + (q ^ 2 + s ^ 2)) * (p ^ 2 + r ^ 2 + (q ^ 2 + s ^ 2)) / 4 -
        (p * s - r * q) * (p * s - r * q))]
    · have : (p ^ 2 + r ^ 2 + (q ^ 2 + s ^ 2)) / 2 - (p ^ 2 + q ^ 2) ≤
          Real.sqrt ((p ^ 2 + r ^ 2 + (q ^ 2 + s ^ 2)) * (p ^ 2 + r ^ 2 + (q ^ 2 + s ^ 2)) / 4 -
            (p * s - r * q) * (p * s - r * q)) := by
        apply Real.le_sqrt_of_sq_le
        have e : (p ^ 2 + r ^ 2 + (q ^ 2 + s ^ 2)) * (p ^ 2 + r ^ 2 + (q ^ 2 + s ^ 2)) / 4 - (p * s - r * q) * (p * s - r * q) -
            ((p ^ 2 + r ^ 2 + (q ^ 2 + s ^ 2)) / 2 - (p ^ 2 + q ^ 2)) ^ 2 = (p * r + q * s) ^ 2 := by ring
        linarith [sq_nonneg (p * r + q * s)]
      linarith

/-- The error that the code computes, with the mixed product of the second feature spelt out. -/
theorem angularError_eq (feature1 feature2 : ℝ × ℝ) (rotation t : V3 ℝ) :
    angularError feature1 feature2 rotation t =
      (let f1 : V3 ℝ := ⟨feature1.1, feature1.2, 1⟩
       let u := (toM rotation).mulVec ⟨feature2.1, feature2.2, 1⟩
       let v := (toM rotation).transpose.mulVec ⟨feature2.1, feature2.2, 1⟩
       let a := across t f1 + (u.dot v - t.dot u * t.dot v)
       let s := a * a / 4 - t.dot (f1.cross v) * t.dot (f1.cross v)
       if s < 0 then none else some (a / 2 - Real.sqrt s)) := by
  unfold angularError
  simp only
  generalize (toM rotation).mulVec ⟨feature2.1, feature2.2, 1⟩ = u
  generalize (toM rotation).transpose.mulVec ⟨feature2.1, feature2.2, 1⟩ = v
  generalize (⟨feature1.1, feature1.2, 1⟩ : V3 ℝ) = f1
  have h : ∀ x y : V3 ℝ, x.dot ((⟨⟨1 - t.x * t.x, 0 - t.x * t.y, 0 - t.x * t.z⟩, ⟨0 - t.y * t.x, 1 - t.y * t.y, 0 - t.y * t.z⟩,
      ⟨0 - t.z * t.x, 0 - t.z * t.y, 1 - t.z * t.z⟩⟩ : M3 ℝ).mulVec y) = x.dot y - t.dot x * t.dot y := by
    intro x y
    simp only [V3.dot, M3.mulVec]; ring
  rw [h, h]
  rfl

/-- The same, from the two numbers. -/
theorem angularError_of {feature1 feature2 : ℝ × ℝ} {rotation t : V3 ℝ} {R : M3 ℝ} {a b : ℝ} (hR : toM rotation = R)
    (ha : across t ⟨feature1.1, feature1.2, 1⟩ + ((R.mulVec ⟨feature2.1, feature2.2, 1⟩).dot (R.transpose.mulVec ⟨feature2.1, feature2.2, 1⟩) -
      t.dot (R.mulVec ⟨feature2.1, feature2.2, 1⟩) * t.dot (R.transpose.mulVec ⟨feature2.1, feature2.2, 1⟩)) = a)
    (hb : t.dot ((⟨feature1.1, feature1.2, 1⟩ : V3 ℝ).cross (R.transpose.mulVec ⟨feature2.1, feature2.2, 1⟩)) = b) :
    angularError feature1 feature2 rotation t =
      if a * a / 4 - b * b < 0 then none else some (a / 2 - Real.sqrt (a * a / 4 - b * b)) := by
  subst hR ha hb
  exact angularError_eq _ _ _ _

/-- A turn about the third axis. -/
theorem toM_z (a : ℝ) (h : 0 < a) : toM ⟨0, 0, a⟩ = ⟨⟨Real.cos a, -Real.sin a, 0⟩, ⟨Real.sin a, Real.cos a, 0⟩, ⟨0, 0, 1⟩⟩ := by
  unfold toM
  have h1 : (⟨0, 0, a⟩ : V3 ℝ).dot ⟨0, 0, a⟩ = a * a := by simp [V3.dot]
  rw [h1, Real.sqrt_mul_self h.le]
  simp only [rodriguesMatrix, V3.smul]
  rw [inv_mul_cancel₀ h.ne']
  simp

theorem toM_quarter : toM ⟨0, 0, Real.pi / 2⟩ = ⟨⟨0, -1, 0⟩, ⟨1, 0, 0⟩, ⟨0, 0, 1⟩⟩ := by
  rw [toM_z _ (by positivity), Real.cos_pi_div_two, Real.sin_pi_div_two]

end TwoViewAdjustment
end Theia
