import Mathlib.Analysis.SpecialFunctions.Log.Basic
import Mathlib.Analysis.SpecialFunctions.Trigonometric.Arctan
import Mathlib.Topology.Order.Basic
import Mathlib.Analysis.SpecialFunctions.Trigonometric.Bounds
import Mathlib.Tactic.Linarith
import Mathlib.Tactic.FieldSimp
import Verif.Proof.CameraModels
import Verif.Proof.CameraLenses
import Verif.Model.ReprojectionError
import Verif.Spec.ReprojectionError

/-!
# Lemmas about the reprojection error
-/

namespace Theia
namespace ReprojectionError

open CameraModels CameraPriors AngleAxis Spec

/-! ### The five models -/

theorem divisionScale_eq {eps k r2 : ℝ} {m s : ℝ} (heps : eps ≤ 1 / 10 ^ 10) (hr : 0 ≤ r2) (hm : m = r2 * s ^ 2) (hs : s = 1 + k * m)
    (h1 : |k * m| ≤ 1) (hbig : 1 / 10 ^ 10 ≤ |k * r2|) : divisionScale eps k r2 = s := by
  have hk : k * r2 ≠ 0 := by
    intro h
    rw [h, abs_zero] at hbig
    norm_num at hbig
  have hq : k * r2 * s ^ 2 = s - 1 := by
    have e : k * r2 * s ^ 2 = k * m := by rw [hm]; ring
    linarith
  have hs2 : s ≤ 2 := by rw [hs]; linarith [(abs_le.1 h1).2]
  have hs0 : 0 ≤ s := by rw [hs]; linarith [(abs_le.1 h1).1]
  have hs1 : s ≠ 0 := by
    intro h
    rw [h] at hq
    norm_num at hq
  have hsp : 0 < s := lt_of_le_of_ne hs0 (Ne.symm hs1)
  have hd : 1 - 4 * (k * r2) = ((2 - s) / s) ^ 2 := by
    field_simp
    nlinarith
  unfold divisionScale
  rw [if_neg]
  · have e : (1 : ℝ) - 4 * k * r2 = ((2 - s) / s) ^ 2 := by rw [← hd]; ring
    rw [e, Real.sqrt_sq (div_nonneg (by linarith) hs0)]
    have h2 : 2 * k * r2 ≠ 0 := by
      have : 2 * k * r2 = 2 * (k * r2) := by ring
      rw [this]
      exact mul_ne_zero two_ne_zero hk
    rw [div_eq_iff h2]
    field_simp
    nlinarith
  · rintro (h | h)
    · have e : |2 * k * r2| = 2 * |k * r2| := by
        rw [show 2 * k * r2 = 2 * (k * r2) by ring, abs_mul, abs_of_pos (by norm_num : (0 : ℝ) < 2)]
      rw [e] at h
      linarith
    · have e : (1 : ℝ) - 4 * k * r2 = ((2 - s) / s) ^ 2 := by rw [← hd]; ring
      rw [e] at h
      exact absurd h (not_lt.2 (sq_nonneg _))

theorem cameraToPixel_eq {eps : ℝ} (heps : eps ≤ 1 / 10 ^ 10) {t : ModelType} {ps : List ℝ} {q : V3 ℝ} {p : ℝ × ℝ} (h : ImagedAt t ps q p) :
    cameraToPixel eps t ps q = .ok p := by
  cases h with
  | pinhole f a s px py k1 k2 x y r2 dx dy Z hZ hr hx hy =>
    unfold cameraToPixel calibration skew
    simp only [param, focalIndex, aspectIndex, skewIndex, principalXIndex, principalYIndex, radialIndex, List.getElem?_cons_zero,
      List.getElem?_cons_succ, Outcome.ok_bind]
    unfold pinholeToPixel
    rw [normalized_ok hZ, Outcome.ok_bind]
    simp only [mul_div_cancel_right₀ _ hZ]
    subst hx hy hr
    unfold Calibration.apply pinholeDistort radialFactor
    refine congrArg Outcome.ok (Prod.ext ?_ ?_) <;> simp only <;> ring
  | radialTangential f a s px py k1 k2 k3 t1 t2 x y r2 dx dy Z hZ hr hx hy =>
    unfold cameraToPixel calibration skew
    simp only [param, focalIndex, aspectIndex, skewIndex, principalXIndex, principalYIndex, radialIndex, tangentialIndex,
      List.getElem?_cons_zero, List.getElem?_cons_succ, Outcome.ok_bind]
    unfold rtToPixel
    rw [normalized_ok hZ, Outcome.ok_bind]
    simp only [mul_div_cancel_right₀ _ hZ]
    subst hx hy hr
    unfold Calibration.apply rtDistort RadialTangential.factor RadialTangential.tangential
    refine congrArg Outcome.ok (Prod.ext ?_ ?_) <;> simp only <;> ring
  | fisheye f a s px py k1 k2 k3 k4 X Y Z r theta d hr hr2 hfar hZ h0 h1 ht hd =>
    unfold cameraToPixel calibration skew
    simp only [param, focalIndex, aspectIndex, skewIndex, principalXIndex, principalYIndex, radialIndex,
      List.getElem?_cons_zero, List.getElem?_cons_succ, Outcome.ok_bind]
    unfold fisheyeToPixel fisheyeDistort
    have e1 : X * X + Y * Y = r ^ 2 := by rw [hr2]; ring
    have e2 : Real.sqrt (r ^ 2) = r := Real.sqrt_sq hr.le
    have e3 : atan2 r |Z| = theta := by
      unfold atan2
      rw [abs_of_pos hZ, if_neg hZ.ne', ← ht, mul_div_cancel_right₀ _ hZ.ne']
      exact Real.arctan_tan (by linarith [Real.pi_pos]) h1
    simp only [e1, e2, e3]
    rw [if_neg (not_lt.2 hfar), if_neg (not_lt.2 hZ.le)]
    unfold Calibration.apply Fisheye.angle
    subst hd
    refine congrArg Outcome.ok (Prod.ext ?_ ?_) <;> simp only <;> ring
  | fov f a px py omega x y r d Z hZ ho hr hr2 hfar h0 h1 hd =>
    unfold cameraToPixel calibration skew
    simp only [param, focalIndex, aspectIndex, principalXIndex, principalYIndex, radialIndex,
      List.getElem?_cons_zero, List.getElem?_cons_succ, Outcome.ok_bind]
    unfold fovToPixel
    rw [normalized_ok hZ, Outcome.ok_bind]
    simp only [mul_div_cancel_right₀ _ hZ]
    have e1 : x * x + y * y = r ^ 2 := by rw [hr2]; ring
    have e2 : Real.sqrt (r ^ 2) = r := Real.sqrt_sq hr.le
    have ho' : omega ≠ 0 := by
      intro h
      rw [h] at ho
      norm_num at ho
    have e3 : fovDistortFactor omega (r ^ 2) = d / r := by
      unfold fovDistortFactor
      rw [if_neg (not_lt.2 ho), if_neg (not_lt.2 hfar), e2, ← hd, Real.arctan_tan h0 h1]
      field_simp
    unfold fovDistort Calibration.apply
    simp only [e1, e3]
    refine congrArg Outcome.ok (Prod.ext ?_ ?_) <;> simp only <;> ring
  | division f a px py k u v x y Z hZ hx hy h1 hbig =>
    unfold cameraToPixel calibration skew
    simp only [param, focalIndex, aspectIndex, principalXIndex, principalYIndex, radialIndex,
      List.getElem?_cons_zero, List.getElem?_cons_succ, Outcome.ok_bind]
    unfold divisionToPixel
    rw [normalized_ok hZ, Outcome.ok_bind]
    simp only [mul_div_cancel_right₀ _ hZ]
    have e : divisionScale eps k (f * x * (f * x) + f * a * y * (f * a * y)) = 1 + k * (u ^ 2 + v ^ 2) := by
      refine divisionScale_eq (m := u ^ 2 + v ^ 2) heps (add_nonneg (mul_self_nonneg _) (mul_self_nonneg _)) ?_ rfl h1 ?_
      · have a1 := congrArg (· ^ 2) hx
        have a2 := congrArg (· ^ 2) hy
        linear_combination -a1 - a2
      · rw [show f * x * (f * x) + f * a * y * (f * a * y) = (f * x) ^ 2 + (f * a * y) ^ 2 by ring]
        exact hbig
    unfold divisionDistort
    simp only [e]
    refine congrArg Outcome.ok (Prod.ext ?_ ?_)
    · simp only [hx]
    · simp only [hy]

/-! ### Scale -/

theorem normalized_smul_any (q : V3 ℝ) {s : ℝ} (hs : s ≠ 0) : normalized (q.smul s) = normalized q := by
  by_cases h : q.z = 0
  · have h' : (q.smul s).z = 0 := by simp [V3.smul, h]
    unfold normalized divide
    rw [if_pos h', if_pos h]
    rfl
  · exact normalized_smul h hs

theorem cameraToPixel_smul (eps : ℝ) {t : ModelType} (ht : t ≠ .fisheye) (ps : List ℝ) (q : V3 ℝ) {s : ℝ} (hs : s ≠ 0) :
    cameraToPixel eps t ps (q.smul s) = cameraToPixel eps t ps q := by
  have h := normalized_smul_any q hs
  cases t with
  | fisheye => exact absurd rfl ht
  | invalid => rfl
  | pinhole => simp only [cameraToPixel, pinholeToPixel, h]
  | pinholeRadialTangential => simp only [cameraToPixel, rtToPixel, h]
  | fov => simp only [cameraToPixel, fovToPixel, h]
  | division => simp only [cameraToPixel, divisionToPixel, h]

theorem rotate_exact {eps : ℝ} (heps : 0 ≤ eps) {w : V3 ℝ} (h : w = V3.zero ∨ eps < w.dot w) (p : V3 ℝ) :
    rotate eps w p = (toM w).mulVec p := by
  rcases h with rfl | h
  · rw [(rotation_facts heps (Or.inl rfl)).2.1, toM_zero]
    have h0 : ¬eps < (V3.zero : V3 ℝ).dot V3.zero := by simp [V3.dot, V3.zero, heps]
    unfold toMatrix
    rw [if_neg h0]
    simp [M3.one, V3.zero]
  · exact rotate_eq_toM h p

theorem residual_far {eps : ℝ} {t : ModelType} {feature : ℝ × ℝ} {pose : Pose} {ps : List ℝ} {x : V3 ℝ} {w : ℝ}
    (h : ¬NearCentre pose.position x w) :
    residual eps t feature pose ps x w =
      (cameraToPixel eps t ps (rotate eps pose.orientation (x.sub (pose.position.smul w)))).bind
        fun pixel => .ok (some (pixel.1 - feature.1, pixel.2 - feature.2)) := by
  unfold residual
  exact if_neg h

theorem residual_near {eps : ℝ} {t : ModelType} {feature : ℝ × ℝ} {pose : Pose} {ps : List ℝ} {x : V3 ℝ} {w : ℝ}
    (h : NearCentre pose.position x w) : residual eps t feature pose ps x w = .ok none := by
  unfold residual
  exact if_pos h

theorem cameraToPixel_ne_abort (eps : ℝ) {t : ModelType} (ht : t ≠ .invalid) (ps : List ℝ) (q : V3 ℝ) :
    cameraToPixel eps t ps q ≠ .abort := by
  have hp : ∀ i, param ps i ≠ .abort := by
    intro i
    unfold param
    split <;> simp
  have hb : ∀ {α β : Type} (a : Outcome α) (f : α → Outcome β), a ≠ .abort → (∀ x, f x ≠ .abort) → a.bind f ≠ .abort := by
    intro α β a f ha hf
    cases a with
    | ok x => exact hf x
    | abort => exact absurd rfl ha
    | ub => simp [Outcome.bind]
  have hd : ∀ a b, divide a b ≠ .abort := by
    intro a b
    unfold divide
    split <;> simp
  have hn : normalized q ≠ .abort := hb _ _ (hd _ _) fun _ => hb _ _ (hd _ _) fun _ => by simp
  have hs : skew t ps ≠ .abort := by
    unfold skew
    split <;> simp [hp]
  have hc : calibration t ps ≠ .abort :=
    hb _ _ (hp _) fun _ => hb _ _ (hp _) fun _ => hb _ _ hs fun _ => hb _ _ (hp _) fun _ => hb _ _ (hp _) fun _ => by simp
  cases t with
  | invalid => exact absurd rfl ht
  | pinhole => exact hb _ _ hc fun _ => hb _ _ (hp _) fun _ => hb _ _ (hp _) fun _ => hb _ _ hn fun _ => by simp
  | pinholeRadialTangential =>
    exact hb _ _ hc fun _ => hb _ _ (hp _) fun _ => hb _ _ (hp _) fun _ => hb _ _ (hp _) fun _ => hb _ _ (hp _) fun _ =>
      hb _ _ (hp _) fun _ => hb _ _ hn fun _ => by simp
  | fisheye =>
    exact hb _ _ hc fun _ => hb _ _ (hp _) fun _ => hb _ _ (hp _) fun _ => hb _ _ (hp _) fun _ => hb _ _ (hp _) fun _ => by
      simp [fisheyeToPixel]
  | fov => exact hb _ _ hc fun _ => hb _ _ (hp _) fun _ => hb _ _ hn fun _ => by simp
  | division => exact hb _ _ hc fun _ => hb _ _ (hp _) fun _ => hb _ _ hn fun _ => by simp

/-! ### Losses -/

theorem huber_robust {a : ℝ} (ha : 0 < a) : RobustLoss (loss a .huber) := by
  have hsq : ∀ s, 0 ≤ s → a * a < s → a < Real.sqrt s := by
    intro s _ h
    exact Real.lt_sqrt_of_sq_lt (by rw [sq]; exact h)
  refine ⟨?_, ?_, ?_, ?_, ?_⟩
  · simp only [loss]
    rw [if_neg (by nlinarith)]
  · intro s hs
    simp only [loss]
    split
    · rename_i h
      nlinarith [hsq s hs.le h]
    · exact hs
  · intro s s' h0 h
    have h0' := h0.trans h
    simp only [loss]
    split
    · rename_i h1
      rw [if_pos (lt_of_lt_of_le h1 h)]
      have := Real.sqrt_le_sqrt h
      nlinarith
    · rename_i h1
      split
      · rename_i h2
        have := hsq s' h0' h2
        nlinarith
      · exact h
  · intro s h0
    simp only [loss]
    split
    · have := Real.mul_self_sqrt h0
      nlinarith [mul_self_nonneg (Real.sqrt s - a)]
    · exact le_refl _
  · have hc : Continuous (loss a .huber) := by
      have e : loss a .huber = fun s => if s ≤ a * a then s else 2 * a * Real.sqrt s - a * a := by
        funext s
        by_cases h : s ≤ a * a
        · simp [loss, h, not_lt.2 h]
        · simp [loss, h, not_le.1 h]
      rw [e]
      refine Continuous.if_le continuous_id (by fun_prop) continuous_id continuous_const ?_
      intro s hs
      rw [hs, Real.sqrt_mul_self ha.le]
      ring
    exact hc.continuousOn

theorem softLOne_robust {a : ℝ} (ha : 0 < a) : RobustLoss (loss a .softLOne) := by
  have hb : 0 < a * a := mul_pos ha ha
  have hi : 0 < 1 / (a * a) := one_div_pos.2 hb
  refine ⟨?_, ?_, ?_, ?_, ?_⟩
  · simp [loss]
  · intro s hs
    have : 1 < Real.sqrt (1 + s * (1 / (a * a))) := Real.lt_sqrt_of_sq_lt (by nlinarith [mul_pos hs hi])
    simp only [loss]
    nlinarith
  · intro s s' h0 h
    have : Real.sqrt (1 + s * (1 / (a * a))) ≤ Real.sqrt (1 + s' * (1 / (a * a))) :=
      Real.sqrt_le_sqrt (by nlinarith)
    simp only [loss]
    nlinarith
  · intro s h0
    have h1 : Real.sqrt (1 + s * (1 / (a * a))) ≤ 1 + s * (1 / (a * a)) / 2 := by
      rw [Real.sqrt_le_left (by positivity)]
      nlinarith [mul_self_nonneg (s * (1 / (a * a)))]
    have h2 : a * a * (s * (1 / (a * a))) = s := by field_simp
    simp only [loss]
    nlinarith
  · have hc : Continuous (loss a .softLOne) := by
      show Continuous fun s => _
      simp only [loss]
      fun_prop
    exact hc.continuousOn

theorem cauchy_robust {a : ℝ} (ha : 0 < a) : RobustLoss (loss a .cauchy) := by
  have hb : 0 < a * a := mul_pos ha ha
  have hi : 0 < 1 / (a * a) := one_div_pos.2 hb
  refine ⟨?_, ?_, ?_, ?_, ?_⟩
  · simp [loss]
  · intro s hs
    exact mul_pos hb (Real.log_pos (by nlinarith [mul_pos hs hi]))
  · intro s s' h0 h
    refine mul_le_mul_of_nonneg_left (Real.log_le_log (by positivity) ?_) hb.le
    nlinarith
  · intro s h0
    have h1 := Real.log_le_sub_one_of_pos (show 0 < 1 + s * (1 / (a * a)) by positivity)
    have h2 : a * a * (s * (1 / (a * a))) = s := by field_simp
    simp only [loss]
    nlinarith
  · intro s h0
    have h0 : 0 ≤ s := h0
    have hc : ContinuousAt (loss a .cauchy) s := by
      show ContinuousAt (fun s => _) s
      simp only [loss]
      exact continuousAt_const.mul (ContinuousAt.log (by fun_prop) (by positivity))
    exact hc.continuousWithinAt

theorem arctan_robust {a : ℝ} (ha : 0 < a) : RobustLoss (loss a .arctan) := by
  refine ⟨?_, ?_, ?_, ?_, ?_⟩
  · simp [loss]
  · intro s hs
    exact mul_pos ha (Real.arctan_pos.2 (div_pos hs ha))
  · intro s s' h0 h
    exact mul_le_mul_of_nonneg_left (Real.arctan_strictMono.monotone (div_le_div_of_nonneg_right h ha.le)) ha.le
  · intro s h0
    have h1 : Real.arctan (s / a) ≤ s / a := by
      rcases h0.eq_or_lt with h | h
      · rw [← h]; simp
      · have hp := Real.arctan_pos.2 (div_pos h ha)
        have := Real.lt_tan hp (Real.arctan_lt_pi_div_two _)
        rw [Real.tan_arctan] at this
        exact this.le
    have h2 : a * (s / a) = s := by field_simp
    simp only [loss]
    nlinarith
  · have hc : Continuous (loss a .arctan) := by
      show Continuous fun s => _
      simp only [loss]
      exact continuous_const.mul (Real.continuous_arctan.comp (by fun_prop))
    exact hc.continuousOn

theorem tukey_robust {a : ℝ} (ha : 0 < a) : RobustLoss (loss a .tukey) := by
  have hb : 0 < a * a := mul_pos ha ha
  have key : ∀ s, 0 ≤ s → s ≤ a * a → 0 ≤ s / (a * a) ∧ s / (a * a) ≤ 1 := fun s h0 h =>
    ⟨div_nonneg h0 hb.le, (div_le_one hb).2 h⟩
  refine ⟨?_, ?_, ?_, ?_, ?_⟩
  · simp only [loss]
    rw [if_pos hb.le]
    simp
  · intro s hs
    simp only [loss]
    split
    · rename_i h
      have k := key s hs.le h
      have k1 : 0 < s / (a * a) := div_pos hs hb
      refine mul_pos (by positivity) ?_
      have : (1 - s / (a * a)) ^ 3 < 1 := pow_lt_one₀ (by linarith) (by linarith) (by norm_num)
      linarith
    · positivity
  · intro s s' h0 h
    simp only [loss]
    split
    · rename_i h1
      have k := key s h0 h1
      split
      · rename_i h2
        have k' := key s' (h0.trans h) h2
        have hd : s / (a * a) ≤ s' / (a * a) := div_le_div_of_nonneg_right h hb.le
        have : (1 - s' / (a * a)) ^ 3 ≤ (1 - s / (a * a)) ^ 3 := pow_le_pow_left₀ (by linarith) (by linarith) 3
        nlinarith
      · have : 0 ≤ (1 - s / (a * a)) ^ 3 := pow_nonneg (by linarith) 3
        nlinarith
    · rename_i h1
      rw [if_neg (fun h2 => h1 (h.trans h2))]
  · intro s h0
    have h2 : a * a * (s / (a * a)) = s := by field_simp
    simp only [loss]
    split
    · rename_i h1
      have k := key s h0 h1
      have e : 1 - (1 - s / (a * a)) ^ 3 ≤ 3 * (s / (a * a)) := by nlinarith [mul_nonneg k.1 k.1, mul_nonneg (mul_nonneg k.1 k.1) k.1]
      nlinarith
    · rename_i h1
      nlinarith
  · have hc : Continuous (loss a .tukey) := by
      show Continuous fun s => _
      simp only [loss]
      refine Continuous.if_le (by fun_prop) continuous_const continuous_id continuous_const ?_
      intro s hs
      rw [hs, div_self hb.ne']
      ring
    exact hc.continuousOn

/-! ### The cost -/

theorem evaluate_ok {eps : ℝ} {rho : ℝ → ℝ} {v : Values} {f : BA.Residual (ℝ × ℝ) → ℝ} {es : List (BA.Residual (ℝ × ℝ))}
    (h : ∀ e ∈ es, term eps rho v e = .ok (some (f e))) : evaluate eps rho v es = .ok (some (1 / 2 * (es.map f).sum)) := by
  induction es with
  | nil => simp [evaluate]
  | cons e es ih =>
    rw [evaluate, h e (by simp), Outcome.ok_bind, ih fun e' he => h e' (by simp [he]), Outcome.ok_bind]
    simp only [addCost, List.map_cons, List.sum_cons]
    refine congrArg (fun a => Outcome.ok (some a)) ?_
    ring

theorem evaluate_none {eps : ℝ} {rho : ℝ → ℝ} {v : Values} {es : List (BA.Residual (ℝ × ℝ))}
    (hok : ∀ e ∈ es, ∃ a, term eps rho v e = .ok a) {e : BA.Residual (ℝ × ℝ)} (he : e ∈ es) (h : term eps rho v e = .ok none) :
    evaluate eps rho v es = .ok none := by
  have hall : ∀ l : List (BA.Residual (ℝ × ℝ)), (∀ e ∈ l, ∃ a, term eps rho v e = .ok a) → ∃ a, evaluate eps rho v l = .ok a := by
    intro l
    induction l with
    | nil => exact fun _ => ⟨_, rfl⟩
    | cons x l ih =>
      intro hl
      obtain ⟨a, ha⟩ := hl x (by simp)
      obtain ⟨b, hb⟩ := ih fun e he => hl e (by simp [he])
      exact ⟨addCost a b, by rw [evaluate, ha, Outcome.ok_bind, hb, Outcome.ok_bind]⟩
  induction es with
  | nil => simp at he
  | cons x es ih =>
    obtain ⟨a, ha⟩ := hok x (by simp)
    obtain ⟨b, hb⟩ := hall es fun e he => hok e (by simp [he])
    rcases List.mem_cons.1 he with rfl | he
    · rw [evaluate, h, Outcome.ok_bind, hb, Outcome.ok_bind]
      cases b <;> rfl
    · rw [evaluate, ha, Outcome.ok_bind, ih (fun e he => hok e (by simp [he])) he, Outcome.ok_bind]
      cases a <;> rfl

end ReprojectionError
end Theia
