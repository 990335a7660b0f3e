import Verif.Proof.SingularFit

/-!
# C80: positions from two points with known rotations
-/

namespace Theia

open Spec LinearSolvers

private theorem rows_error (f1 f2 : ℝ × ℝ) (p1 p2 v : V3 ℝ) :
    (((rayRows f1 f2).zip (rayRhs f1 p1 f2 p2)).map fun p => (p.1.dot v - p.2) ^ 2).sum = rayOffset f1 p1 f2 p2 v := by
  simp [rayRows, rayRhs, rayOffset, V3.dot]
  ring

theorem rayOffset_zero {f1 f2 : ℝ × ℝ} {p1 p2 c : V3 ℝ} : rayOffset f1 p1 f2 p2 c = 0 ↔ SeenFrom c f1 p1 ∧ SeenFrom c f2 p2 := by
  unfold rayOffset SeenFrom
  simp only [V3.sub, V3.smul, V3.mk.injEq]
  constructor
  · intro h
    have h1 := sq_nonneg (p1.x - c.x - f1.1 * (p1.z - c.z))
    have h2 := sq_nonneg (p1.y - c.y - f1.2 * (p1.z - c.z))
    have h3 := sq_nonneg (p2.x - c.x - f2.1 * (p2.z - c.z))
    have h4 := sq_nonneg (p2.y - c.y - f2.2 * (p2.z - c.z))
    have e1 := pow_eq_zero_iff (two_ne_zero) |>.1 (show (p1.x - c.x - f1.1 * (p1.z - c.z)) ^ 2 = 0 by linarith)
    have e2 := pow_eq_zero_iff (two_ne_zero) |>.1 (show (p1.y - c.y - f1.2 * (p1.z - c.z)) ^ 2 = 0 by linarith)
    have e3 := pow_eq_zero_iff (two_ne_zero) |>.1 (show (p2.x - c.x - f2.1 * (p2.z - c.z)) ^ 2 = 0 by linarith)
    have e4 := pow_eq_zero_iff (two_ne_zero) |>.1 (show (p2.y - c.y - f2.2 * (p2.z - c.z)) ^ 2 = 0 by linarith)
    exact ⟨⟨p1.z - c.z, by linarith, by linarith, by ring⟩, ⟨p2.z - c.z, by linarith, by linarith, by ring⟩⟩
  · rintro ⟨⟨d, h1, h2, h3⟩, ⟨e, h4, h5, h6⟩⟩
    rw [h1, h2, h3, h4, h5, h6]
    ring

/-- C80: no position is found exactly if the two rays have the same direction. -/
theorem C80_two_rays_none {qr : List (V3 ℝ) → Nat × (List ℝ → V3 ℝ)} (hq : QrSolver qr) (f1 : ℝ × ℝ) (p1 : V3 ℝ) (f2 : ℝ × ℝ)
    (p2 : V3 ℝ) : positionFromTwoRays qr f1 p1 f2 p2 = none ↔ f1 = f2 := by
  have h : (qr (rayRows f1 f2)).1 = 3 ↔ f1 ≠ f2 := by
    rw [(hq _).1]
    constructor
    · rintro h rfl
      have := h ⟨f1.1, f1.2, 1⟩ (by simp [rayRows, V3.dot])
      have := congrArg V3.z this
      simp [V3.zero] at this
    · intro hne v hv
      simp only [rayRows, List.forall_mem_cons, V3.dot] at hv
      obtain ⟨h1, h2, h3, h4, -⟩ := hv
      have hz : v.z = 0 := by
        by_contra hz
        apply hne
        refine Prod.ext ?_ ?_
        · exact mul_right_cancel₀ hz (by linarith)
        · exact mul_right_cancel₀ hz (by linarith)
      rw [hz] at h1 h2
      exact V3.ext (by simp only [V3.zero]; linarith) (by simp only [V3.zero]; linarith) hz
  unfold positionFromTwoRays
  split
  · rename_i hc
    exact ⟨fun _ => by_contra fun hne => hc (h.2 hne), fun _ => rfl⟩
  · rename_i hc
    exact ⟨fun e => (nomatch e), fun e => absurd e (h.1 (not_not.1 hc))⟩

/-- C80: the position found has the least sum of squared offsets of the points from the rays. -/
theorem C80_two_rays_least {qr : List (V3 ℝ) → Nat × (List ℝ → V3 ℝ)} (hq : QrSolver qr) {f1 : ℝ × ℝ} {p1 : V3 ℝ} {f2 : ℝ × ℝ}
    {p2 c : V3 ℝ} (h : positionFromTwoRays qr f1 p1 f2 p2 = some c) (v : V3 ℝ) : rayOffset f1 p1 f2 p2 c ≤ rayOffset f1 p1 f2 p2 v := by
  unfold positionFromTwoRays at h
  split at h
  · cases h
  · rename_i hc
    cases h
    rw [← rows_error, ← rows_error]
    exact (hq _).2 (not_not.1 hc) _ _ rfl

/-- C80: if the camera at `c` sees the two points in different directions, its position is found. -/
theorem C80_two_rays_exact {qr : List (V3 ℝ) → Nat × (List ℝ → V3 ℝ)} (hq : QrSolver qr) {f1 : ℝ × ℝ} {p1 : V3 ℝ} {f2 : ℝ × ℝ}
    {p2 c : V3 ℝ} (h1 : SeenFrom c f1 p1) (h2 : SeenFrom c f2 p2) (hne : f1 ≠ f2) : positionFromTwoRays qr f1 p1 f2 p2 = some c := by
  cases hc : positionFromTwoRays qr f1 p1 f2 p2 with
  | none => exact absurd ((C80_two_rays_none hq _ _ _ _).1 hc) hne
  | some d =>
    have hle := C80_two_rays_least hq hc c
    rw [rayOffset_zero.2 ⟨h1, h2⟩] at hle
    have hz : rayOffset f1 p1 f2 p2 d = 0 := le_antisymm hle (by unfold rayOffset; positivity)
    obtain ⟨⟨a, ha⟩, ⟨b, hb⟩⟩ := rayOffset_zero.1 hz
    obtain ⟨a', ha'⟩ := h1
    obtain ⟨b', hb'⟩ := h2
    simp only [V3.sub, V3.smul, V3.mk.injEq] at ha hb ha' hb'
    obtain ⟨a1, a2, a3⟩ := ha
    obtain ⟨b1, b2, b3⟩ := hb
    obtain ⟨c1, c2, c3⟩ := ha'
    obtain ⟨d1, d2, d3⟩ := hb'
    have e : a' - a = b' - b := by linarith
    have hz0 : a' - a = 0 := by
      by_contra hn
      apply hne
      refine Prod.ext ?_ ?_
      · exact mul_left_cancel₀ hn (by linear_combination a1 - c1 + d1 - b1 - f2.1 * e)
      · exact mul_left_cancel₀ hn (by linear_combination a2 - c2 + d2 - b2 - f2.2 * e)
    have ha0 : a' = a := by linarith
    subst ha0
    exact congrArg some (V3.ext (by linarith) (by linarith) (by linarith))

/-- Half of the gradient of the sum of the squared residuals. -/
private noncomputable def gradient : List (V3 ℝ × ℝ) → V3 ℝ → V3 ℝ
  | [], _ => V3.zero
  | (r, b) :: l, x => (r.smul (r.dot x - b)).add (gradient l x)

private theorem residual_expand (l : List (V3 ℝ × ℝ)) (x v : V3 ℝ) : (l.map fun p => (p.1.dot v - p.2) ^ 2).sum =
    (l.map fun p => (p.1.dot x - p.2) ^ 2).sum + 2 * (v.sub x).dot (gradient l x) + (l.map fun p => (p.1.dot (v.sub x)) ^ 2).sum := by
  induction l with
  | nil => simp [gradient, V3.dot, V3.zero]
  | cons a l ih =>
    simp only [List.map_cons, List.sum_cons, ih, gradient]
    simp only [V3.dot, V3.sub, V3.add, V3.smul]
    ring

/-- The matrix of the normal equations. -/
private noncomputable def normal : List (V3 ℝ × ℝ) → M3 ℝ × V3 ℝ
  | [] => (⟨V3.zero, V3.zero, V3.zero⟩, V3.zero)
  | (r, b) :: l => (⟨(r.smul r.x).add (normal l).1.r1, (r.smul r.y).add (normal l).1.r2, (r.smul r.z).add (normal l).1.r3⟩,
      (r.smul b).add (normal l).2)

private theorem gradient_eq (l : List (V3 ℝ × ℝ)) (x : V3 ℝ) : gradient l x = ((normal l).1.mulVec x).sub (normal l).2 := by
  induction l with
  | nil => simp [gradient, normal, M3.mulVec, V3.dot, V3.sub, V3.zero]
  | cons a l ih =>
    rw [gradient, ih]
    apply V3.ext <;> simp only [normal, M3.mulVec, V3.dot, V3.sub, V3.add, V3.smul] <;> ring

private theorem normal_form (l : List (V3 ℝ × ℝ)) (v : V3 ℝ) : v.dot ((normal l).1.mulVec v) = (l.map fun p => (p.1.dot v) ^ 2).sum := by
  induction l with
  | nil => simp [normal, M3.mulVec, V3.dot, V3.zero]
  | cons a l ih =>
    rw [List.map_cons, List.sum_cons, ← ih]
    simp only [normal, M3.mulVec, V3.dot, V3.add, V3.smul]
    ring

private theorem exists_least_squares (l : List (V3 ℝ × ℝ)) (h : ∀ v, (∀ p ∈ l, p.1.dot v = 0) → v = V3.zero) :
    ∃ x : V3 ℝ, ∀ v, (l.map fun p => (p.1.dot x - p.2) ^ 2).sum ≤ (l.map fun p => (p.1.dot v - p.2) ^ 2).sum := by
  have hnn : ∀ v : V3 ℝ, ∀ x ∈ l.map fun p => (p.1.dot v) ^ 2, 0 ≤ x := by
    intro v x hx
    obtain ⟨p, -, rfl⟩ := List.mem_map.1 hx
    positivity
  have hd : (normal l).1.det ≠ 0 := by
    intro h0
    obtain ⟨v, hv, hz⟩ := exists_null h0
    have e := normal_form l v
    rw [hz, V3.dot_zero] at e
    have := h v fun p hp => by
      have := List.all_zero_of_le_zero_le_of_sum_eq_zero (hnn v) e.symm (List.mem_map.2 ⟨p, hp, rfl⟩)
      exact pow_eq_zero_iff two_ne_zero |>.1 this
    rw [this, V3.dot_zero] at hv
    norm_num at hv
  refine ⟨(inverse (normal l).1).mulVec (normal l).2, fun v => ?_⟩
  rw [residual_expand l ((inverse (normal l).1).mulVec (normal l).2) v, gradient_eq, ← M3.mulVec_mul, mul_inverse hd, M3.one_mulVec]
  have e : (v.sub ((inverse (normal l).1).mulVec (normal l).2)).dot ((normal l).2.sub (normal l).2) = 0 := by
    simp only [V3.dot, V3.sub]
    ring
  rw [e]
  have := List.sum_nonneg (hnn (v.sub ((inverse (normal l).1).mulVec (normal l).2)))
  linarith

theorem exists_qrSolver : ∃ qr, QrSolver qr := by
  classical
  have : ∀ A : List (V3 ℝ), ∃ r : Nat × (List ℝ → V3 ℝ), (r.1 = 3 ↔ ∀ v, (∀ r ∈ A, r.dot v = 0) → v = V3.zero) ∧
      (r.1 = 3 → ∀ b v, b.length = A.length → ((A.zip b).map fun p => (p.1.dot (r.2 b) - p.2) ^ 2).sum ≤
        ((A.zip b).map fun p => (p.1.dot v - p.2) ^ 2).sum) := by
    intro A
    by_cases h : ∀ v, (∀ r ∈ A, r.dot v = 0) → v = V3.zero
    · have hb : ∀ b : List ℝ, ∃ x : V3 ℝ, ∀ v, b.length = A.length → ((A.zip b).map fun p => (p.1.dot x - p.2) ^ 2).sum ≤
          ((A.zip b).map fun p => (p.1.dot v - p.2) ^ 2).sum := by
        intro b
        by_cases hl : b.length = A.length
        · obtain ⟨x, hx⟩ := exists_least_squares (A.zip b) fun v hv => h v fun r hr => by
            obtain ⟨n, hn, rfl⟩ := List.mem_iff_getElem.1 hr
            exact hv (A[n], b[n]'(by omega)) (List.mem_iff_getElem.2 ⟨n, by simp; omega, by simp⟩)
          exact ⟨x, fun v _ => hx v⟩
        · exact ⟨V3.zero, fun v h => absurd h hl⟩
      choose x hx using hb
      exact ⟨(3, x), ⟨fun _ => h, fun _ => rfl⟩, fun _ b v => hx b v⟩
    · exact ⟨(0, fun _ => V3.zero), ⟨fun h0 => (nomatch h0), fun h0 => absurd h0 h⟩, fun h0 => (nomatch h0)⟩
  choose qr h using this
  exact ⟨qr, h⟩

/-- The hypotheses of the theorems on two rays hold for a camera at (1, 2, 3). -/
example : (∃ qr, QrSolver qr) ∧ SeenFrom ⟨1, 2, 3⟩ (1, 0) ⟨3, 2, 5⟩ ∧ SeenFrom ⟨1, 2, 3⟩ (0, -1) ⟨1, -1, 6⟩ ∧
    ((1, 0) : ℝ × ℝ) ≠ (0, -1) := by
  refine ⟨exists_qrSolver, ⟨2, ?_⟩, ⟨3, ?_⟩, by norm_num⟩ <;> norm_num [V3.sub, V3.smul]

private def vec (v : Fin 3 → ℝ) : V3 ℝ := ⟨v 0, v 1, v 2⟩

private def unvec (v : V3 ℝ) : Fin 3 → ℝ := ![v.x, v.y, v.z]

private theorem vec_unvec (v : V3 ℝ) : vec (unvec v) = v := rfl

private theorem unvec_vec (v : Fin 3 → ℝ) : unvec (vec v) = v := by
  funext i
  fin_cases i <;> rfl

private theorem translationRow_dot (p q : ℝ × ℝ) (v : Fin 3 → ℝ) :
    ∑ i, translationRow p q i * v i = -((vec v).dot (rayNormal p q)) := by
  simp [Fin.sum_univ_succ, translationRow, rayNormal, vec, V3.dot, V3.cross]
  ring

private theorem rows_iff (p q : Fin 2 → ℝ × ℝ) (v : Fin 3 → ℝ) :
    (∀ r ∈ [translationRow (p 0) (q 0), translationRow (p 1) (q 1)], ∑ i, r i * v i = 0) ↔
      (vec v).dot (rayNormal (p 0) (q 0)) = 0 ∧ (vec v).dot (rayNormal (p 1) (q 1)) = 0 := by
  simp only [List.forall_mem_cons, translationRow_dot, neg_eq_zero]
  exact ⟨fun h => ⟨h.1, h.2.1⟩, fun h => ⟨h.1, h.2, by simp⟩⟩

/-- A vector orthogonal to two independent ones is a multiple of their cross product. -/
private theorem orthogonal_multiple {m n v : V3 ℝ} (hc : m.cross n ≠ V3.zero) (h1 : v.dot m = 0) (h2 : v.dot n = 0) :
    ∃ c, v = (m.cross n).smul c := by
  have hp := V3.self_pos hc
  refine ⟨v.dot (m.cross n) / (m.cross n).dot (m.cross n), ?_⟩
  have e : v.smul ((m.cross n).dot (m.cross n)) = (m.cross n).smul (v.dot (m.cross n)) := by
    simp only [V3.dot] at h1 h2
    apply V3.ext <;> simp only [V3.dot, V3.smul, V3.cross]
    · linear_combination (n.y * (m.x * n.y - m.y * n.x) - n.z * (m.z * n.x - m.x * n.z)) * h1 +
        (m.z * (m.z * n.x - m.x * n.z) - m.y * (m.x * n.y - m.y * n.x)) * h2
    · linear_combination (n.z * (m.y * n.z - m.z * n.y) - n.x * (m.x * n.y - m.y * n.x)) * h1 +
        (m.x * (m.x * n.y - m.y * n.x) - m.z * (m.y * n.z - m.z * n.y)) * h2
    · linear_combination (n.x * (m.z * n.x - m.x * n.z) - n.y * (m.y * n.z - m.z * n.y)) * h1 +
        (m.y * (m.y * n.z - m.z * n.y) - m.x * (m.z * n.x - m.x * n.z)) * h2
  have := congrArg (fun u : V3 ℝ => u.smul (((m.cross n).dot (m.cross n))⁻¹)) e
  rw [V3.smul_smul, V3.smul_smul, inv_mul_cancel₀ hp.ne', V3.one_smul'] at this
  rw [div_eq_inv_mul]
  exact this

/-- Two planes are the same, or one is not defined, exactly if the vectors orthogonal to both are not the multiples of one. -/
private theorem planes_same {m n w : V3 ℝ} (h : ∀ v : V3 ℝ, v.dot m = 0 ∧ v.dot n = 0 → ∃ c : ℝ, v = w.smul c) : m.cross n ≠ V3.zero := by
  intro hc
  -- a vector that both are multiples of
  obtain ⟨k, hk⟩ : ∃ k : V3 ℝ, ∀ v : V3 ℝ, v.dot k = 0 → v.dot m = 0 ∧ v.dot n = 0 := by
    by_cases hm : m = V3.zero
    · exact ⟨n, fun v hv => ⟨by rw [hm, V3.dot_zero], hv⟩⟩
    · refine ⟨m, fun v hv => ⟨hv, ?_⟩⟩
      have hp := V3.self_pos hm
      have e : m.dot m * v.dot n = 0 := by
        have h1 := congrArg V3.x hc
        have h2 := congrArg V3.y hc
        have h3 := congrArg V3.z hc
        simp only [V3.cross, V3.zero] at h1 h2 h3
        simp only [V3.dot] at hv ⊢
        linear_combination (m.x * n.x + m.y * n.y + m.z * n.z) * hv + (v.z * m.y - v.y * m.z) * h1 + (v.x * m.z - v.z * m.x) * h2 + (v.y * m.x - v.x * m.y) * h3
      exact (mul_eq_zero.1 e).resolve_left hp.ne'
  have hk' : ∀ e f : V3 ℝ, (k.cross e).cross (k.cross f) = V3.zero := by
    intro e f
    obtain ⟨a, ha⟩ := h _ (hk (k.cross e) (by simp only [V3.dot, V3.cross]; ring))
    obtain ⟨b, hb⟩ := h _ (hk (k.cross f) (by simp only [V3.dot, V3.cross]; ring))
    rw [ha, hb]
    apply V3.ext <;> simp only [V3.cross, V3.smul, V3.zero] <;> ring
  have hk0 : k = V3.zero := by
    have h1 := hk' ⟨1, 0, 0⟩ ⟨0, 1, 0⟩
    have h2 := hk' ⟨0, 1, 0⟩ ⟨0, 0, 1⟩
    have h3 := hk' ⟨0, 0, 1⟩ ⟨1, 0, 0⟩
    simp only [V3.cross, V3.zero, V3.mk.injEq] at h1 h2 h3
    refine V3.ext ?_ ?_ ?_ <;> simp only [V3.zero]
    · nlinarith [h2.1]
    · nlinarith [h3.2.1]
    · nlinarith [h1.2.2]
  obtain ⟨a, ha⟩ := h _ (hk ⟨1, 0, 0⟩ (by rw [hk0, V3.dot_zero]))
  obtain ⟨b, hb⟩ := h _ (hk ⟨0, 1, 0⟩ (by rw [hk0, V3.dot_zero]))
  simp only [V3.smul, V3.mk.injEq] at ha hb
  obtain ⟨a1, a2, -⟩ := ha
  obtain ⟨b1, b2, -⟩ := hb
  have : (1 : ℝ) = 0 := by
    have e1 : a * b * (w.x * w.y) = 1 := by linear_combination (-b * w.y) * a1 - b2
    have e2 : a * b * (w.x * w.y) = 0 := by linear_combination (-b * w.x) * a2
    linarith
  norm_num at this

/-- C80: no direction is found exactly if the two points and the cameras do not give two different planes. A direction found is a unit
vector in both planes. -/
theorem C80_relative_position {kernel : Kernel 3} (hk : KernelSolver kernel) (p q : Fin 2 → ℝ × ℝ) :
    (relativePosition kernel p q = none ↔ (rayNormal (p 0) (q 0)).cross (rayNormal (p 1) (q 1)) = V3.zero) ∧
    ∀ t, relativePosition kernel p q = some t → t.dot t = 1 ∧ ∀ i, t.dot (rayNormal (p i) (q i)) = 0 := by
  have hK := hk [translationRow (p 0) (q 0), translationRow (p 1) (q 1)]
  simp only [rows_iff] at hK
  unfold relativePosition
  generalize kernel [translationRow (p 0) (q 0), translationRow (p 1) (q 1)] = KK at hK ⊢
  have dim : (rayNormal (p 0) (q 0)).cross (rayNormal (p 1) (q 1)) ≠ V3.zero → KK.1 = 1 := by
    intro hc
    refine kernel_dim hK.1 (L := ![unvec ((rayNormal (p 0) (q 0)).cross (rayNormal (p 1) (q 1)))]) ?_ fun v => ?_
    · rw [Fintype.linearIndependent_iff]
      intro g hg i
      have hg : g 0 • unvec ((rayNormal (p 0) (q 0)).cross (rayNormal (p 1) (q 1))) = 0 := by simpa using hg
      rcases smul_eq_zero.1 hg with h | h
      · fin_cases i
        exact h
      · exact absurd (congrArg vec h) hc
    · rw [← hK.2 v]
      constructor
      · rintro ⟨h1, h2⟩
        obtain ⟨c, e⟩ := orthogonal_multiple hc h1 h2
        refine ⟨![c], ?_⟩
        rw [← unvec_vec v, e]
        funext i
        fin_cases i <;> simp [unvec, V3.smul]
      · rintro ⟨c, e⟩
        have e : v = c 0 • unvec ((rayNormal (p 0) (q 0)).cross (rayNormal (p 1) (q 1))) := by simpa using e
        rw [e]
        constructor <;> simp [vec, unvec, V3.dot, V3.cross] <;> ring
  obtain ⟨k, K⟩ := KK
  match k, K with
  | 0, _ => exact ⟨⟨fun _ => by_contra fun h => absurd (dim h) (by simp), fun _ => rfl⟩, fun t ht => (nomatch ht)⟩
  | n + 2, _ => exact ⟨⟨fun _ => by_contra fun h => absurd (dim h) (by simp), fun _ => rfl⟩, fun t ht => (nomatch ht)⟩
  | 1, K =>
    have hn : K 0 ≠ 0 := hK.1.ne_zero 0
    have hv : vec (K 0) ≠ V3.zero := by
      intro h
      apply hn
      rw [← unvec_vec (K 0), h]
      funext i
      fin_cases i <;> rfl
    have hp := V3.self_pos hv
    refine ⟨⟨fun h => (nomatch h), fun h => absurd h (planes_same (w := vec (K 0)) fun v hv => ?_)⟩, fun t ht => ?_⟩
    · obtain ⟨c, e⟩ := (hK.2 (unvec v)).1 hv
      have e : unvec v = c 0 • K 0 := by simpa using e
      refine ⟨c 0, ?_⟩
      rw [← vec_unvec v, e]
      rfl
    · cases ht
      obtain ⟨h1, h2⟩ := (hK.2 (K 0)).2 ⟨fun _ => 1, by simp⟩
      have hs := Real.mul_self_sqrt hp.le
      refine ⟨?_, fun i => ?_⟩
      · show ((vec (K 0)).smul (1 / Real.sqrt ((vec (K 0)).dot (vec (K 0))))).dot
          ((vec (K 0)).smul (1 / Real.sqrt ((vec (K 0)).dot (vec (K 0))))) = 1
        have : ∀ (a : V3 ℝ) (s : ℝ), (a.smul (1 / s)).dot (a.smul (1 / s)) = a.dot a / (s * s) := by
          intro a s
          simp only [V3.dot, V3.smul, one_div, div_eq_mul_inv, mul_inv]
          ring
        rw [this, hs, div_self hp.ne']
      · have key : ∀ n : V3 ℝ, (vec (K 0)).dot n = 0 →
            ((vec (K 0)).smul (1 / Real.sqrt ((vec (K 0)).dot (vec (K 0))))).dot n = 0 := by
          intro n h
          generalize 1 / Real.sqrt ((vec (K 0)).dot (vec (K 0))) = s
          have : ((vec (K 0)).smul s).dot n = s * (vec (K 0)).dot n := by
            simp only [V3.dot, V3.smul]
            ring
          rw [this, h, mul_zero]
        fin_cases i
        · exact key _ h1
        · exact key _ h2

/-- The full claim of C80 is that the direction from the first camera to the second is returned. Proved: for points seen by both cameras,
in different planes through the cameras, this direction or its opposite is returned. Missing: the sign. -/
theorem C80_relative_direction_partial {kernel : Kernel 3} (hk : KernelSolver kernel) (p q : Fin 2 → ℝ × ℝ) (c1 c2 : V3 ℝ)
    (X : Fin 2 → V3 ℝ) (h1 : ∀ i, SeenFrom c1 (p i) (X i)) (h2 : ∀ i, SeenFrom c2 (q i) (X i)) (hne : c1 ≠ c2)
    (hpl : (rayNormal (p 0) (q 0)).cross (rayNormal (p 1) (q 1)) ≠ V3.zero) :
    ∃ t, relativePosition kernel p q = some t ∧
      (t = (c2.sub c1).smul (1 / Real.sqrt ((c2.sub c1).dot (c2.sub c1))) ∨
        t = ((c2.sub c1).smul (1 / Real.sqrt ((c2.sub c1).dot (c2.sub c1)))).neg) := by
  obtain ⟨k1, k2⟩ := C80_relative_position hk p q
  cases ht : relativePosition kernel p q with
  | none => exact absurd (k1.1 ht) hpl
  | some t =>
    obtain ⟨hu, ho⟩ := k2 t ht
    refine ⟨t, rfl, ?_⟩
    have hb : ∀ i, (c2.sub c1).dot (rayNormal (p i) (q i)) = 0 := by
      intro i
      obtain ⟨a, ha⟩ := h1 i
      obtain ⟨b, hb⟩ := h2 i
      simp only [V3.sub, V3.smul, V3.mk.injEq] at ha hb
      obtain ⟨a1, a2, a3⟩ := ha
      obtain ⟨b1, b2, b3⟩ := hb
      simp only [rayNormal, V3.dot, V3.sub, V3.cross]
      linear_combination ((p i).2 - (q i).2) * (a1 - b1) + ((q i).1 - (p i).1) * (a2 - b2) + ((p i).1 * (q i).2 - (p i).2 * (q i).1) * (a3 - b3)
    have hb0 : c2.sub c1 ≠ V3.zero := fun h => hne (V3.sub_eq_zero h).symm
    have hbp := V3.self_pos hb0
    obtain ⟨x, ex⟩ := orthogonal_multiple hpl (ho 0) (ho 1)
    obtain ⟨y, ey⟩ := orthogonal_multiple hpl (hb 0) (hb 1)
    generalize (rayNormal (p 0) (q 0)).cross (rayNormal (p 1) (q 1)) = w at *
    generalize c2.sub c1 = b at *
    have hy : y ≠ 0 := by
      rintro rfl
      rw [V3.zero_smul'] at ey
      exact hb0 ey
    have hs := Real.mul_self_sqrt hbp.le
    generalize Real.sqrt (b.dot b) = s at *
    have hs0 : s ≠ 0 := by
      rintro rfl
      rw [zero_mul] at hs
      exact hbp.ne hs
    have e : t = b.smul (x / y) := by
      rw [ex, ey, V3.smul_smul, div_mul_cancel₀ _ hy]
    have e1 : (x / y) * (x / y) * (s * s) = 1 := by
      rw [hs, ← hu, e]
      simp only [V3.dot, V3.smul]
      ring
    have e2 : (x / y * s - 1) * (x / y * s + 1) = 0 := by linear_combination e1
    rcases mul_eq_zero.1 e2 with h | h
    · left
      rw [e]
      congr 1
      field_simp at h ⊢
      linarith
    · right
      rw [e]
      have : x / y = -(1 / s) := by
        field_simp at h ⊢
        linarith
      rw [this]
      apply V3.ext <;> simp only [V3.smul, V3.neg] <;> ring

/-- The features of two points, (0, 0, 2) and (0, 2, 2), seen from the origin and from (2, 0, 0). -/
private noncomputable def first : Fin 2 → ℝ × ℝ := ![(0, 0), (0, 1)]

private noncomputable def second : Fin 2 → ℝ × ℝ := ![(-1, 0), (-1, 1)]

private noncomputable def points : Fin 2 → V3 ℝ := ![⟨0, 0, 2⟩, ⟨0, 2, 2⟩]

private theorem first_seen : (∀ i, SeenFrom ⟨0, 0, 0⟩ (first i) (points i)) ∧ (∀ i, SeenFrom ⟨2, 0, 0⟩ (second i) (points i)) ∧
    (rayNormal (first 0) (second 0)).cross (rayNormal (first 1) (second 1)) ≠ V3.zero := by
  refine ⟨fun i => ⟨2, ?_⟩, fun i => ⟨2, ?_⟩, fun h => ?_⟩
  · fin_cases i <;> simp [first, points, V3.sub, V3.smul]
  · fin_cases i <;> simp [second, points, V3.sub, V3.smul]
  · have := congrArg V3.x h
    norm_num [first, second, rayNormal, V3.cross, V3.zero] at this

/-- The hypotheses of the theorems on the relative position hold for these points. -/
example : (∃ kernel : Kernel 3, KernelSolver kernel) ∧ (∀ i, SeenFrom ⟨0, 0, 0⟩ (first i) (points i)) ∧
    (∀ i, SeenFrom ⟨2, 0, 0⟩ (second i) (points i)) ∧ (⟨0, 0, 0⟩ : V3 ℝ) ≠ ⟨2, 0, 0⟩ ∧
    (rayNormal (first 0) (second 0)).cross (rayNormal (first 1) (second 1)) ≠ V3.zero :=
  ⟨exists_kernelSolver 3, first_seen.1, first_seen.2.1, fun h => by simp at h, first_seen.2.2⟩

/-- C80: the direction returned can be opposite to the promised one. The sign is that of the vector of the null space, and the points
are not used to choose it. Here the second camera is at (-2, 0, 0), and the null space is given by (1, 0, 0), the vector that the
decomposition used finds, with a one in the column without a pivot. -/
theorem C80_direction_counterexample : ∃ kernel : Kernel 3, KernelSolver kernel ∧
    ∃ (p q : Fin 2 → ℝ × ℝ) (c1 c2 : V3 ℝ) (X : Fin 2 → V3 ℝ), (∀ i, SeenFrom c1 (p i) (X i)) ∧ (∀ i, SeenFrom c2 (q i) (X i)) ∧
      (∀ i, 0 < (X i).z) ∧ c2 = ⟨-2, 0, 0⟩ ∧ c1 = V3.zero ∧ relativePosition kernel p q = some ⟨1, 0, 0⟩ := by
  have hrows : ∀ v : Fin 3 → ℝ, (∀ r ∈ [translationRow (first 0) ((1, 0) : ℝ × ℝ), translationRow (first 1) ((1, 1) : ℝ × ℝ)],
      ∑ i, r i * v i = 0) ↔ v 1 = 0 ∧ v 2 = 0 := by
    intro v
    simp [first, translationRow, Fin.sum_univ_succ]
    intro h1
    rw [h1]
    simp
  obtain ⟨kernel, hk, he⟩ := exists_kernelSolver_with
    [translationRow (first 0) ((1, 0) : ℝ × ℝ), translationRow (first 1) ((1, 1) : ℝ × ℝ)] ⟨1, fun _ => ![1, 0, 0]⟩
    (by
      rw [Fintype.linearIndependent_iff]
      intro g hg i
      have := congrFun hg 0
      simp at this
      fin_cases i
      exact this)
    (fun v => by
      rw [hrows]
      constructor
      · rintro ⟨h1, h2⟩
        refine ⟨fun _ => v 0, ?_⟩
        funext i
        fin_cases i <;> simp [h1, h2]
      · rintro ⟨c, rfl⟩
        simp)
  refine ⟨kernel, hk, first, ![(1, 0), (1, 1)], V3.zero, ⟨-2, 0, 0⟩, points, first_seen.1, fun i => ⟨2, ?_⟩, fun i => ?_, rfl, rfl, ?_⟩
  · fin_cases i <;> simp [points, V3.sub, V3.smul]
  · fin_cases i <;> simp [points]
  · unfold relativePosition
    have he' : kernel [translationRow (first 0) ((![(1, 0), (1, 1)] : Fin 2 → ℝ × ℝ) 0),
        translationRow (first 1) ((![(1, 0), (1, 1)] : Fin 2 → ℝ × ℝ) 1)] = ⟨1, fun _ => ![1, 0, 0]⟩ := he
    rw [he']
    simp [V3.smul, V3.dot]

end Theia
