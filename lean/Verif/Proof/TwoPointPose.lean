import Verif.Model.TwoPointPose
import Verif.Spec.TwoPointPose
import Verif.Base.RealVectors
import Verif.Props.RootSolvers

/-!
# Proofs about the pose from two points
-/

namespace Theia
namespace TwoPointPose

open AngleAxis Spec

theorem normalized_smul {v : V3 ℝ} (h : v ≠ V3.zero) : ∃ k : ℝ, 0 < k ∧ normalized v = v.smul k ∧ k * k * v.dot v = 1 := by
  have hp := V3.self_pos h
  refine ⟨(Real.sqrt (v.dot v))⁻¹, inv_pos.2 (Real.sqrt_pos.2 hp), by unfold normalized; rw [if_neg hp.ne'], ?_⟩
  rw [← mul_inv, Real.mul_self_sqrt hp.le, inv_mul_cancel₀ hp.ne']

theorem rodrigues_axis {u : V3 ℝ} (hu : u.dot u = 1) (c s : ℝ) : (rodriguesMatrix u c s).mulVec u = u := by
  rw [rodriguesMatrix_mulVec]
  unfold rodrigues
  rw [hu]
  apply V3.ext <;> simp only [V3.add, V3.smul, V3.cross] <;> ring

/-- A vector in the basis of three vectors. -/
theorem expand (a b c e : V3 ℝ) : e.smul (a.dot (b.cross c)) =
    ((a.smul (e.dot (b.cross c))).add (b.smul (e.dot (c.cross a)))).add (c.smul (e.dot (a.cross b))) := by
  apply V3.ext <;> simp only [V3.smul, V3.add, V3.dot, V3.cross] <;> ring

/-- A vector in the basis of a unit vector `u`, a vector `d` orthogonal to it, and `u × d`. -/
theorem expand_orthogonal {u d : V3 ℝ} (hu : u.dot u = 1) (hd : u.dot d = 0) (e : V3 ℝ) : e.smul (d.dot d) =
    ((u.smul (d.dot d * e.dot u)).add (d.smul (d.dot e))).add ((u.cross d).smul ((u.cross d).dot e)) := by
  have h1 : d.cross (u.cross d) = u.smul (d.dot d) := by
    simp only [V3.dot] at hd
    apply V3.ext <;> simp only [V3.cross, V3.smul, V3.dot]
    · linear_combination (-d.x) * hd
    · linear_combination (-d.y) * hd
    · linear_combination (-d.z) * hd
  have h2 : (u.cross d).cross u = d := by
    simp only [V3.dot] at hu hd
    apply V3.ext <;> simp only [V3.cross]
    · linear_combination d.x * hu - u.x * hd
    · linear_combination d.y * hu - u.y * hd
    · linear_combination d.z * hu - u.z * hd
  have h := expand u d (u.cross d) e
  rw [h1, h2] at h
  have e1 : u.dot (u.smul (d.dot d)) = d.dot d := by
    have : u.dot (u.smul (d.dot d)) = d.dot d * u.dot u := by simp only [V3.dot, V3.smul]; ring
    rw [this, hu, mul_one]
  have e2 : e.dot (u.smul (d.dot d)) = d.dot d * e.dot u := by simp only [V3.dot, V3.smul]; ring
  rw [e1, e2, V3.dot_comm e d, V3.dot_comm e (u.cross d)] at h
  exact h

/-- The rotation with the angle of `imageDiff` in the basis takes `d` to `e`, if both have the same length and the same part along
the axis. -/
theorem rotates {u d e : V3 ℝ} (hu : u.dot u = 1) (ha : e.dot u = d.dot u) (hn : e.dot e = d.dot d) :
    let b2 := normalized (u.cross d)
    let b1 := normalized (b2.cross u)
    let angle := Complex.arg ⟨b1.dot e, b2.dot e⟩
    (rodriguesMatrix u (Real.cos angle) (Real.sin angle)).mulVec d = e := by
  intro b2 b1 angle
  by_cases h0 : u.cross d = V3.zero
  · -- `d` is on the axis
    have hd := V3.eq_smul_of_cross_unit hu h0
    have hce : u.cross e = V3.zero := by
      apply V3.self_eq_zero
      have h1 := V3.cross_self_dot u e
      have h2 := V3.cross_self_dot u d
      rw [h0, V3.dot_zero] at h2
      rw [V3.dot_comm u e, ha, hn] at h1
      rw [V3.dot_comm u d] at h2
      rw [h1, ← h2]
    have he := V3.eq_smul_of_cross_unit hu hce
    have hed : e = d := by
      rw [he, hd, V3.dot_comm u e, ha, V3.dot_comm d u]
    rw [hed, hd, M3.mulVec_smul, rodrigues_axis hu]
  · obtain ⟨k, hk, hb2, hkk⟩ := normalized_smul h0
    have hb2' : b2 = (u.cross d).smul k := hb2
    have hbu : b2.cross u = (d.sub (u.smul (u.dot d))).smul k := by
      rw [hb2']
      simp only [V3.dot] at hu
      apply V3.ext <;> simp only [V3.cross, V3.smul, V3.sub, V3.dot]
      · linear_combination (k * d.x) * hu
      · linear_combination (k * d.y) * hu
      · linear_combination (k * d.z) * hu
    have hcd := V3.cross_self_dot u d
    rw [hu, one_mul] at hcd
    have hlen : (b2.cross u).dot (b2.cross u) = 1 := by
      rw [hbu, ← hkk, hcd]
      simp only [V3.dot] at hu
      simp only [V3.dot, V3.smul, V3.sub]
      linear_combination (k * k * (u.x * d.x + u.y * d.y + u.z * d.z) * (u.x * d.x + u.y * d.y + u.z * d.z)) * hu
    have hb1 : b1 = (d.sub (u.smul (u.dot d))).smul k := by
      change normalized (b2.cross u) = _
      unfold normalized
      rw [hlen, if_neg one_ne_zero, Real.sqrt_one, inv_one, V3.one_smul', hbu]
    -- the coordinates of `e` in the basis
    set f := d.sub (u.smul (u.dot d)) with hf
    have huf : u.dot f = 0 := by
      have : u.dot f = u.dot d - u.dot d * u.dot u := by
        rw [hf]
        simp only [V3.dot, V3.smul, V3.sub]
        ring
      rw [this, hu]
      ring
    have hcf : u.cross f = u.cross d := by
      rw [hf]
      apply V3.ext <;> simp only [V3.cross, V3.smul, V3.sub] <;> ring
    have hff : f.dot f = (u.cross d).dot (u.cross d) := by
      have := V3.cross_self_dot u f
      rw [hu, huf, hcf] at this
      linarith
    have hex := expand_orthogonal hu huf e
    rw [hcf, hff] at hex
    set w := u.cross d with hw
    have hq : 0 < w.dot w := V3.self_pos h0
    have hkq : k * (k * w.dot w) = 1 := by rw [← mul_assoc]; exact hkk
    -- lengths
    have hnorm : (f.dot e) ^ 2 + (w.dot e) ^ 2 = (w.dot w) ^ 2 := by
      have h1 : (e.smul (w.dot w)).dot e = w.dot w * e.dot e := by simp only [V3.dot, V3.smul]; ring
      rw [hex] at h1
      have h2 : (((u.smul (w.dot w * e.dot u)).add (f.smul (f.dot e))).add (w.smul (w.dot e))).dot e =
          w.dot w * (e.dot u * e.dot u) + (f.dot e) ^ 2 + (w.dot e) ^ 2 := by
        simp only [V3.dot, V3.smul, V3.add]
        ring
      rw [h2, ha, hn] at h1
      have h3 : w.dot w = d.dot d - u.dot d * u.dot d := hcd
      rw [V3.dot_comm u d] at h3
      have : (w.dot w) ^ 2 = w.dot w * (d.dot d - d.dot u * d.dot u) := by rw [← h3, sq]
      rw [this]
      linarith
    have hz : ‖(⟨b1.dot e, b2.dot e⟩ : ℂ)‖ = k * w.dot w := by
      rw [Complex.norm_eq_sqrt_sq_add_sq]
      have e1 : b1.dot e = k * f.dot e := by rw [hb1]; simp only [V3.dot, V3.smul]; ring
      have e2 : b2.dot e = k * w.dot e := by rw [hb2']; simp only [V3.dot, V3.smul]; ring
      simp only [e1, e2]
      have : (k * f.dot e) ^ 2 + (k * w.dot e) ^ 2 = (k * w.dot w) ^ 2 := by
        rw [mul_pow, mul_pow, mul_pow, ← hnorm]
        ring
      rw [this, Real.sqrt_sq (mul_nonneg hk.le hq.le)]
    have hz0 : (⟨b1.dot e, b2.dot e⟩ : ℂ) ≠ 0 := by
      intro h
      rw [h, norm_zero] at hz
      exact absurd hz.symm (mul_pos hk hq).ne'
    have hc : Real.cos angle * w.dot w = f.dot e := by
      have : Real.cos angle = _ := Complex.cos_arg hz0
      rw [this, hz]
      have e1 : b1.dot e = k * f.dot e := by rw [hb1]; simp only [V3.dot, V3.smul]; ring
      simp only [e1]
      field_simp
    have hs : Real.sin angle * w.dot w = w.dot e := by
      have : Real.sin angle = _ := Complex.sin_arg _
      rw [this, hz]
      have e2 : b2.dot e = k * w.dot e := by rw [hb2']; simp only [V3.dot, V3.smul]; ring
      simp only [e2]
      field_simp
    rw [rodriguesMatrix_mulVec]
    have hR : (rodrigues u (Real.cos angle) (Real.sin angle) d).smul (w.dot w) = e.smul (w.dot w) := by
      rw [hex, ← hc, ← hs, ha]
      unfold rodrigues
      rw [← hw, hf]
      rw [V3.dot_comm d u]
      generalize u.dot d = a
      generalize w.dot w = b
      apply V3.ext <;> simp only [V3.smul, V3.add, V3.sub] <;> ring
    have := V3.eq_zero_of_smul hq.ne' (a := (rodrigues u (Real.cos angle) (Real.sin angle) d).sub e) (by
      have : ((rodrigues u (Real.cos angle) (Real.sin angle) d).sub e).smul (w.dot w) =
          ((rodrigues u (Real.cos angle) (Real.sin angle) d).smul (w.dot w)).sub (e.smul (w.dot w)) := by
        apply V3.ext <;> simp only [V3.smul, V3.sub] <;> ring
      rw [this, hR]
      apply V3.ext <;> simp only [V3.sub, V3.zero] <;> ring)
    exact V3.sub_eq_zero this

/-- Two rotations about an axis that take a vector outside it to the same vector are the same. -/
theorem rotation_unique {u d : V3 ℝ} (hd : u.cross d ≠ V3.zero) {A B : M3 ℝ} (hA : A.IsRotation) (hB : B.IsRotation)
    (hAu : A.mulVec u = u) (hBu : B.mulVec u = u) (h : A.mulVec d = B.mulVec d) : A = B := by
  have hw : A.mulVec (u.cross d) = B.mulVec (u.cross d) := by
    rw [mulVec_cross hA, mulVec_cross hB, hAu, hBu, h]
  have hq := V3.self_pos hd
  have hdet : u.dot (d.cross (u.cross d)) = (u.cross d).dot (u.cross d) := by
    simp only [V3.dot, V3.cross]
    ring
  apply M3_ext_mulVec
  intro p
  have he := expand u d (u.cross d) p
  rw [hdet] at he
  have : ∀ C : M3 ℝ, (C.mulVec p).smul ((u.cross d).dot (u.cross d)) =
      (((C.mulVec u).smul (p.dot (d.cross (u.cross d)))).add ((C.mulVec d).smul (p.dot ((u.cross d).cross u)))).add
        ((C.mulVec (u.cross d)).smul (p.dot (u.cross d))) := by
    intro C
    rw [← M3.mulVec_smul, he, M3.mulVec_add, M3.mulVec_add, M3.mulVec_smul, M3.mulVec_smul, M3.mulVec_smul]
  have heq : (A.mulVec p).smul ((u.cross d).dot (u.cross d)) = (B.mulVec p).smul ((u.cross d).dot (u.cross d)) := by
    rw [this A, this B, hAu, hBu, h, hw]
  apply V3.sub_eq_zero
  apply V3.eq_zero_of_smul hq.ne'
  have hsub : ((A.mulVec p).sub (B.mulVec p)).smul ((u.cross d).dot (u.cross d)) =
      ((A.mulVec p).smul ((u.cross d).dot (u.cross d))).sub ((B.mulVec p).smul ((u.cross d).dot (u.cross d))) := by
    apply V3.ext <;> simp only [V3.smul, V3.sub] <;> ring
  rw [hsub, heq]
  apply V3.ext <;> simp only [V3.sub, V3.zero] <;> ring

section
variable {axis p1 p2 r1 r2 : V3 ℝ}

/-- A pose for lengths that fit. -/
theorem pose_maps (hu : axis.dot axis = 1) {l1 l2 : ℝ}
    (ha : ((r1.smul l1).sub (r2.smul l2)).dot axis = (p1.sub p2).dot axis)
    (hn : ((r1.smul l1).sub (r2.smul l2)).dot ((r1.smul l1).sub (r2.smul l2)) = (p1.sub p2).dot (p1.sub p2)) :
    MapsTo axis p1 p2 (r1.smul l1) (r2.smul l2) (pose axis p1 p2 r1 r2 l1 l2).1 (pose axis p1 p2 r1 r2 l1 l2).2 := by
  have h := rotates hu ha hn
  have hrot : (pose axis p1 p2 r1 r2 l1 l2).1.IsRotation :=
    isRotation_rodrigues hu (by rw [← sq, ← sq]; exact Real.cos_sq_add_sin_sq _)
  have h' : (pose axis p1 p2 r1 r2 l1 l2).1.mulVec (p1.sub p2) = (r1.smul l1).sub (r2.smul l2) := h
  have ht : (pose axis p1 p2 r1 r2 l1 l2).2 = (r1.smul l1).sub ((pose axis p1 p2 r1 r2 l1 l2).1.mulVec p1) := rfl
  refine ⟨hrot, rodrigues_axis hu _ _, ?_, ?_⟩
  · rw [ht]
    apply V3.ext <;> simp only [V3.add, V3.sub] <;> ring
  · rw [M3.mulVec_sub] at h'
    rw [ht]
    have hx := congrArg V3.x h'
    have hy := congrArg V3.y h'
    have hz := congrArg V3.z h'
    simp only [V3.sub, V3.smul] at hx hy hz
    apply V3.ext <;> simp only [V3.add, V3.sub, V3.smul] <;> linarith

theorem lengths (hr : r1.dot axis ≠ 0) {l1 l2 : ℝ} :
    ((r1.smul l1).sub (r2.smul l2)).dot axis = (p1.sub p2).dot axis ↔ l1 = coefM axis p1 p2 r1 + coefN axis r1 r2 * l2 := by
  have h : ((r1.smul l1).sub (r2.smul l2)).dot axis = l1 * r1.dot axis - l2 * r2.dot axis := by
    simp only [V3.dot, V3.sub, V3.smul]
    ring
  rw [h]
  unfold coefM coefN
  constructor
  · intro e
    field_simp
    linarith
  · rintro rfl
    field_simp
    ring

/-- The value of the quadratic function. -/
theorem quadratic_eval (h1 : r1.dot r1 = 1) (h2 : r2.dot r2 = 1) (x : ℝ) :
    (quadratic axis p1 p2 r1 r2).1 * x ^ 2 + (quadratic axis p1 p2 r1 r2).2.1 * x + (quadratic axis p1 p2 r1 r2).2.2 =
      ((r1.smul (coefM axis p1 p2 r1 + coefN axis r1 r2 * x)).sub (r2.smul x)).dot
        ((r1.smul (coefM axis p1 p2 r1 + coefN axis r1 r2 * x)).sub (r2.smul x)) - (p1.sub p2).dot (p1.sub p2) := by
  generalize hy : coefM axis p1 p2 r1 + coefN axis r1 r2 * x = y
  have : ((r1.smul y).sub (r2.smul x)).dot ((r1.smul y).sub (r2.smul x)) =
      y * y * r1.dot r1 - 2 * x * y * r1.dot r2 + x * x * r2.dot r2 := by
    simp only [V3.dot, V3.sub, V3.smul]
    ring
  rw [this, h1, h2, ← hy]
  unfold quadratic
  simp only
  ring

theorem quadratic_pos (h1 : r1.dot r1 = 1) (h2 : r2.dot r2 = 1) (hp : r1.cross r2 ≠ V3.zero) :
    0 < (quadratic axis p1 p2 r1 r2).1 := by
  have h := V3.cauchy_strict hp
  rw [h1, h2] at h
  unfold quadratic
  simp only
  nlinarith [mul_self_nonneg (coefN axis r1 r2 - r1.dot r2)]

/-- The real parts of the roots are computed if the first coefficient is not zero. If there is a real root, all of them are roots. -/
theorem roots_ok {q : ℝ × ℝ × ℝ} (ha : q.1 ≠ 0) :
    ∃ xs, roots q = .ok xs ∧ xs.length ≤ 2 ∧ (∀ x : ℝ, q.1 * x ^ 2 + q.2.1 * x + q.2.2 = 0 → x ∈ xs) ∧
      ((∃ x : ℝ, q.1 * x ^ 2 + q.2.1 * x + q.2.2 = 0) → ∀ x ∈ xs, q.1 * x ^ 2 + q.2.1 * x + q.2.2 = 0) := by
  obtain ⟨a, b, c⟩ := q
  simp only at ha ⊢
  unfold roots
  by_cases hbc : b = 0 ∧ c = 0
  · rw [if_pos ⟨ha, hbc⟩]
    obtain ⟨rfl, rfl⟩ := hbc
    refine ⟨[0], rfl, by decide, fun x hx => ?_, fun _ x hx => ?_⟩
    · have : x ^ 2 = 0 := by
        have : a * x ^ 2 = 0 := by linarith
        exact (mul_eq_zero.1 this).resolve_left ha
      rw [List.mem_singleton]
      exact pow_eq_zero_iff (two_ne_zero) |>.1 this
    · rw [List.mem_singleton.1 hx]
      ring
  · rw [if_neg (fun h => hbc h.2)]
    obtain ⟨z0, z1, e, h⟩ := C37_quadratic a b c ha (Classical.not_and_iff_not_or_not.1 hbc)
    rw [e]
    have ha' : (a : ℂ) ≠ 0 := by exact_mod_cast ha
    have hroot : ∀ x : ℝ, a * x ^ 2 + b * x + c = 0 → (x : ℂ) = z0 ∨ (x : ℂ) = z1 := by
      intro x hx
      have := h x
      have h0 : (a : ℂ) * (x : ℂ) ^ 2 + b * x + c = 0 := by exact_mod_cast hx
      rw [h0] at this
      rcases mul_eq_zero.1 this.symm with h1 | h1
      · exact Or.inl (sub_eq_zero.1 ((mul_eq_zero.1 h1).resolve_left ha'))
      · exact Or.inr (sub_eq_zero.1 h1)
    have hback : ∀ x : ℝ, (x : ℂ) = z0 ∨ (x : ℂ) = z1 → a * x ^ 2 + b * x + c = 0 := by
      intro x hx
      have := h x
      have h0 : (a : ℂ) * (x : ℂ) ^ 2 + b * x + c = 0 := by
        rw [this]
        rcases hx with hx | hx <;> rw [hx] <;> ring
      exact_mod_cast h0
    refine ⟨_, rfl, by simp [Roots.reals], fun x hx => ?_, ?_⟩
    · simp only [Roots.reals, List.map_cons, List.map_nil, List.mem_cons, List.not_mem_nil, or_false]
      rcases hroot x hx with hx | hx
      · exact Or.inl (by rw [← hx, Complex.ofReal_re])
      · exact Or.inr (by rw [← hx, Complex.ofReal_re])
    · rintro ⟨x, hx⟩ y hy
      -- the sum of the roots is real
      have hsum : (a : ℂ) * (z0 + z1) = -b := by
        have e0 := h 0
        have e1 := h 1
        have e2 := h (-1)
        linear_combination (e1 - e2) / 2
      have him : z0.im + z1.im = 0 := by
        have h1 := congrArg Complex.im hsum
        rw [Complex.im_ofReal_mul, Complex.neg_im, Complex.ofReal_im, neg_zero, Complex.add_im] at h1
        exact (mul_eq_zero.1 h1).resolve_left ha
      have hboth : z0.im = 0 ∧ z1.im = 0 := by
        rcases hroot x hx with h0 | h0
        · have : z0.im = 0 := by rw [← h0, Complex.ofReal_im]
          exact ⟨this, by linarith⟩
        · have : z1.im = 0 := by rw [← h0, Complex.ofReal_im]
          exact ⟨by linarith, this⟩
      simp only [Roots.reals, List.map_cons, List.map_nil, List.mem_cons, List.not_mem_nil, or_false] at hy
      apply hback
      rcases hy with rfl | rfl
      · exact Or.inl (Complex.ext (by simp) (by simp [hboth.1]))
      · exact Or.inr (Complex.ext (by simp) (by simp [hboth.2]))

theorem mem_loop {xs : List ℝ} {s : M3 ℝ × V3 ℝ} : s ∈ loop axis p1 p2 r1 r2 xs ↔
    ∃ x ∈ xs, 0 < x ∧ 0 < coefM axis p1 p2 r1 + coefN axis r1 r2 * x ∧
      s = pose axis p1 p2 r1 r2 (coefM axis p1 p2 r1 + coefN axis r1 r2 * x) x := by
  induction xs with
  | nil => simp [loop]
  | cons x xs ih =>
    unfold loop
    split
    · next h1 =>
      split
      · next h2 =>
        rw [List.mem_cons, ih]
        constructor
        · rintro (h | ⟨y, hy, h⟩)
          · exact ⟨x, by simp, h1, h2, h⟩
          · exact ⟨y, by simp [hy], h⟩
        · rintro ⟨y, hy, h3, h4, h5⟩
          rcases List.mem_cons.1 hy with rfl | hy
          · exact Or.inl h5
          · exact Or.inr ⟨y, hy, h3, h4, h5⟩
      · next h2 =>
        rw [ih]
        constructor
        · rintro ⟨y, hy, h⟩
          exact ⟨y, by simp [hy], h⟩
        · rintro ⟨y, hy, h3, h4, h5⟩
          rcases List.mem_cons.1 hy with rfl | hy
          · exact absurd h4 h2
          · exact ⟨y, hy, h3, h4, h5⟩
    · next h1 =>
      rw [ih]
      constructor
      · rintro ⟨y, hy, h⟩
        exact ⟨y, by simp [hy], h⟩
      · rintro ⟨y, hy, h3, h4, h5⟩
        rcases List.mem_cons.1 hy with rfl | hy
        · exact absurd h3 h1
        · exact ⟨y, hy, h3, h4, h5⟩

theorem length_loop (xs : List ℝ) : (loop axis p1 p2 r1 r2 xs).length ≤ xs.length := by
  induction xs with
  | nil => simp [loop]
  | cons x xs ih =>
    unfold loop
    split
    · split
      · simpa using ih
      · exact ih.trans (by simp)
    · exact ih.trans (by simp)

/-- What the core finds. -/
theorem core_ok (hu : axis.dot axis = 1) (h1 : r1.dot r1 = 1) (h2 : r2.dot r2 = 1) (hp : r1.cross r2 ≠ V3.zero)
    (hr : r1.dot axis ≠ 0) :
    ∃ sols, core axis p1 p2 r1 r2 = .ok sols ∧ sols.length ≤ 2 ∧
      (HasDistances axis p1 p2 r1 r2 → ∀ s ∈ sols, PoseOf axis p1 p2 r1 r2 s.1 s.2) ∧
      ∀ l1 l2, 0 < l1 → 0 < l2 → ((r1.smul l1).sub (r2.smul l2)).dot axis = (p1.sub p2).dot axis →
        ((r1.smul l1).sub (r2.smul l2)).dot ((r1.smul l1).sub (r2.smul l2)) = (p1.sub p2).dot (p1.sub p2) →
        ∃ s ∈ sols, MapsTo axis p1 p2 (r1.smul l1) (r2.smul l2) s.1 s.2 := by
  have hq := quadratic_pos (axis := axis) (p1 := p1) (p2 := p2) h1 h2 hp
  obtain ⟨xs, e, hlen, hall, hsound⟩ := roots_ok hq.ne'
  have hev : ∀ l1 l2, ((r1.smul l1).sub (r2.smul l2)).dot axis = (p1.sub p2).dot axis →
      ((r1.smul l1).sub (r2.smul l2)).dot ((r1.smul l1).sub (r2.smul l2)) = (p1.sub p2).dot (p1.sub p2) →
      (quadratic axis p1 p2 r1 r2).1 * l2 ^ 2 + (quadratic axis p1 p2 r1 r2).2.1 * l2 + (quadratic axis p1 p2 r1 r2).2.2 = 0 := by
    intro l1 l2 ha hn
    rw [quadratic_eval h1 h2, ← (lengths hr).1 ha, hn, sub_self]
  refine ⟨_, by unfold core; rw [e], (length_loop xs).trans hlen, ?_, ?_⟩
  · rintro ⟨l1, l2, ha, hn⟩ s hs
    obtain ⟨x, hx, hx0, hy0, rfl⟩ := mem_loop.1 hs
    have hroot := hsound ⟨l2, hev l1 l2 ha hn⟩ x hx
    rw [quadratic_eval h1 h2] at hroot
    exact ⟨_, x, hy0, hx0, pose_maps hu ((lengths hr).2 rfl) (by linarith)⟩
  · intro l1 l2 hl1 hl2 ha hn
    have hm := hall l2 (hev l1 l2 ha hn)
    have e1 := (lengths hr).1 ha
    refine ⟨_, mem_loop.2 ⟨l2, hm, hl2, by rw [← e1]; exact hl1, rfl⟩, ?_⟩
    rw [← e1]
    exact pose_maps hu ha hn

/-- A pose that maps the points gives lengths that fit. -/
theorem lengths_of_pose {x1 x2 : V3 ℝ} {R : M3 ℝ} {t : V3 ℝ} (h : MapsTo axis p1 p2 x1 x2 R t) :
    (x1.sub x2).dot axis = (p1.sub p2).dot axis ∧ (x1.sub x2).dot (x1.sub x2) = (p1.sub p2).dot (p1.sub p2) := by
  have e : x1.sub x2 = R.mulVec (p1.sub p2) := by
    rw [← h.first, ← h.second, M3.mulVec_sub]
    apply V3.ext <;> simp only [V3.add, V3.sub] <;> ring
  rw [e]
  refine ⟨?_, h.isRotation.dot _ _⟩
  conv_lhs => rw [← h.axis]
  exact h.isRotation.dot _ _

/-- Such a pose is unique if the difference of the points is not along the axis. -/
theorem pose_unique (hd : axis.cross (p1.sub p2) ≠ V3.zero) {x1 x2 : V3 ℝ} {R R' : M3 ℝ} {t t' : V3 ℝ}
    (h : MapsTo axis p1 p2 x1 x2 R t) (h' : MapsTo axis p1 p2 x1 x2 R' t') : R = R' ∧ t = t' := by
  have e : ∀ {R : M3 ℝ} {t : V3 ℝ}, MapsTo axis p1 p2 x1 x2 R t → R.mulVec (p1.sub p2) = x1.sub x2 := by
    intro R t h
    rw [← h.first, ← h.second, M3.mulVec_sub]
    apply V3.ext <;> simp only [V3.add, V3.sub] <;> ring
  have hR := rotation_unique hd h.isRotation h'.isRotation h.axis h'.axis ((e h).trans (e h').symm)
  refine ⟨hR, ?_⟩
  subst hR
  have := h.first.trans h'.first.symm
  have hx := congrArg V3.x this
  have hy := congrArg V3.y this
  have hz := congrArg V3.z this
  simp only [V3.add] at hx hy hz
  apply V3.ext <;> linarith

theorem _root_.Theia.Spec.MapsTo.swap {x1 x2 : V3 ℝ} {R : M3 ℝ} {t : V3 ℝ} (h : MapsTo axis p1 p2 x1 x2 R t) : MapsTo axis p2 p1 x2 x1 R t :=
  ⟨h.isRotation, h.axis, h.second, h.first⟩

end

end TwoPointPose
end Theia
