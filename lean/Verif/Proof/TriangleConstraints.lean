import Verif.Base.RealVectors
import Verif.Proof.BaselineRatios
import Verif.Spec.LinearPosition

/-!
# Positions that fit the shapes of triangles
-/

namespace Theia
namespace LinearPosition

open Spec AngleAxis BaselineRatios

/-! ## Vectors -/

theorem cramer (a b c x : V3 ℝ) :
    x.smul (a.dot (b.cross c)) = (((b.cross c).smul (x.dot a)).add ((c.cross a).smul (x.dot b))).add ((a.cross b).smul (x.dot c)) := by
  apply V3.ext <;> simp only [V3.smul, V3.add, V3.dot, V3.cross] <;> ring

/-- A vector in the frame of `d`, `n × d` and `n`. -/
theorem decompose {d n : V3 ℝ} (hd : d ≠ V3.zero) (hn : n ≠ V3.zero) (h : d.dot n = 0) (x : V3 ℝ) :
    ∃ a b g : ℝ, x = ((d.smul a).add ((n.cross d).smul b)).add (n.smul g) := by
  have pd := V3.self_pos hd
  have pn := V3.self_pos hn
  have e1 : (n.cross d).cross n = d.smul (n.dot n) := by
    have : (n.cross d).cross n = (d.smul (n.dot n)).sub (n.smul (d.dot n)) := by
      apply V3.ext <;> simp only [V3.smul, V3.sub, V3.dot, V3.cross] <;> ring
    rw [this, h, V3.zero_smul']
    apply V3.ext <;> simp [V3.sub, V3.zero]
  have e2 : d.cross (n.cross d) = n.smul (d.dot d) := by
    have : d.cross (n.cross d) = (n.smul (d.dot d)).sub (d.smul (d.dot n)) := by
      apply V3.ext <;> simp only [V3.smul, V3.sub, V3.dot, V3.cross] <;> ring
    rw [this, h, V3.zero_smul']
    apply V3.ext <;> simp [V3.sub, V3.zero]
  have hc := cramer d (n.cross d) n x
  have e3 : d.dot (d.smul (n.dot n)) = n.dot n * d.dot d := by
    simp only [V3.dot, V3.smul]; ring
  rw [e1, e2, e3] at hc
  have hk : n.dot n * d.dot d ≠ 0 := (mul_pos pn pd).ne'
  refine ⟨x.dot d / d.dot d, x.dot (n.cross d) / (n.dot n * d.dot d), x.dot n / n.dot n, ?_⟩
  have h1 : x = (x.smul (n.dot n * d.dot d)).smul (1 / (n.dot n * d.dot d)) := by
    rw [V3.smul_smul, one_div, inv_mul_cancel₀ hk, V3.one_smul']
  rw [hc] at h1
  refine h1.trans ?_
  have pd' := pd.ne'
  have pn' := pn.ne'
  generalize x.dot d = q1
  generalize x.dot n = q3
  generalize x.dot (n.cross d) = q2
  generalize d.dot d = dd at *
  generalize n.dot n = nn at *
  apply V3.ext <;> simp only [V3.add, V3.smul] <;> field_simp

theorem smul_eq_zero_iff {a : V3 ℝ} (ha : a ≠ V3.zero) {s : ℝ} (h : a.smul s = V3.zero) : s = 0 := by
  by_contra hs
  exact ha (V3.eq_zero_of_smul hs h)

/-- A triangle with corners not on a line has no side as long as the other two together. -/
theorem lengths_ne {d e : V3 ℝ} (h : d.cross e ≠ V3.zero) :
    (Real.sqrt (d.dot d) + Real.sqrt (e.dot e) - Real.sqrt ((e.sub d).dot (e.sub d))) *
      (Real.sqrt (d.dot d) + Real.sqrt (e.dot e) - Real.sqrt ((e.sub d).dot (e.sub d))) ≠
      4 * (Real.sqrt (d.dot d) * Real.sqrt (e.dot e)) := by
  have hd : d ≠ V3.zero := by
    rintro rfl
    apply h
    apply V3.ext <;> simp [V3.cross, V3.zero]
  have he : e ≠ V3.zero := by
    rintro rfl
    apply h
    apply V3.ext <;> simp [V3.cross, V3.zero]
  have hp := Real.sqrt_pos.2 (V3.self_pos hd)
  have hq := Real.sqrt_pos.2 (V3.self_pos he)
  have p2 := Real.mul_self_sqrt (V3.self_nonneg d)
  have q2 := Real.mul_self_sqrt (V3.self_nonneg e)
  have r2 := Real.mul_self_sqrt (V3.self_nonneg (e.sub d))
  have hr : 0 ≤ Real.sqrt ((e.sub d).dot (e.sub d)) := Real.sqrt_nonneg _
  have hc := V3.cauchy_strict h
  have hx : (e.sub d).dot (e.sub d) = e.dot e + d.dot d - 2 * d.dot e := by
    simp only [V3.dot, V3.sub]; ring
  generalize hP : Real.sqrt (d.dot d) = p at *
  generalize hQ : Real.sqrt (e.dot e) = q at *
  generalize hR : Real.sqrt ((e.sub d).dot (e.sub d)) = r at *
  rw [hx, ← q2, ← p2] at r2
  rw [← q2, ← p2] at hc
  have hlt : d.dot e < p * q := by
    by_contra hcon
    push Not at hcon
    nlinarith [mul_pos hp hq]
  have hgt : -(p * q) < d.dot e := by
    by_contra hcon
    push Not at hcon
    nlinarith [mul_pos hp hq]
  have h1 : r < p + q := by
    by_contra hcon
    push Not at hcon
    nlinarith
  have h2 : p - q < r := by
    by_contra hcon
    push Not at hcon
    nlinarith
  have h3 : q - p < r := by
    by_contra hcon
    push Not at hcon
    nlinarith
  intro heq
  rcases le_total p q with hle | hle
  · have h4 : p + q - r < 2 * p := by linarith
    have h5 : 0 < p + q - r := by linarith
    nlinarith
  · have h4 : p + q - r < 2 * q := by linarith
    have h5 : 0 < p + q - r := by linarith
    nlinarith

/-! ## Exact shapes -/

/-- The shape is that of the three positions. -/
structure ExactShape (c0 c1 c2 : V3 ℝ) (s : TripletShape) : Prop where
  rot0 : s.turn0.IsRotation
  rot1 : s.turn1.IsRotation
  rot2 : s.turn2.IsRotation
  map0 : (s.turn0.mulVec (c1.sub c0)).smul (s.d02 / s.d01) = c2.sub c0
  map1 : (s.turn1.mulVec (c2.sub c1)).smul (s.d01 / s.d12) = c0.sub c1
  map2 : (s.turn2.mulVec (c0.sub c2)).smul (s.d12 / s.d02) = c1.sub c2
  fix0 : s.turn0.mulVec ((c1.sub c0).cross (c2.sub c0)) = (c1.sub c0).cross (c2.sub c0)
  fix1 : s.turn1.mulVec ((c1.sub c0).cross (c2.sub c0)) = (c1.sub c0).cross (c2.sub c0)
  fix2 : s.turn2.mulVec ((c1.sub c0).cross (c2.sub c0)) = (c1.sub c0).cross (c2.sub c0)
  pos01 : 0 < s.d01
  pos02 : 0 < s.d02
  pos12 : 0 < s.d12
  lengths : ∃ k : ℝ, 0 < k ∧ dist3 c0 c1 = k * s.d01 ∧ dist3 c0 c2 = k * s.d02 ∧ dist3 c1 c2 = k * s.d12

theorem transpose_map {m : M3 ℝ} (hm : m.IsRotation) {a b : V3 ℝ} {s : ℝ} (hs : s ≠ 0) (h : (m.mulVec a).smul s = b) :
    (m.transpose.mulVec b).smul s⁻¹ = a := by
  rw [← h, M3.mulVec_smul, hm.transpose_mulVec, V3.smul_smul, inv_mul_cancel₀ hs, V3.one_smul']

theorem transpose_fix {m : M3 ℝ} (hm : m.IsRotation) {a : V3 ℝ} (h : m.mulVec a = a) : m.transpose.mulVec a = a := by
  have := hm.transpose_mulVec a
  rwa [h] at this

theorem ExactShape.map0' {c0 c1 c2 : V3 ℝ} {s : TripletShape} (h : ExactShape c0 c1 c2 s) :
    (s.turn0.transpose.mulVec (c2.sub c0)).smul (s.d01 / s.d02) = c1.sub c0 := by
  have := transpose_map h.rot0 (div_pos h.pos02 h.pos01).ne' h.map0
  rwa [inv_div] at this

theorem ExactShape.map1' {c0 c1 c2 : V3 ℝ} {s : TripletShape} (h : ExactShape c0 c1 c2 s) :
    (s.turn1.transpose.mulVec (c0.sub c1)).smul (s.d12 / s.d01) = c2.sub c1 := by
  have := transpose_map h.rot1 (div_pos h.pos01 h.pos12).ne' h.map1
  rwa [inv_div] at this

theorem ExactShape.map2' {c0 c1 c2 : V3 ℝ} {s : TripletShape} (h : ExactShape c0 c1 c2 s) :
    (s.turn2.transpose.mulVec (c1.sub c2)).smul (s.d02 / s.d12) = c0.sub c2 := by
  have := transpose_map h.rot2 (div_pos h.pos12 h.pos02).ne' h.map2
  rwa [inv_div] at this

theorem sqDist_zero {a b : V3 ℝ} (h : a = b) : sqDist a b = 0 := by
  subst h
  simp [sqDist, V3.sub, V3.dot]

theorem eq_of_sqDist {a b : V3 ℝ} (h : sqDist a b = 0) : a = b := V3.sub_eq_zero (V3.self_eq_zero h)

theorem sqDist_nonneg (a b : V3 ℝ) : 0 ≤ sqDist a b := V3.self_nonneg _

theorem shapeCost_nonneg (s : TripletShape) (y0 y1 y2 : V3 ℝ) : 0 ≤ shapeCost s y0 y1 y2 :=
  add_nonneg (add_nonneg (sqDist_nonneg _ _) (sqDist_nonneg _ _)) (sqDist_nonneg _ _)

/-- The shape fits the positions, moved and scaled. -/
theorem ExactShape.cost {c0 c1 c2 : V3 ℝ} {s : TripletShape} (h : ExactShape c0 c1 c2 s) (f : V3 ℝ) (a : ℝ) :
    shapeCost s ((c0.sub f).smul a) ((c1.sub f).smul a) ((c2.sub f).smul a) = 0 := by
  have hsub : ∀ x y : V3 ℝ, ((x.sub f).smul a).sub ((y.sub f).smul a) = (x.sub y).smul a := by
    intro x y
    apply V3.ext <;> simp only [V3.sub, V3.smul] <;> ring
  have hmove : ∀ (m : M3 ℝ) (v : V3 ℝ) (k : ℝ), (m.mulVec (v.smul a)).smul k = ((m.mulVec v).smul k).smul a := by
    intro m v k
    rw [M3.mulVec_smul, V3.smul_smul, V3.smul_smul, mul_comm]
  unfold shapeCost
  simp only [hsub, hmove]
  rw [h.map0, h.map1, h.map2, h.map0', h.map1', h.map2']
  rw [sqDist_zero, sqDist_zero, sqDist_zero]
  · norm_num
  all_goals apply V3.ext <;> simp only [V3.add, V3.sub, V3.smul] <;> ring

theorem commute_cross {m : M3 ℝ} (hm : m.IsRotation) {n a b : V3 ℝ} {s : ℝ} (hn : m.mulVec n = n)
    (h : (m.mulVec a).smul s = b) : (m.mulVec (n.cross a)).smul s = n.cross b := by
  rw [mulVec_cross hm, hn, ← h]
  apply V3.ext <;> simp only [V3.cross, V3.smul] <;> ring

/-- Positions that fit the shape differ from the true ones by a scale and a rotation rate about the normal. -/
theorem ExactShape.kernel {c0 c1 c2 : V3 ℝ} {s : TripletShape} (h : ExactShape c0 c1 c2 s)
    (hn : (c1.sub c0).cross (c2.sub c0) ≠ V3.zero) {y0 y1 y2 : V3 ℝ} (h0 : shapeCost s y0 y1 y2 = 0) :
    ∃ (a : ℝ) (B : V3 ℝ), B.dot (c1.sub c0) = 0 ∧ B.dot (c2.sub c0) = 0 ∧
      y1.sub y0 = ((c1.sub c0).smul a).add (B.cross (c1.sub c0)) ∧
      y2.sub y0 = ((c2.sub c0).smul a).add (B.cross (c2.sub c0)) := by
  have hz : sqDist ((y0.add ((s.turn0.mulVec (y1.sub y0)).smul (s.d02 / s.d01))).add
      (y1.add ((s.turn1.transpose.mulVec (y0.sub y1)).smul (s.d12 / s.d01)))) (y2.smul 2) = 0 ∧
      sqDist ((y0.add ((s.turn0.transpose.mulVec (y2.sub y0)).smul (s.d01 / s.d02))).add
      (y2.add ((s.turn2.mulVec (y0.sub y2)).smul (s.d12 / s.d02)))) (y1.smul 2) = 0 := by
    unfold shapeCost at h0
    have i1 := sqDist_nonneg ((y0.add ((s.turn0.mulVec (y1.sub y0)).smul (s.d02 / s.d01))).add
      (y1.add ((s.turn1.transpose.mulVec (y0.sub y1)).smul (s.d12 / s.d01)))) (y2.smul 2)
    have i2 := sqDist_nonneg ((y0.add ((s.turn0.transpose.mulVec (y2.sub y0)).smul (s.d01 / s.d02))).add
      (y2.add ((s.turn2.mulVec (y0.sub y2)).smul (s.d12 / s.d02)))) (y1.smul 2)
    have i3 := sqDist_nonneg ((y1.add ((s.turn1.mulVec (y2.sub y1)).smul (s.d01 / s.d12))).add
      (y2.add ((s.turn2.transpose.mulVec (y1.sub y2)).smul (s.d02 / s.d12)))) (y0.smul 2)
    constructor <;> linarith
  have e1 := eq_of_sqDist hz.1
  have e2 := eq_of_sqDist hz.2
  have m0 := h.map0
  have m1 := h.map1'
  have m0' := h.map0'
  have m2 := h.map2
  have hd : c1.sub c0 ≠ V3.zero := by
    intro hd
    apply hn
    rw [hd]
    apply V3.ext <;> simp [V3.cross, V3.zero]
  have hlen := lengths_ne hn
  have f0 := h.fix0
  have f1 := transpose_fix h.rot1 h.fix1
  have f0' := transpose_fix h.rot0 h.fix0
  have f2 := h.fix2
  have hdn : (c1.sub c0).dot ((c1.sub c0).cross (c2.sub c0)) = 0 := by
    simp only [V3.dot, V3.cross]; ring
  have hen : ((c1.sub c0).cross (c2.sub c0)).dot (c2.sub c0) = 0 := by
    simp only [V3.dot, V3.cross]; ring
  -- the maps in terms of the differences
  have n1 : (s.turn1.transpose.mulVec (c1.sub c0)).smul (s.d12 / s.d01) = c1.sub c2 := by
    have hneg : c1.sub c0 = (c0.sub c1).neg := by apply V3.ext <;> simp only [V3.sub, V3.neg] <;> ring
    have hneg2 : c1.sub c2 = (c2.sub c1).neg := by apply V3.ext <;> simp only [V3.sub, V3.neg] <;> ring
    rw [hneg, hneg2, M3.mulVec_neg, ← m1]
    apply V3.ext <;> simp only [V3.smul, V3.neg] <;> ring
  have n2 : (s.turn2.mulVec (c2.sub c0)).smul (s.d12 / s.d02) = c2.sub c1 := by
    have hneg : c2.sub c0 = (c0.sub c2).neg := by apply V3.ext <;> simp only [V3.sub, V3.neg] <;> ring
    have hneg2 : c2.sub c1 = (c1.sub c2).neg := by apply V3.ext <;> simp only [V3.sub, V3.neg] <;> ring
    rw [hneg, hneg2, M3.mulVec_neg, ← m2]
    apply V3.ext <;> simp only [V3.smul, V3.neg] <;> ring
  have k0 := commute_cross h.rot0 f0 m0
  have k1 := commute_cross h.rot1.transpose f1 n1
  have k0' := commute_cross h.rot0.transpose f0' m0'
  have k2 := commute_cross h.rot2 f2 n2
  -- lengths
  obtain ⟨k, hk, l01, l02, l12⟩ := h.lengths
  have l12' : dist3 c1 c2 = Real.sqrt (((c2.sub c0).sub (c1.sub c0)).dot ((c2.sub c0).sub (c1.sub c0))) := by
    have : (c2.sub c0).sub (c1.sub c0) = c2.sub c1 := by apply V3.ext <;> simp only [V3.sub] <;> ring
    rw [this]
    rfl
  rw [← l12', show Real.sqrt ((c1.sub c0).dot (c1.sub c0)) = dist3 c0 c1 from rfl,
    show Real.sqrt ((c2.sub c0).dot (c2.sub c0)) = dist3 c0 c2 from rfl, l01, l02, l12] at hlen
  have p01 := h.pos01
  have p02 := h.pos02
  have p12 := h.pos12
  obtain ⟨a, b, g, hx⟩ := decompose hd hn hdn (y1.sub y0)
  have lin : ∀ (m : M3 ℝ) (p q r : V3 ℝ) (x y z w : ℝ),
      (m.mulVec (((p.smul x).add (q.smul y)).add (r.smul z))).smul w =
        ((((m.mulVec p).smul w).smul x).add (((m.mulVec q).smul w).smul y)).add (((m.mulVec r).smul w).smul z) := by
    intro m p q r x y z w
    rw [M3.mulVec_add, M3.mulVec_add, M3.mulVec_smul, M3.mulVec_smul, M3.mulVec_smul]
    apply V3.ext <;> simp only [V3.add, V3.smul] <;> ring
  generalize hnn : (c1.sub c0).cross (c2.sub c0) = n at *
  -- the second difference
  have hy01 : y0.sub y1 = (y1.sub y0).neg := by apply V3.ext <;> simp only [V3.sub, V3.neg] <;> ring
  have hy02 : y0.sub y2 = (y2.sub y0).neg := by apply V3.ext <;> simp only [V3.sub, V3.neg] <;> ring
  have hsn : ∀ (m : M3 ℝ) (v : V3 ℝ) (w : ℝ), (m.mulVec v.neg).smul w = ((m.mulVec v).smul w).neg := by
    intro m v w
    rw [M3.mulVec_neg]
    apply V3.ext <;> simp only [V3.smul, V3.neg] <;> ring
  have hzz : y2.sub y0 = (((c2.sub c0).smul a).add ((n.cross (c2.sub c0)).smul b)).add
      (n.smul (g * (s.d02 / s.d01 + 1 - s.d12 / s.d01) / 2)) := by
    rw [hy01, hsn, hx, lin, lin, m0, k0, f0, n1, k1, f1] at e1
    have hx1 := congrArg V3.x hx
    have hx2 := congrArg V3.y hx
    have hx3 := congrArg V3.z hx
    have t1 := congrArg V3.x e1
    have t2 := congrArg V3.y e1
    have t3 := congrArg V3.z e1
    simp only [V3.add, V3.smul, V3.sub, V3.neg, V3.cross] at t1 t2 t3 hx1 hx2 hx3
    apply V3.ext <;> simp only [V3.add, V3.smul, V3.sub, V3.cross]
    · linear_combination (1 / 2) * hx1 - (1 / 2) * t1
    · linear_combination (1 / 2) * hx2 - (1 / 2) * t2
    · linear_combination (1 / 2) * hx3 - (1 / 2) * t3
  generalize hg' : g * (s.d02 / s.d01 + 1 - s.d12 / s.d01) / 2 = g' at hzz
  have hxx : y1.sub y0 = (((c1.sub c0).smul a).add ((n.cross (c1.sub c0)).smul b)).add
      (n.smul (g' * (s.d01 / s.d02 + 1 - s.d12 / s.d02) / 2)) := by
    rw [hy02, hsn, hzz, lin, lin, m0', k0', f0', n2, k2, f2] at e2
    have hx1 := congrArg V3.x hzz
    have hx2 := congrArg V3.y hzz
    have hx3 := congrArg V3.z hzz
    have t1 := congrArg V3.x e2
    have t2 := congrArg V3.y e2
    have t3 := congrArg V3.z e2
    simp only [V3.add, V3.smul, V3.sub, V3.neg, V3.cross] at t1 t2 t3 hx1 hx2 hx3
    apply V3.ext <;> simp only [V3.add, V3.smul, V3.sub, V3.cross]
    · linear_combination (1 / 2) * hx1 - (1 / 2) * t1
    · linear_combination (1 / 2) * hx2 - (1 / 2) * t2
    · linear_combination (1 / 2) * hx3 - (1 / 2) * t3
  have hg : g = 0 := by
    have hcan : n.smul (g - g' * (s.d01 / s.d02 + 1 - s.d12 / s.d02) / 2) = V3.zero := by
      have := hx.symm.trans hxx
      have t1 := congrArg V3.x this
      have t2 := congrArg V3.y this
      have t3 := congrArg V3.z this
      simp only [V3.add] at t1 t2 t3
      apply V3.ext <;> simp only [V3.smul, V3.zero] at t1 t2 t3 ⊢
      · linear_combination t1
      · linear_combination t2
      · linear_combination t3
    have h1 := smul_eq_zero_iff hn hcan
    by_contra hg
    apply hlen
    rw [← hg'] at h1
    have h2 : g * (4 * (s.d01 * s.d02) - (s.d01 + s.d02 - s.d12) * (s.d01 + s.d02 - s.d12)) = 0 := by
      field_simp at h1
      linear_combination h1
    have h3 := (mul_eq_zero.1 h2).resolve_left hg
    linear_combination (-(k * k)) * h3
  have hg0 : g' = 0 := by rw [← hg', hg]; ring
  refine ⟨a, n.smul b, ?_, ?_, ?_, ?_⟩
  · have : (n.smul b).dot (c1.sub c0) = b * (c1.sub c0).dot n := by simp only [V3.dot, V3.smul]; ring
    rw [this, hdn, mul_zero]
  · have : (n.smul b).dot (c2.sub c0) = b * n.dot (c2.sub c0) := by simp only [V3.dot, V3.smul]; ring
    rw [this, hen, mul_zero]
  · rw [hx, hg]
    apply V3.ext <;> simp only [V3.add, V3.smul, V3.cross] <;> ring
  · rw [hzz, hg0]
    apply V3.ext <;> simp only [V3.add, V3.smul, V3.cross] <;> ring

/-! ## Chains of triangles -/

/-- The differences of the positions of two views come from the scale `a` and the rotation rate `B`. -/
def Moves (c Y : Nat → V3 ℝ) (a : ℝ) (B : V3 ℝ) (v w : Nat) : Prop :=
  B.dot ((c w).sub (c v)) = 0 ∧ (Y w).sub (Y v) = (((c w).sub (c v)).smul a).add (B.cross ((c w).sub (c v)))

theorem Moves.refl (c Y : Nat → V3 ℝ) (a : ℝ) (B : V3 ℝ) (v : Nat) : Moves c Y a B v v := by
  constructor
  · simp [V3.dot, V3.sub]
  · apply V3.ext <;> simp [V3.sub, V3.add, V3.smul, V3.cross]

theorem Moves.symm {c Y : Nat → V3 ℝ} {a : ℝ} {B : V3 ℝ} {v w : Nat} (h : Moves c Y a B v w) : Moves c Y a B w v := by
  obtain ⟨h1, h2⟩ := h
  constructor
  · have : B.dot ((c v).sub (c w)) = -B.dot ((c w).sub (c v)) := by simp only [V3.dot, V3.sub]; ring
    rw [this, h1, neg_zero]
  · have t1 := congrArg V3.x h2
    have t2 := congrArg V3.y h2
    have t3 := congrArg V3.z h2
    simp only [V3.add, V3.smul, V3.sub, V3.cross] at t1 t2 t3
    apply V3.ext <;> simp only [V3.add, V3.smul, V3.sub, V3.cross]
    · linear_combination -t1
    · linear_combination -t2
    · linear_combination -t3

theorem Moves.trans {c Y : Nat → V3 ℝ} {a : ℝ} {B : V3 ℝ} {v w x : Nat} (h : Moves c Y a B v w) (h' : Moves c Y a B w x) :
    Moves c Y a B v x := by
  obtain ⟨h1, h2⟩ := h
  obtain ⟨h1', h2'⟩ := h'
  constructor
  · have : B.dot ((c x).sub (c v)) = B.dot ((c w).sub (c v)) + B.dot ((c x).sub (c w)) := by
      simp only [V3.dot, V3.sub]; ring
    rw [this, h1, h1', add_zero]
  · have t1 := congrArg V3.x h2
    have t2 := congrArg V3.y h2
    have t3 := congrArg V3.z h2
    have u1 := congrArg V3.x h2'
    have u2 := congrArg V3.y h2'
    have u3 := congrArg V3.z h2'
    simp only [V3.add, V3.smul, V3.sub, V3.cross] at t1 t2 t3 u1 u2 u3
    apply V3.ext <;> simp only [V3.add, V3.smul, V3.sub, V3.cross]
    · linear_combination t1 + u1
    · linear_combination t2 + u2
    · linear_combination t3 + u3

theorem Moves.unique {c Y : Nat → V3 ℝ} {a a' : ℝ} {B B' : V3 ℝ} {v w : Nat} (hne : c v ≠ c w) (h : Moves c Y a B v w)
    (h' : Moves c Y a' B' v w) : a = a' ∧ B = B' := by
  obtain ⟨h1, h2⟩ := h
  obtain ⟨h1', h2'⟩ := h'
  have hd : (c w).sub (c v) ≠ V3.zero := fun e => hne (V3.sub_eq_zero e).symm
  generalize (c w).sub (c v) = d at *
  rw [h2] at h2'
  have pd := V3.self_pos hd
  constructor
  · have e : ((d.smul a).add (B.cross d)).dot d = ((d.smul a').add (B'.cross d)).dot d := by rw [h2']
    have e1 : ∀ (x : ℝ) (C : V3 ℝ), ((d.smul x).add (C.cross d)).dot d = x * d.dot d := by
      intro x C
      simp only [V3.dot, V3.add, V3.smul, V3.cross]; ring
    rw [e1, e1] at e
    exact mul_right_cancel₀ pd.ne' e
  · have e : d.cross ((d.smul a).add (B.cross d)) = d.cross ((d.smul a').add (B'.cross d)) := by rw [h2']
    have e1 : ∀ (x : ℝ) (C : V3 ℝ), C.dot d = 0 → d.cross ((d.smul x).add (C.cross d)) = C.smul (d.dot d) := by
      intro x C hC
      have : d.cross ((d.smul x).add (C.cross d)) = (C.smul (d.dot d)).sub (d.smul (C.dot d)) := by
        apply V3.ext <;> simp only [V3.dot, V3.add, V3.smul, V3.cross, V3.sub] <;> ring
      rw [this, hC, V3.zero_smul']
      apply V3.ext <;> simp [V3.sub, V3.zero]
    rw [e1 _ _ h1, e1 _ _ h1'] at e
    have e2 := congrArg (fun x => V3.smul (1 / d.dot d) x) e
    simp only [V3.smul_smul, one_div, inv_mul_cancel₀ pd.ne', V3.one_smul'] at e2
    exact e2

/-- All corners of a triplet move together. -/
def MovesAll (c Y : Nat → V3 ℝ) (a : ℝ) (B : V3 ℝ) (t : Nat × Nat × Nat) : Prop :=
  ∀ v w, Corner t v → Corner t w → Moves c Y a B v w

theorem movesAll_of {c Y : Nat → V3 ℝ} {a : ℝ} {B : V3 ℝ} {t : Nat × Nat × Nat} (h1 : Moves c Y a B t.1 t.2.1)
    (h2 : Moves c Y a B t.1 t.2.2) : MovesAll c Y a B t := by
  have key : ∀ v, Corner t v → Moves c Y a B t.1 v := by
    rintro v (rfl | rfl | rfl)
    · exact Moves.refl _ _ _ _ _
    · exact h1
    · exact h2
  intro v w hv hw
  exact (key v hv).symm.trans (key w hw)

theorem corners_differ {c : Nat → V3 ℝ} {t : Nat × Nat × Nat} (h : Nondegenerate c t) {v w : Nat} (hv : Corner t v)
    (hw : Corner t w) (hne : v ≠ w) : c v ≠ c w := by
  have h01 : c t.1 ≠ c t.2.1 := by
    intro e
    apply h
    rw [e]
    apply V3.ext <;> simp [V3.cross, V3.sub, V3.zero]
  have h02 : c t.1 ≠ c t.2.2 := by
    intro e
    apply h
    rw [e]
    apply V3.ext <;> simp [V3.cross, V3.sub, V3.zero]
  have h12 : c t.2.1 ≠ c t.2.2 := by
    intro e
    apply h
    rw [e]
    apply V3.ext <;> simp only [V3.cross, V3.sub, V3.zero] <;> ring
  rcases hv with rfl | rfl | rfl <;> rcases hw with rfl | rfl | rfl
  · exact absurd rfl hne
  · exact h01
  · exact h02
  · exact h01.symm
  · exact absurd rfl hne
  · exact h12
  · exact h02.symm
  · exact h12.symm
  · exact absurd rfl hne

/-- Along chains of triangles that share edges, all views move together. -/
theorem chain {E : List (Nat × Nat)} {c Y : Nat → V3 ℝ} {t : Nat × Nat × Nat} {a : ℝ} {B : V3 ℝ}
    (hloc : ∀ u, TriangleConnected E t u → Nondegenerate c u ∧ ∃ a B, MovesAll c Y a B u) (ht : MovesAll c Y a B t) :
    ∀ u, TriangleConnected E t u → MovesAll c Y a B u ∧ ∀ w, Corner u w → Moves c Y a B t.1 w := by
  intro u hu
  induction hu with
  | refl => exact ⟨ht, fun w hw => ht t.1 w (Or.inl rfl) hw⟩
  | @tail b d hb hstep ih =>
    obtain ⟨ihm, ihw⟩ := ih
    obtain ⟨hnd, a', B', hd'⟩ := hloc d (hb.tail hstep)
    obtain ⟨-, -, x, y, hxy, hbx, hby, hdx, hdy⟩ := hstep
    have hne := corners_differ hnd hdx hdy hxy
    obtain ⟨rfl, rfl⟩ := Moves.unique hne (ihm x y hbx hby) (hd' x y hdx hdy)
    exact ⟨hd', fun w hw => (ihw x hbx).trans (hd' x w hdx hw)⟩

end LinearPosition
end Theia
