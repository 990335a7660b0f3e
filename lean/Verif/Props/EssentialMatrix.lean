import Verif.Proof.EssentialMatrix
import Verif.Props.Triangulation

/-!
# C56: the pose recovered from an essential matrix is the right one
-/

namespace Theia

open Triangulation EssentialMatrix Spec

/-- The cameras `I` and `[I | e3]`: an example of everything below. -/
noncomputable def forwardE : M3 ℝ := ⟨⟨0, -1, 0⟩, ⟨1, 0, 0⟩, ⟨0, 0, 0⟩⟩

/-- A decomposition of it. -/
noncomputable def forwardSvd : M3 ℝ → M3 ℝ × M3 ℝ := fun _ => (⟨⟨0, -1, 0⟩, ⟨1, 0, 0⟩, ⟨0, 0, 1⟩⟩, M3.one)

theorem forwardSvd_ok : IsSvd forwardE (forwardSvd forwardE).1 (forwardSvd forwardE).2 := by
  refine ⟨⟨?_, ?_⟩, ⟨?_, ?_⟩, ⟨1, 1, 0⟩, ?_, ?_, ?_, ?_⟩
  any_goals norm_num
  all_goals
    apply M3.ext <;> apply V3.ext <;>
      norm_num [forwardSvd, forwardE, M3.mul, M3.transpose, M3.mulVec, M3.one, V3.dot]

theorem forwardE_essential : IsEssential forwardE M3.one ⟨0, 0, 1⟩ 1 := by
  intro v
  apply V3.ext <;> simp [forwardE, M3.mulVec, M3.one, V3.dot, V3.cross, V3.smul]

/-! ## The candidates -/

/-- Whatever matrix is decomposed, the two matrices returned are rotations and the translation is a unit vector. -/
theorem C56_rotations {svd : M3 ℝ → M3 ℝ × M3 ℝ} {E : M3 ℝ} (hsvd : IsSvd E (svd E).1 (svd E).2) :
    (decompose svd E).1.IsRotation ∧ (decompose svd E).2.1.IsRotation ∧
      (decompose svd E).2.2.dot (decompose svd E).2.2 = 1 := by
  obtain ⟨h1, h2, -, h3⟩ := decompose_rotations hsvd.1 hsvd.2.1
  exact ⟨h1, h2, h3⟩

/-- The essential matrix of two cameras decomposes into their relative rotation and translation: one of the two rotations
is the one sought, and the translation is right up to sign. -/
theorem C56_decompose {svd : M3 ℝ → M3 ℝ × M3 ℝ} {E R : M3 ℝ} {t : V3 ℝ} {k : ℝ} (hsvd : IsSvd E (svd E).1 (svd E).2)
    (hR : R.IsRotation) (ht : t.dot t = 1) (hk : k ≠ 0) (hE : IsEssential E R t k) :
    (R = (decompose svd E).1 ∨ R = (decompose svd E).2.1) ∧
      (t = (decompose svd E).2.2 ∨ t = (decompose svd E).2.2.neg) := by
  have ht0 : t ≠ V3.zero := by
    rintro rfl; norm_num [V3.dot, V3.zero] at ht
  have hτ : t.smul k ≠ V3.zero := fun h => ht0 (V3.eq_zero_of_smul hk h)
  obtain ⟨c, hc, hcase⟩ := decompose_core hsvd hR hτ (by
    intro v
    rw [hE v]
    apply V3.ext <;> simp only [V3.cross, V3.smul] <;> ring)
  have hT := (C56_rotations hsvd).2.2
  refine ⟨hcase.imp And.right And.right, ?_⟩
  generalize (decompose svd E).2.2 = T at hc hT
  have hck : c * c = k * k := by
    have := congrArg (fun v : V3 ℝ => v.dot v) hc
    have e : ∀ (v : V3 ℝ) (x : ℝ), (v.smul x).dot (v.smul x) = x * x * v.dot v := by
      intro v x; simp only [V3.dot, V3.smul]; ring
    simp only [e, ht, hT] at this
    linarith
  rcases mul_self_eq_mul_self_iff.1 hck with h | h
  · left
    rw [h] at hc
    simp only [V3.smul, V3.mk.injEq] at hc
    exact V3.ext (mul_left_cancel₀ hk hc.1) (mul_left_cancel₀ hk hc.2.1) (mul_left_cancel₀ hk hc.2.2)
  · right
    rw [h] at hc
    simp only [V3.smul, V3.mk.injEq] at hc
    refine V3.ext (mul_left_cancel₀ hk ?_) (mul_left_cancel₀ hk ?_) (mul_left_cancel₀ hk ?_)
    · rw [hc.1]; simp only [V3.neg]; ring
    · rw [hc.2.1]; simp only [V3.neg]; ring
    · rw [hc.2.2]; simp only [V3.neg]; ring

/-- Both rotations of the decomposition, with the translation, have the same essential matrix up to sign and scale. -/
theorem C56_same_essential {svd : M3 ℝ → M3 ℝ × M3 ℝ} {E R : M3 ℝ} {t : V3 ℝ} {k : ℝ} (hsvd : IsSvd E (svd E).1 (svd E).2)
    (hR : R.IsRotation) (ht : t.dot t = 1) (hk : k ≠ 0) (hE : IsEssential E R t k) :
    IsEssential E (decompose svd E).1 (decompose svd E).2.2 |k| ∧
      IsEssential E (decompose svd E).2.1 (decompose svd E).2.2 (-|k|) := by
  have ht0 : t ≠ V3.zero := by
    rintro rfl; norm_num [V3.dot, V3.zero] at ht
  have hτ : t.smul k ≠ V3.zero := fun h => ht0 (V3.eq_zero_of_smul hk h)
  have hE' : ∀ v, E.mulVec v = (t.smul k).cross (R.mulVec v) := by
    intro v
    rw [hE v]
    apply V3.ext <;> simp only [V3.cross, V3.smul] <;> ring
  obtain ⟨c, hc, hcase⟩ := decompose_core hsvd hR hτ hE'
  have hT := (C56_rotations hsvd).2.2
  have htw := twisted hsvd.1 hsvd.2.1
  rw [hc] at hE'
  have hck : c * c = k * k := by
    have := congrArg (fun v : V3 ℝ => v.dot v) hc
    have e : ∀ (v : V3 ℝ) (x : ℝ), (v.smul x).dot (v.smul x) = x * x * v.dot v := by
      intro v x; simp only [V3.dot, V3.smul]; ring
    simp only [e, ht, hT] at this
    linarith
  have habs : |c| = |k| := by
    rw [← sq_eq_sq_iff_abs_eq_abs, sq, sq, hck]
  have hx : ∀ v, (decompose svd E).2.2.cross ((decompose svd E).2.1.mulVec v) =
      ((decompose svd E).2.2.cross ((decompose svd E).1.mulVec v)).neg := by
    intro v
    rw [htw]
    apply V3.ext <;> simp only [V3.cross, V3.smul, V3.sub, V3.neg] <;> ring
  rw [← habs]
  rcases hcase with ⟨hpos, hR1⟩ | ⟨hneg, hR2⟩
  · rw [abs_of_pos hpos]
    constructor
    · intro v
      rw [hE', hR1]
      apply V3.ext <;> simp only [V3.cross, V3.smul] <;> ring
    · intro v
      rw [hx, hE', hR1]
      apply V3.ext <;> simp only [V3.cross, V3.smul, V3.neg] <;> ring
  · rw [abs_of_neg hneg, neg_neg]
    constructor
    · intro v
      have := hx v
      rw [hE', hR2]
      generalize (decompose svd E).2.1.mulVec v = a at this ⊢
      generalize (decompose svd E).1.mulVec v = b at this ⊢
      simp only [V3.cross, V3.neg, V3.mk.injEq] at this
      obtain ⟨h1, h2, h3⟩ := this
      apply V3.ext <;> simp only [V3.cross, V3.smul]
      · linear_combination c * h1
      · linear_combination c * h2
      · linear_combination c * h3
    · intro v
      rw [hE', hR2]
      apply V3.ext <;> simp only [V3.cross, V3.smul] <;> ring

example : IsEssential forwardE (decompose forwardSvd forwardE).1 (decompose forwardSvd forwardE).2.2 |1| :=
  (C56_same_essential forwardSvd_ok M3.IsRotation.one (by norm_num [V3.dot]) one_ne_zero forwardE_essential).1

/-! ## The best pose -/

/-- The pose returned is one of the candidates, and the number returned is the number of correspondences in front of both
cameras for it; no candidate has more. -/
theorem C56_best_count (svd : M3 ℝ → M3 ℝ × M3 ℝ) (E : M3 ℝ) (corrs : List (V2 × V2)) :
    ∃ n R p, bestPose svd E corrs = some (n, R, p) ∧ (R, p) ∈ candidates svd E ∧
      n = corrs.countP (fun c => inFront c R p) ∧
      ∀ q ∈ candidates svd E, corrs.countP (fun c => inFront c q.1 q.2) ≤ n := by
  unfold bestPose
  cases hc : candidates svd E with
  | nil => simp [candidates] at hc
  | cons a as =>
    obtain ⟨h1, h2⟩ := firstMax_spec (fun p => countInFront p corrs) as a
    refine ⟨_, _, _, rfl, h1, countInFront_eq _ _, fun q hq => ?_⟩
    have := h2 q hq
    simp only [countInFront_eq] at this ⊢
    exact this

theorem centre_unique {R : M3 ℝ} (hR : R.IsRotation) {t c : V3 ℝ} (h : Centre R t c) : c = (R.transpose.mulVec t).neg := by
  have e : R.mulVec c = t.neg := by
    simp only [Centre, V3.add, V3.zero, V3.mk.injEq] at h
    apply V3.ext <;> simp only [V3.neg] <;> linarith [h.1, h.2.1, h.2.2]
  rw [← M3.mulVec_neg, ← e, hR.transpose_mulVec]

theorem centre_exists {R : M3 ℝ} (hR : R.IsRotation) (t : V3 ℝ) : Centre R t (R.transpose.mulVec t).neg := by
  rw [Centre, M3.mulVec_neg, hR.mulVec_transpose]
  apply V3.ext <;> simp [V3.add, V3.neg, V3.zero]

/-- A good correspondence passes the test for the right pose and fails it for the other three. -/
theorem good_inFront {R R' : M3 ℝ} (hR : R.IsRotation) {t T : V3 ℝ} (ht : t.dot t = 1) (htT : t = T ∨ t = T.neg)
    (hR' : ∀ v, R'.transpose.mulVec v = ((R.transpose.mulVec T).smul (2 * T.dot v)).sub (R.transpose.mulVec v))
    {f : V2 × V2} (hf : GoodCorrespondence R t f) :
    inFront f R (R.transpose.mulVec t).neg = true ∧ inFront f R (R.transpose.mulVec t) = false ∧
      inFront f R' (R.transpose.mulVec t).neg = false ∧ inFront f R' (R.transpose.mulVec t) = false := by
  obtain ⟨f1, f2⟩ := f
  obtain ⟨X, z1, z2, hz1, hz2, hs1, hs2, hpar⟩ := hf
  have hc := centre_exists hR t
  have hX1 : X = (homog f1).smul z1 := by
    rw [SeesAt, M3.one_mulVec] at hs1
    rw [show (homog f1).smul z1 = (⟨f1.1, f1.2, 1⟩ : V3 ℝ).smul z1 from rfl, ← hs1]
    apply V3.ext <;> simp [V3.add, V3.smul, V3.zero]
  have hX2 : X = (R.transpose.mulVec t).neg.add ((R.transpose.mulVec (homog f2)).smul z2) := by
    rw [SeesAt, V3.one_smul'] at hs2
    have := congrArg R.transpose.mulVec hs2
    rw [M3.mulVec_add, hR.transpose_mulVec, M3.mulVec_smul] at this
    rw [show R.transpose.mulVec (homog f2) = R.transpose.mulVec (⟨f2.1, f2.2, 1⟩ : V3 ℝ) from rfl, ← this]
    apply V3.ext <;> simp only [V3.add, V3.neg] <;> ring
  have hd1 : RayOf M3.one f1 (homog f1) := by rw [RayOf, M3.one_mulVec]; rfl
  have hd2 : RayOf R f2 (R.transpose.mulVec (homog f2)) := by rw [RayOf, hR.mulVec_transpose]; rfl
  have hnp : ¬ Parallel (homog f1) (R.transpose.mulVec (homog f2)) := by
    intro hp
    refine hpar _ hc ?_
    unfold Parallel at hp ⊢
    have e : (R.transpose.mulVec t).neg = X.sub ((R.transpose.mulVec (homog f2)).smul z2) := by
      rw [hX2]; apply V3.ext <;> simp only [V3.add, V3.sub] <;> ring
    rw [e, hX1]
    generalize R.transpose.mulVec (homog f2) = d2 at hp
    generalize homog f1 = d1 at hp
    simp only [V3.cross, V3.zero, V3.mk.injEq] at hp
    obtain ⟨h1, h2, h3⟩ := hp
    apply V3.ext <;> simp only [V3.cross, V3.smul, V3.sub, V3.zero]
    · linear_combination (-(z1 * z2)) * h1
    · linear_combination (-(z1 * z2)) * h2
    · linear_combination (-(z1 * z2)) * h3
  have htrue : inFront (f1, f2) R (R.transpose.mulVec t).neg = true :=
    (C49_cheirality_exact hR hc hs1 hs2 hd1 hd2 hnp).2 ⟨hz1, hz2⟩
  have nn : (R.transpose.mulVec t).neg.neg = R.transpose.mulVec t := by
    apply V3.ext <;> simp [V3.neg]
  have hpp : (R.transpose.mulVec t).neg.dot (R.transpose.mulVec t).neg = 1 := by
    have := hR.transpose.dot t t
    rw [ht] at this
    rw [← this]; simp only [V3.dot, V3.neg]; ring
  have htw : R'.transpose.mulVec (homog f2) = ((R.transpose.mulVec t).neg.smul
      (2 * (R.transpose.mulVec t).neg.dot (R.transpose.mulVec (homog f2)))).sub (R.transpose.mulVec (homog f2)) := by
    have e : ∀ a b : V3 ℝ, a.neg.dot b = -a.dot b := by
      intro a b; simp only [V3.dot, V3.neg]; ring
    rw [hR', e, hR.transpose.dot]
    congr 1
    rcases htT with rfl | rfl
    · apply V3.ext <;> simp only [V3.smul, V3.neg] <;> ring
    · rw [M3.mulVec_neg, e]
      apply V3.ext <;> simp only [V3.smul, V3.neg] <;> ring
  refine ⟨htrue, ?_, ?_, ?_⟩
  · have := inFront_neg htrue
    rwa [nn] at this
  · exact inFront_twisted hpp htw hX1 hX2 hz1 htrue _ (Or.inl rfl)
  · exact inFront_twisted hpp htw hX1 hX2 hz1 htrue _ (Or.inr nn.symm)

/-- Let `E` be the essential matrix of two cameras, and more than half of the correspondences come from points in front of
both, off the line joining them. Then the pose returned is that of the second camera, whatever the other correspondences
are, and the number returned is at least the number of the former. -/
theorem C56_recovers {svd : M3 ℝ → M3 ℝ × M3 ℝ} {E R : M3 ℝ} {t : V3 ℝ} {k : ℝ} (hsvd : IsSvd E (svd E).1 (svd E).2)
    (hR : R.IsRotation) (ht : t.dot t = 1) (hk : k ≠ 0) (hE : IsEssential E R t k) {corrs good bad : List (V2 × V2)}
    (hperm : corrs.Perm (good ++ bad)) (hgood : ∀ f ∈ good, GoodCorrespondence R t f) (hmaj : bad.length < good.length) :
    ∃ n p, bestPose svd E corrs = some (n, R, p) ∧ Centre R t p ∧ good.length ≤ n := by
  obtain ⟨hRR, htT⟩ := C56_decompose hsvd hR ht hk hE
  obtain ⟨hR1, hR2, hTT⟩ := C56_rotations hsvd
  have htw := twisted hsvd.1 hsvd.2.1
  -- the second rotation, transposed, in terms of the first, and conversely
  have tr1 : ∀ v, (decompose svd E).2.1.transpose.mulVec v =
      (((decompose svd E).1.transpose.mulVec (decompose svd E).2.2).smul (2 * (decompose svd E).2.2.dot v)).sub
        ((decompose svd E).1.transpose.mulVec v) := by
    intro v
    have key : ∀ u, ((decompose svd E).2.1.transpose.mulVec v).dot u =
        ((((decompose svd E).1.transpose.mulVec (decompose svd E).2.2).smul (2 * (decompose svd E).2.2.dot v)).sub
        ((decompose svd E).1.transpose.mulVec v)).dot u := by
      intro u
      have e1 : ((decompose svd E).2.1.transpose.mulVec v).dot u = v.dot ((decompose svd E).2.1.mulVec u) := by
        rw [M3.dot_mulVec]; rfl
      have e2 : ∀ a : V3 ℝ, ((decompose svd E).1.transpose.mulVec a).dot u = a.dot ((decompose svd E).1.mulVec u) := by
        intro a; rw [M3.dot_mulVec]; rfl
      have e3 : ∀ (a b c : V3 ℝ) (x : ℝ), ((a.smul x).sub b).dot c = x * a.dot c - b.dot c := by
        intro a b c x; simp only [V3.dot, V3.sub, V3.smul]; ring
      have e4 : ∀ (a b c : V3 ℝ) (x : ℝ), c.dot ((a.smul x).sub b) = x * a.dot c - c.dot b := by
        intro a b c x; simp only [V3.dot, V3.sub, V3.smul]; ring
      rw [e1, htw, e3, e4, e2, e2]
      ring
    have k1 := key ⟨1, 0, 0⟩
    have k2 := key ⟨0, 1, 0⟩
    have k3 := key ⟨0, 0, 1⟩
    generalize (decompose svd E).2.1.transpose.mulVec v = a at k1 k2 k3 ⊢
    generalize (((decompose svd E).1.transpose.mulVec (decompose svd E).2.2).smul (2 * (decompose svd E).2.2.dot v)).sub
        ((decompose svd E).1.transpose.mulVec v) = b at k1 k2 k3 ⊢
    simp only [V3.dot, mul_one, mul_zero, add_zero, zero_add] at k1 k2 k3
    exact V3.ext k1 k2 k3
  have hsame : (decompose svd E).2.1.transpose.mulVec (decompose svd E).2.2 =
      (decompose svd E).1.transpose.mulVec (decompose svd E).2.2 := by
    rw [tr1, hTT]
    apply V3.ext <;> simp only [V3.sub, V3.smul] <;> ring
  have tr2 : ∀ v, (decompose svd E).1.transpose.mulVec v =
      (((decompose svd E).2.1.transpose.mulVec (decompose svd E).2.2).smul (2 * (decompose svd E).2.2.dot v)).sub
        ((decompose svd E).2.1.transpose.mulVec v) := by
    intro v
    rw [hsame, tr1]
    apply V3.ext <;> simp only [V3.sub, V3.smul] <;> ring
  -- the candidates, seen from the right one
  obtain ⟨R', hR', hcand⟩ : ∃ R' : M3 ℝ, (∀ v, R'.transpose.mulVec v =
      ((R.transpose.mulVec (decompose svd E).2.2).smul (2 * (decompose svd E).2.2.dot v)).sub (R.transpose.mulVec v)) ∧
      ∀ q : M3 ℝ × V3 ℝ, q ∈ candidates svd E ↔ q = (R, (R.transpose.mulVec t).neg) ∨ q = (R, R.transpose.mulVec t) ∨
        q = (R', (R.transpose.mulVec t).neg) ∨ q = (R', R.transpose.mulVec t) := by
    have nn : ∀ v : V3 ℝ, v.neg.neg = v := by
      intro v; apply V3.ext <;> simp [V3.neg]
    rcases hRR with rfl | rfl
    · refine ⟨(decompose svd E).2.1, tr1, fun q => ?_⟩
      have : candidates svd E = [((decompose svd E).1, ((decompose svd E).1.transpose.mulVec (decompose svd E).2.2).neg),
          ((decompose svd E).1, ((decompose svd E).1.transpose.mulVec (decompose svd E).2.2.neg).neg),
          ((decompose svd E).2.1, ((decompose svd E).2.1.transpose.mulVec (decompose svd E).2.2).neg),
          ((decompose svd E).2.1, ((decompose svd E).2.1.transpose.mulVec (decompose svd E).2.2.neg).neg)] := rfl
      rw [this]
      simp only [M3.mulVec_neg, hsame, nn, List.mem_cons, List.not_mem_nil, or_false]
      rcases htT with h | h
      · rw [h]
      · rw [h, M3.mulVec_neg, nn]
        constructor <;> (rintro (h | h | h | h) <;> simp [h])
    · refine ⟨(decompose svd E).1, tr2, fun q => ?_⟩
      have : candidates svd E = [((decompose svd E).1, ((decompose svd E).1.transpose.mulVec (decompose svd E).2.2).neg),
          ((decompose svd E).1, ((decompose svd E).1.transpose.mulVec (decompose svd E).2.2.neg).neg),
          ((decompose svd E).2.1, ((decompose svd E).2.1.transpose.mulVec (decompose svd E).2.2).neg),
          ((decompose svd E).2.1, ((decompose svd E).2.1.transpose.mulVec (decompose svd E).2.2.neg).neg)] := rfl
      rw [this]
      simp only [M3.mulVec_neg, hsame, nn, List.mem_cons, List.not_mem_nil, or_false]
      rcases htT with h | h
      · rw [h, hsame]
        constructor <;> (rintro (h | h | h | h) <;> simp [h])
      · rw [h, M3.mulVec_neg, nn, hsame]
        constructor <;> (rintro (h | h | h | h) <;> simp [h])
  obtain ⟨n, B, p, hb, hmem, hn, hmax⟩ := C56_best_count svd E corrs
  have hcount : ∀ q : M3 ℝ × V3 ℝ, corrs.countP (fun c => inFront c q.1 q.2) =
      good.countP (fun c => inFront c q.1 q.2) + bad.countP (fun c => inFront c q.1 q.2) := by
    intro q; rw [hperm.countP_eq, List.countP_append]
  have htrue : good.countP (fun c => inFront c R (R.transpose.mulVec t).neg) = good.length :=
    List.countP_eq_length.2 fun f hf => (good_inFront hR ht htT hR' (hgood f hf)).1
  have hge : good.length ≤ n := by
    have := hmax _ ((hcand _).2 (Or.inl rfl))
    rw [hcount] at this
    simp only at this
    omega
  have hfalse : ∀ q : M3 ℝ × V3 ℝ, (∀ f ∈ good, inFront f q.1 q.2 = false) →
      corrs.countP (fun c => inFront c q.1 q.2) < good.length := by
    intro q hq
    have h0 : good.countP (fun c => inFront c q.1 q.2) = 0 := by
      rw [List.countP_eq_zero]
      intro f hf; simp [hq f hf]
    have := List.countP_le_length (l := bad) (p := fun c => inFront c q.1 q.2)
    rw [hcount, h0]
    omega
  rcases (hcand _).1 hmem with h | h | h | h
  · obtain ⟨rfl, rfl⟩ := Prod.mk.inj h
    exact ⟨n, _, hb, centre_exists hR t, hge⟩
  · exfalso
    obtain ⟨rfl, rfl⟩ := Prod.mk.inj h
    have := hfalse (B, B.transpose.mulVec t) fun f hf => (good_inFront hR ht htT hR' (hgood f hf)).2.1
    dsimp only at this
    omega
  · exfalso
    obtain ⟨rfl, rfl⟩ := Prod.mk.inj h
    have := hfalse (B, (R.transpose.mulVec t).neg) fun f hf => (good_inFront hR ht htT hR' (hgood f hf)).2.2.1
    dsimp only at this
    omega
  · exfalso
    obtain ⟨rfl, rfl⟩ := Prod.mk.inj h
    have := hfalse (B, R.transpose.mulVec t) fun f hf => (good_inFront hR ht htT hR' (hgood f hf)).2.2.2
    dsimp only at this
    omega

/-- A point ahead of two cameras, one a unit behind the other. -/
example : ∃ n p, bestPose forwardSvd forwardE [((1 / 2, 0), (1 / 3, 0))] = some (n, M3.one, p) ∧
    Centre M3.one ⟨0, 0, 1⟩ p ∧ 1 ≤ n := by
  refine C56_recovers (good := [((1 / 2, 0), (1 / 3, 0))]) (bad := []) forwardSvd_ok M3.IsRotation.one
    (by norm_num [V3.dot]) one_ne_zero forwardE_essential (by simp) ?_ (by simp)
  intro f hf
  rw [List.mem_singleton] at hf
  subst hf
  refine ⟨⟨1, 0, 2⟩, 2, 3, by norm_num, by norm_num, ?_, ?_, ?_⟩
  · rw [SeesAt, M3.one_mulVec]; apply V3.ext <;> norm_num [V3.add, V3.smul, V3.zero]
  · rw [SeesAt, M3.one_mulVec]; apply V3.ext <;> norm_num [V3.add, V3.smul]
  · intro c hc hp
    rw [Centre, M3.one_mulVec] at hc
    simp only [V3.add, V3.zero, V3.mk.injEq, add_zero] at hc
    simp only [Parallel, V3.cross, V3.zero, V3.mk.injEq] at hp
    obtain ⟨h1, h2, h3⟩ := hc
    have := hp.2.1
    rw [h1] at this
    norm_num at this
    linarith

end Theia
