import Verif.Model.TwoViewInfo
import Verif.Proof.ViewGraph
import Mathlib.Analysis.Real.Pi.Bounds

/-!
# C40: two-view geometry
-/

namespace Theia

open TwoView AngleAxis

/-- The result of a swap that is allowed. -/
theorem TwoView.swap_eq (eps : ℝ) (info : Info) (h1 : info.focal1 ≠ 0) (h2 : info.focal2 ≠ 0) :
    swap eps info = .ok ⟨info.focal2, info.focal1, (rotate eps info.rotation info.position).neg,
      info.rotation.smul (-1), info.verified, info.homography, info.visibility⟩ := by
  unfold swap
  rw [if_neg h1, if_neg h2]

/-- C40. Swapping stops the program exactly if a focal length is zero; otherwise it exchanges the focal lengths and
keeps the counts. -/
theorem C40_swap (eps : ℝ) (info : Info) :
    ((∃ info', swap eps info = .ok info') ↔ info.focal1 ≠ 0 ∧ info.focal2 ≠ 0) ∧
    (∀ info', swap eps info = .ok info' → info'.focal1 = info.focal2 ∧ info'.focal2 = info.focal1 ∧
      info'.verified = info.verified ∧ info'.homography = info.homography ∧ info'.visibility = info.visibility) := by
  unfold swap
  by_cases h1 : info.focal1 = 0
  · simp [h1]
  · by_cases h2 : info.focal2 = 0
    · simp [h2]
    · simp only [if_neg h1, if_neg h2]
      refine ⟨⟨fun _ => ⟨h1, h2⟩, fun _ => ⟨_, rfl⟩⟩, ?_⟩
      intro info' h
      obtain rfl := Outcome.ok.inj h
      exact ⟨rfl, rfl, rfl, rfl, rfl⟩

/-- C40. The swapped geometry is the old one seen from the second camera: if a point has coordinates `p` in the first
camera and hence `q` in the second, then in the swapped geometry a point with coordinates `q` in the first camera has
coordinates `p` in the second. -/
theorem C40_geometry (eps : ℝ) (heps : 0 ≤ eps) (info info' : Info) (h : swap eps info = .ok info')
    (hrot : eps < info.rotation.dot info.rotation) (p q : V3 ℝ)
    (hq : q = rotate eps info.rotation (p.sub info.position)) :
    p = rotate eps info'.rotation (q.sub info'.position) := by
  unfold swap at h
  split at h
  · cases h
  split at h
  · cases h
  obtain rfl := Outcome.ok.inj h
  simp only
  have e1 : info.rotation.smul (-1) = info.rotation.neg := by
    apply V3.ext <;> simp [V3.smul, V3.neg]
  have e2 : (q.sub (rotate eps info.rotation info.position).neg) = rotate eps info.rotation p := by
    rw [hq, rotate_sub]
    apply V3.ext <;> simp [V3.sub, V3.neg]
  rw [e1, e2, rotate_neg heps hrot]

/-- C40. Swapping twice restores everything, if the rotation angle is not below the threshold. -/
theorem C40_involution (eps : ℝ) (heps : 0 ≤ eps) (info : Info) (h1 : info.focal1 ≠ 0) (h2 : info.focal2 ≠ 0)
    (hrot : eps < info.rotation.dot info.rotation) :
    ∃ info', swap eps info = .ok info' ∧ swap eps info' = .ok info := by
  refine ⟨_, by unfold swap; rw [if_neg h1, if_neg h2], ?_⟩
  unfold swap
  simp only
  rw [if_neg h2, if_neg h1]
  congr 1
  have e1 : info.rotation.smul (-1) = info.rotation.neg := by
    apply V3.ext <;> simp [V3.smul, V3.neg]
  apply Info.ext
  · rfl
  · rfl
  · simp only
    rw [e1, rotate_negPoint, rotate_neg heps hrot]
    apply V3.ext <;> simp [V3.neg]
  · simp only
    apply V3.ext <;> simp [V3.smul]
  · rfl
  · rfl
  · rfl

/-- C40. Below the threshold everything but the position is restored, and the position changes by at most `eps` times
its length. -/
theorem C40_involution_small (eps : ℝ) (info : Info) (h1 : info.focal1 ≠ 0) (h2 : info.focal2 ≠ 0)
    (hrot : info.rotation.dot info.rotation ≤ eps) :
    ∃ info' info'', swap eps info = .ok info' ∧ swap eps info' = .ok info'' ∧
      info''.focal1 = info.focal1 ∧ info''.focal2 = info.focal2 ∧ info''.rotation = info.rotation ∧
      (info''.position.sub info.position).dot (info''.position.sub info.position) ≤
        eps * eps * info.position.dot info.position := by
  refine ⟨_, _, swap_eq eps info h1 h2, swap_eq eps _ h2 h1, rfl, rfl, ?_, ?_⟩
  · simp only
    apply V3.ext <;> simp [V3.smul]
  · simp only
    have e1 : info.rotation.smul (-1) = info.rotation.neg := by
      apply V3.ext <;> simp [V3.smul, V3.neg]
    have hn : info.rotation.neg.dot info.rotation.neg = info.rotation.dot info.rotation := by
      simp only [V3.dot, V3.neg]; ring
    have key : ((rotate eps (info.rotation.smul (-1)) (rotate eps info.rotation info.position).neg).neg.sub
        info.position) = (info.rotation.cross (info.rotation.cross info.position)).neg := by
      rw [e1]
      unfold rotate
      rw [hn, if_neg (not_lt.2 hrot), if_neg (not_lt.2 hrot)]
      apply V3.ext <;> simp only [V3.neg, V3.sub, V3.add, V3.cross] <;> ring
    rw [key]
    -- |w × x|² ≤ |w|² |x|²
    have cs : ∀ w x : V3 ℝ, (w.cross x).dot (w.cross x) ≤ w.dot w * x.dot x := by
      intro w x
      have : (w.cross x).dot (w.cross x) = w.dot w * x.dot x - w.dot x * w.dot x := by
        simp only [V3.dot, V3.cross]; ring
      rw [this]
      nlinarith [mul_self_nonneg (w.dot x)]
    have hneg : ∀ x : V3 ℝ, x.neg.dot x.neg = x.dot x := by
      intro x; simp only [V3.dot, V3.neg]; ring
    rw [hneg]
    have hw := dot_self_nonneg info.rotation
    have hp := dot_self_nonneg info.position
    calc (info.rotation.cross (info.rotation.cross info.position)).dot
          (info.rotation.cross (info.rotation.cross info.position))
        ≤ info.rotation.dot info.rotation * (info.rotation.cross info.position).dot
            (info.rotation.cross info.position) := cs _ _
      _ ≤ info.rotation.dot info.rotation * (info.rotation.dot info.rotation * info.position.dot info.position) :=
          mul_le_mul_of_nonneg_left (cs _ _) hw
      _ = info.rotation.dot info.rotation * info.rotation.dot info.rotation * info.position.dot info.position := by ring
      _ ≤ eps * eps * info.position.dot info.position :=
          mul_le_mul_of_nonneg_right (mul_le_mul hrot hrot hw (le_trans hw hrot)) hp

/-- C40. The geometry computed from two cameras: a world point seen at `p` by the first camera is seen by the second
where the relative pose says, the baseline not scaled. `multiply` must compose rotations. -/
theorem C40_relative (eps : ℝ) (heps : 0 ≤ eps) (multiply : V3 ℝ → V3 ℝ → V3 ℝ) (cam1 cam2 : Cam) (info : Info)
    (hm : ∀ p, rotate eps (multiply cam2.orientation cam1.orientation.neg) p =
      rotate eps cam2.orientation (rotate eps cam1.orientation.neg p))
    (h1 : eps < cam1.orientation.dot cam1.orientation) (x : V3 ℝ) :
    let r := fromCameras eps multiply false cam1 cam2 info
    rotate eps r.rotation ((rotate eps cam1.orientation (x.sub cam1.position)).sub r.position) =
      rotate eps cam2.orientation (x.sub cam2.position) := by
  simp only [fromCameras, Bool.false_eq_true, if_false]
  rw [← rotate_sub, hm, rotate_neg heps h1]
  congr 1
  apply V3.ext <;> simp [V3.sub]

/-- C40. With the scaling, the position is the unit vector in the same direction, or zero if the cameras are at the
same place. -/
theorem C40_relative_normalized (eps : ℝ) (heps : 0 ≤ eps) (multiply : V3 ℝ → V3 ℝ → V3 ℝ) (cam1 cam2 : Cam)
    (info : Info) (h1 : eps < cam1.orientation.dot cam1.orientation) :
    let r := fromCameras eps multiply true cam1 cam2 info
    let u := fromCameras eps multiply false cam1 cam2 info
    let b := cam2.position.sub cam1.position
    (0 < b.dot b → r.position = u.position.smul (Real.sqrt (b.dot b))⁻¹ ∧ r.position.dot r.position = 1) ∧
      (b.dot b = 0 → r.position = V3.zero) := by
  simp only [fromCameras, if_true, Bool.false_eq_true, if_false]
  have hd := rotate_dot heps h1 (cam2.position.sub cam1.position)
  unfold normalized
  rw [hd]
  constructor
  · intro hb
    rw [if_pos hb]
    refine ⟨rfl, ?_⟩
    rw [← hd] at hb ⊢
    exact unit_axis hb
  · intro hb
    rw [if_neg (by rw [hb]; exact lt_irrefl _)]
    rw [hb] at hd
    generalize rotate eps cam1.orientation (cam2.position.sub cam1.position) = v at hd
    simp only [V3.dot] at hd
    apply V3.ext <;> simp only [V3.zero] <;>
      nlinarith [mul_self_nonneg v.x, mul_self_nonneg v.y, mul_self_nonneg v.z]

/-- C40. Swapping the geometry computed from two cameras gives the geometry computed with the cameras exchanged: same
focal lengths, same position and the inverse rotation. -/
theorem C40_swap_relative (eps : ℝ) (heps : 0 ≤ eps) (multiply : V3 ℝ → V3 ℝ → V3 ℝ) (normalize : Bool) (cam1 cam2 : Cam)
    (info info' : Info) (hm : ∀ p, rotate eps (multiply cam2.orientation cam1.orientation.neg) p =
      rotate eps cam2.orientation (rotate eps cam1.orientation.neg p))
    (hm' : ∀ p, rotate eps (multiply cam1.orientation cam2.orientation.neg) p =
      rotate eps cam1.orientation (rotate eps cam2.orientation.neg p))
    (h1 : eps < cam1.orientation.dot cam1.orientation) (h2 : eps < cam2.orientation.dot cam2.orientation)
    (h : swap eps (fromCameras eps multiply normalize cam1 cam2 info) = .ok info') :
    let other := fromCameras eps multiply normalize cam2 cam1 info
    info'.focal1 = other.focal1 ∧ info'.focal2 = other.focal2 ∧ info'.position = other.position ∧
      (eps < (fromCameras eps multiply normalize cam1 cam2 info).rotation.dot
          (fromCameras eps multiply normalize cam1 cam2 info).rotation →
        ∀ p, rotate eps info'.rotation p = rotate eps other.rotation p) := by
  have e1 : ∀ w : V3 ℝ, w.smul (-1) = w.neg := by
    intro w
    apply V3.ext <;> simp [V3.smul, V3.neg]
  have hnn : ∀ w : V3 ℝ, w.neg.dot w.neg = w.dot w := by
    intro w; simp only [V3.dot, V3.neg]; ring
  have hneg2 : ∀ w : V3 ℝ, w.neg.neg = w := by
    intro w; apply V3.ext <;> simp [V3.neg]
  unfold swap at h
  split at h
  · cases h
  split at h
  · cases h
  obtain rfl := Outcome.ok.inj h
  simp only [fromCameras]
  refine ⟨trivial, trivial, ?_, ?_⟩
  · -- the position
    have base : (rotate eps (multiply cam2.orientation cam1.orientation.neg)
        (rotate eps cam1.orientation (cam2.position.sub cam1.position))).neg =
        rotate eps cam2.orientation (cam1.position.sub cam2.position) := by
      rw [hm, rotate_neg heps h1, ← rotate_negPoint]
      congr 1
      apply V3.ext <;> simp [V3.sub, V3.neg]
    cases normalize with
    | false => simpa using base
    | true =>
      simp only [if_true]
      have d1 := rotate_dot heps h1 (cam2.position.sub cam1.position)
      have d2 := rotate_dot heps h2 (cam1.position.sub cam2.position)
      have hbb : (cam1.position.sub cam2.position).dot (cam1.position.sub cam2.position) =
          (cam2.position.sub cam1.position).dot (cam2.position.sub cam1.position) := by
        simp only [V3.dot, V3.sub]; ring
      unfold normalized
      rw [d1, d2, hbb]
      split
      · rw [rotate_smul, ← base]
        apply V3.ext <;> simp [V3.smul, V3.neg]
      · exact base
  · intro hr p
    rw [e1]
    -- both undo the rotation of the relative pose
    have hback : ∀ p, rotate eps (multiply cam2.orientation cam1.orientation.neg)
        (rotate eps (multiply cam1.orientation cam2.orientation.neg) p) = p := by
      intro p
      rw [hm, hm', rotate_neg heps h1]
      have := rotate_neg heps (w := cam2.orientation.neg) (by rw [hnn]; exact h2) p
      rwa [hneg2] at this
    conv_lhs => rw [← hback p]
    exact rotate_neg heps hr _

/-- A half turn about the x-axis and a position off the axis meet the hypotheses. -/
noncomputable def infoExample : Info := ⟨700, 800, ⟨0, 1, 2⟩, ⟨Real.pi, 0, 0⟩, 42, 7, 100⟩

theorem rotate_halfTurn (eps : ℝ) (h : eps < 1) (p : V3 ℝ) : rotate eps ⟨Real.pi, 0, 0⟩ p = ⟨p.x, -p.y, -p.z⟩ := by
  have hd : (V3.mk Real.pi 0 0).dot ⟨Real.pi, 0, 0⟩ = Real.pi * Real.pi := by simp [V3.dot]
  have h3 := Real.pi_gt_three
  have hgt : eps < Real.pi * Real.pi := by nlinarith
  have hne : Real.pi ≠ 0 := Real.pi_ne_zero
  unfold rotate
  rw [hd, if_pos hgt, Real.sqrt_mul_self Real.pi_pos.le]
  unfold rodrigues
  simp only [Real.cos_pi, Real.sin_pi]
  apply V3.ext <;> simp only [V3.smul, V3.add, V3.cross, V3.dot] <;> field_simp <;> ring

example : ∃ info', swap (1 / 1000) infoExample = .ok info' ∧ info'.focal1 = 800 ∧ info'.position = ⟨0, 1, 2⟩ ∧
    info'.rotation = ⟨-Real.pi, 0, 0⟩ ∧ (1 / 1000 : ℝ) < infoExample.rotation.dot infoExample.rotation := by
  refine ⟨_, swap_eq _ _ (by simp [infoExample]) (by simp [infoExample]), ?_, ?_, ?_, ?_⟩
  · rfl
  · simp only [infoExample]
    rw [rotate_halfTurn _ (by norm_num)]
    apply V3.ext <;> simp [V3.neg]
  · simp only [infoExample]
    apply V3.ext <;> simp [V3.smul]
  · simp only [infoExample, V3.dot]
    nlinarith [Real.pi_gt_three]

/-- C40. A match stored through the builder with the ids in one order, and the swapped match stored with the ids in
the other order, give the same edge; it describes the pair from the smaller id to the larger one. -/
theorem C40_stored_edge (eps : ℝ) (heps : 0 ≤ eps) (info info' : Info) (h : swap eps info = .ok info')
    (hrot : eps < info.rotation.dot info.rotation) (g : ViewGraph Info) (a b : Nat) (hab : a < b) :
    ∃ g1 g2, addMatch eps a b info g = .ok g1 ∧ addMatch eps b a info' g = .ok g2 ∧
      g1.getEdge a b = some info ∧ g2.getEdge a b = some info ∧
      ∀ x y, g1.getEdge x y = g2.getEdge x y := by
  obtain ⟨h1, h2⟩ := (C40_swap eps info).1.1 ⟨_, h⟩
  obtain ⟨i1, e1, e2⟩ := C40_involution eps heps info h1 h2 hrot
  rw [h] at e1
  cases e1
  have hne : a ≠ b := by omega
  have ho : ordPair b a = ordPair a b := by
    unfold ordPair
    rw [if_neg (by omega), if_pos hab]
  refine ⟨g.addEdge a b info, g.addEdge b a info, ?_, ?_, ?_, ?_, ?_⟩
  · unfold addMatch
    rw [if_neg (by omega)]
  · unfold addMatch
    rw [if_pos hab, e2]
  · unfold ViewGraph.getEdge
    rw [ViewGraph.addEdge_edges _ hne, if_pos rfl]
  · unfold ViewGraph.getEdge
    rw [ViewGraph.addEdge_edges _ hne.symm, ho, if_pos rfl]
  · intro x y
    unfold ViewGraph.getEdge
    rw [ViewGraph.addEdge_edges _ hne, ViewGraph.addEdge_edges _ hne.symm, ho]

end Theia
