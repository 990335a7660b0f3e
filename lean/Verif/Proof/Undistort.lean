import Verif.Spec.Undistort
import Verif.Props.CameraModels

/-! # Lemmas on undistortion -/

namespace Theia
namespace Undistort

open CameraModels Spec

theorem zero_notFisheye {l : Lens} (h : NotFisheye l) : NotFisheye l.zero := by
  cases l <;> simp_all [NotFisheye, Lens.zero]

theorem zero_zero (l : Lens) : l.zero.zero = l.zero := by cases l <;> rfl

theorem perspective_zero {eps : ℝ} (he : 0 < eps) (c : Calibration) {l : Lens} (h : NotFisheye l) :
    IsPerspective (Intrinsics.toPixel eps ⟨c, l.zero⟩) c.focal c.aspect (skewOf ⟨c, l⟩) c.px c.py := by
  intro point hz
  cases l with
  | pinhole k1 k2 =>
    simp only [Intrinsics.toPixel, Lens.zero, pinholeToPixel, skewOf]
    rw [normalized_ok hz, Outcome.ok_bind]
    simp [pinholeDistort, radialFactor, Calibration.apply]
  | radialTangential k =>
    simp only [Intrinsics.toPixel, Lens.zero, rtToPixel, skewOf]
    rw [normalized_ok hz, Outcome.ok_bind]
    simp [rtDistort, RadialTangential.factor, RadialTangential.tangential, Calibration.apply]
  | fisheye k => exact absurd h (by simp [NotFisheye])
  | fov omega =>
    simp only [Intrinsics.toPixel, Lens.zero, fovToPixel, skewOf]
    rw [normalized_ok hz, Outcome.ok_bind]
    simp [fovDistort, fovDistortFactor, Calibration.apply]
  | division k =>
    simp only [Intrinsics.toPixel, Lens.zero, divisionToPixel, skewOf]
    rw [normalized_ok hz, Outcome.ok_bind]
    simp [divisionDistort, divisionScale, he]

theorem pixel_returns {eps : ℝ} (he : 0 < eps) {c : Calibration} (hc : Usable c) {l : Lens} (h : NotFisheye l) (p : V2) :
    PixelReturns (Intrinsics.toPixel eps ⟨c, l.zero⟩) (Intrinsics.toCamera ⟨c, l.zero⟩) p := by
  obtain ⟨hf, ha⟩ := hc
  cases l with
  | pinhole k1 k2 => exact (C46_pinhole c hf ha).1 p
  | radialTangential k => exact (C46_rt c hf ha).2.2.1 p
  | fisheye k => exact absurd h (by simp [NotFisheye])
  | fov omega =>
    have hfa : c.focal * c.aspect ≠ 0 := mul_ne_zero hf ha
    refine ⟨⟨(p.1 - c.px) / c.focal, (p.2 - c.py) / (c.focal * c.aspect), 1⟩, ?_, rfl, ?_⟩
    · simp [Intrinsics.toCamera, Lens.zero, fovToCamera, Calibration.undo, divide, hf, ha, fovUndistort,
        fovUndistortFactor]
    · rw [show Lens.zero (.fov omega) = Lens.zero (.fov omega) from rfl,
        perspective_zero he c (l := .fov omega) trivial _ one_ne_zero]
      simp only [skewOf]
      congr 1
      apply Prod.ext <;> simp <;> field_simp <;> ring
  | division k =>
    obtain ⟨ray, pixel', h1, h2, h3, -, h4⟩ := C46_division_pixel eps he c 0 hf ha p 0 (by ring) (by norm_num) (by norm_num)
    rw [h4 (Or.inl rfl)] at h3
    exact ⟨ray, h1, h2, h3⟩

theorem remap_self {eps : ℝ} (he : 0 < eps) {c : Calibration} (hc : Usable c) {l : Lens} (h : NotFisheye l) (p : V2) :
    remap eps ⟨c, l.zero⟩ ⟨c, l.zero⟩ p = .ok p := by
  obtain ⟨ray, h1, -, h2⟩ := pixel_returns he hc h p
  unfold remap
  rw [h1, Outcome.ok_bind, h2]

theorem sideLoop_self {eps : ℝ} {m : Intrinsics} {width : Nat} (ys : List Nat)
    (hm1 : ∀ y ∈ ys, remap eps m m (1 / 2, (y : ℝ) + 0) = .ok (1 / 2, (y : ℝ) + 0))
    (hm2 : ∀ y ∈ ys, remap eps m m ((width : ℝ) - 1 / 2, (y : ℝ) + 1 / 2) = .ok ((width : ℝ) - 1 / 2, (y : ℝ) + 1 / 2))
    (b : ℝ × ℝ) :
    sideLoop eps m m width ys b = .ok (if ys = [] then b else (max b.1 (1 / 2), min b.2 ((width : ℝ) - 1 / 2))) := by
  induction ys generalizing b with
  | nil => simp [sideLoop]
  | cons y ys ih =>
    rw [sideLoop, hm1 y (by simp), Outcome.ok_bind, hm2 y (by simp), Outcome.ok_bind,
      ih (fun x hx => hm1 x (by simp [hx])) (fun x hx => hm2 x (by simp [hx]))]
    by_cases hy : ys = []
    · simp [hy]
    · simp [hy]

theorem topLoop_self {eps : ℝ} {m : Intrinsics} {height : Nat} (xs : List Nat)
    (hm1 : ∀ x ∈ xs, remap eps m m ((x : ℝ) + 1 / 2, 1 / 2) = .ok ((x : ℝ) + 1 / 2, 1 / 2))
    (hm2 : ∀ x ∈ xs, remap eps m m ((x : ℝ) + 1 / 2, (height : ℝ) - 1 / 2) = .ok ((x : ℝ) + 1 / 2, (height : ℝ) - 1 / 2))
    (b : ℝ × ℝ) :
    topLoop eps m m height xs b = .ok (if xs = [] then b else (max b.1 (1 / 2), min b.2 ((height : ℝ) - 1 / 2))) := by
  induction xs generalizing b with
  | nil => simp [topLoop]
  | cons y ys ih =>
    rw [topLoop, hm1 y (by simp), Outcome.ok_bind, hm2 y (by simp), Outcome.ok_bind,
      ih (fun x hx => hm1 x (by simp [hx])) (fun x hx => hm2 x (by simp [hx]))]
    by_cases hy : ys = []
    · simp [hy]
    · simp [hy]

theorem scaleOf_self {big p : ℝ} {size : Nat} (h : GoodAxis big p size) :
    scaleOf p (max (-big) (1 / 2)) (min big ((size : ℝ) - 1 / 2)) size = .ok ((p - 1 / 2) / p) := by
  obtain ⟨h1, h2, h3, h4, h5⟩ := h
  have hs : (size : ℝ) < 2 ^ 31 := by exact_mod_cast h2
  rw [max_eq_right (by nlinarith [h3]), min_eq_right (by linarith)]
  have a : p - 1 / 2 ≠ 0 := by linarith
  have b : (size : ℝ) - 1 / 2 - p ≠ 0 := fun e => h5 (by linarith)
  have hpos : 0 < p - 1 / 2 := by linarith
  have hge : 1 ≤ p / (p - 1 / 2) := by rw [le_div_iff₀ hpos]; linarith
  have hp0 : p ≠ 0 := by linarith
  unfold scaleOf divide
  rw [if_neg a, Outcome.ok_bind, if_neg b, Outcome.ok_bind, div_self b, max_eq_left hge, if_neg (by positivity)]
  rw [one_div, inv_div]

theorem newSize_self {big p : ℝ} {size : Nat} (h : GoodAxis big p size) :
    newSize ((p - 1 / 2) / p) size = .ok (croppedSize p size) := by
  obtain ⟨h1, h2, h3, h4, h5⟩ := h
  have hs : (size : ℝ) < 2 ^ 31 := by exact_mod_cast h2
  have hs0 : (0 : ℝ) < size := by exact_mod_cast h1
  have hp : 0 < p := by linarith
  have : (p - 1 / 2) / p ≤ 1 := by rw [div_le_one hp]; linarith
  unfold newSize croppedSize
  rw [if_pos]
  apply max_lt (by norm_num)
  nlinarith

/-- The intrinsics the function leaves behind. -/
noncomputable def after (m : Intrinsics) (width height : Nat) : Intrinsics :=
  ⟨{ m.calibration with
      px := m.calibration.px * croppedSize m.calibration.px width / width,
      py := m.calibration.py * croppedSize m.calibration.py height / height }, m.lens.zero⟩

/-- What the function does if the camera without distortion maps the border to itself. -/
theorem camera_of_self {eps big : ℝ} {heap : Heap} {cam : Camera} {m : Intrinsics} (hm : heap cam.intrinsics = some m)
    (hx : GoodAxis big m.calibration.px cam.width) (hy : GoodAxis big m.calibration.py cam.height)
    (hb : ∀ p : V2, 0 ≤ p.1 → p.1 ≤ cam.width → 0 ≤ p.2 → p.2 ≤ cam.height →
      remap eps ⟨m.calibration, m.lens.zero⟩ ⟨m.calibration, m.lens.zero⟩ p = .ok p) :
    undistortCamera eps big heap cam =
      .ok (heap.set cam.intrinsics (after m cam.width cam.height),
        { cam with width := croppedSize m.calibration.px cam.width, height := croppedSize m.calibration.py cam.height }) := by
  have hw : (cam.width : ℝ) ≠ 0 := by exact_mod_cast hx.1.ne'
  have hh : (cam.height : ℝ) ≠ 0 := by exact_mod_cast hy.1.ne'
  have look1 : heap.look cam.intrinsics = .ok m := by simp [Heap.look, hm]
  have look2 : (heap.set cam.intrinsics { m with lens := m.lens.zero }).look cam.intrinsics = .ok ⟨m.calibration, m.lens.zero⟩ := by
    simp [Heap.look, Heap.set]
  have ne1 : List.range cam.height ≠ [] := by simpa using hy.1.ne'
  have ne2 : List.range cam.width ≠ [] := by simpa using hx.1.ne'
  have hw1 : (1 : ℝ) ≤ cam.width := by exact_mod_cast hx.1
  have hh1 : (1 : ℝ) ≤ cam.height := by exact_mod_cast hy.1
  have half : ∀ {n k : Nat}, k ∈ List.range n → (k : ℝ) + 1 / 2 ≤ n ∧ (0 : ℝ) ≤ k := by
    intro n k hk
    have : ((k + 1 : ℕ) : ℝ) ≤ n := by exact_mod_cast List.mem_range.1 hk
    push_cast at this
    exact ⟨by linarith, Nat.cast_nonneg k⟩
  have side := sideLoop_self (eps := eps) (m := ⟨m.calibration, m.lens.zero⟩) (width := cam.width) (List.range cam.height)
    (fun y hy => hb _ (by norm_num) (by dsimp only; linarith) (by dsimp only; linarith [half hy]) (by dsimp only; linarith [half hy]))
    (fun y hy => hb _ (by dsimp only; linarith) (by dsimp only; linarith) (by dsimp only; linarith [half hy])
      (by dsimp only; linarith [half hy])) (-big, big)
  have top := topLoop_self (eps := eps) (m := ⟨m.calibration, m.lens.zero⟩) (height := cam.height) (List.range cam.width)
    (fun x hx => hb _ (by dsimp only; linarith [half hx]) (by dsimp only; linarith [half hx]) (by norm_num) (by dsimp only; linarith))
    (fun x hx => hb _ (by dsimp only; linarith [half hx]) (by dsimp only; linarith [half hx]) (by dsimp only; linarith)
      (by dsimp only; linarith)) (-big, big)
  rw [if_neg ne1] at side
  rw [if_neg ne2] at top
  unfold undistortCamera
  simp only [look1, Outcome.ok_bind, look2, side, top, scaleOf_self hx, scaleOf_self hy, newSize_self hx, newSize_self hy, divide,
    if_neg hw, if_neg hh]
  congr 2
  funext i
  simp only [Heap.set, after]
  split <;> simp

theorem remap_after {eps : ℝ} (he : 0 < eps) {m : Intrinsics} (hc : Usable m.calibration) (hl : NotFisheye m.lens) (w h : Nat)
    (p : V2) : remap eps (after m w h) (after m w h) p = .ok p :=
  remap_self he (c := (after m w h).calibration) hc hl p

end Undistort
end Theia
