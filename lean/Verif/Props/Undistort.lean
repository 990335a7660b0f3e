import Verif.Proof.UndistortScene

/-! # C95: removing lens distortion -/

namespace Theia
namespace Undistort

open CameraModels Spec

theorem camera_result {eps big : ℝ} (he : 0 < eps) {heap : Heap} {cam : Camera} {m : Intrinsics}
    (hm : heap cam.intrinsics = some m) (hl : NotFisheye m.lens) (hc : Usable m.calibration)
    (hx : GoodAxis big m.calibration.px cam.width) (hy : GoodAxis big m.calibration.py cam.height) :
    undistortCamera eps big heap cam = .ok (heap.set cam.intrinsics (after m cam.width cam.height),
      { cam with width := croppedSize m.calibration.px cam.width, height := croppedSize m.calibration.py cam.height }) :=
  camera_of_self (eps := eps) hm hx hy fun p _ _ _ _ => remap_self he hc hl p

/-- `UndistortCamera`, for all models but the fisheye model: the new camera has the pose of the old one and is a perspective
camera with the old focal length, aspect ratio and skew; the principal point is scaled with the size of the image. Missing:
the fisheye model. The size does not depend on the distortion: see the counterexamples. -/
theorem C95_camera_partial {eps big : ℝ} (he : 0 < eps) {heap : Heap} {cam : Camera} {m : Intrinsics}
    (hm : heap cam.intrinsics = some m) (hl : NotFisheye m.lens) (hc : Usable m.calibration)
    (hx : GoodAxis big m.calibration.px cam.width) (hy : GoodAxis big m.calibration.py cam.height) :
    ∃ heap' cam' m', undistortCamera eps big heap cam = .ok (heap', cam') ∧ cam'.pose = cam.pose ∧
      cam'.width = croppedSize m.calibration.px cam.width ∧ cam'.height = croppedSize m.calibration.py cam.height ∧
      heap' cam'.intrinsics = some m' ∧
      IsPerspective (m'.toPixel eps) m.calibration.focal m.calibration.aspect (skewOf m)
        (m.calibration.px * cam'.width / cam.width) (m.calibration.py * cam'.height / cam.height) ∧
      (∀ q, q ≠ cam.intrinsics → heap' q = heap q) := by
  refine ⟨_, _, after m cam.width cam.height, camera_result he hm hl hc hx hy, rfl, rfl, rfl, by simp [Heap.set], ?_, ?_⟩
  · have e : skewOf m = skewOf ⟨(after m cam.width cam.height).calibration, m.lens⟩ := by
      unfold skewOf after; cases m.lens <;> rfl
    rw [e]
    exact perspective_zero he (after m cam.width cam.height).calibration hl
  · intro q hq; simp [Heap.set, hq]

/-- The new size is between one and the old one. An image whose principal point is in the middle loses one column (or row). -/
theorem C95_size {big p : ℝ} {size : Nat} (h : GoodAxis big p size) :
    1 ≤ croppedSize p size ∧ croppedSize p size ≤ size ∧
      ∀ n : Nat, size = n + 2 → p = (size : ℝ) / 2 → croppedSize p size = n + 1 := by
  obtain ⟨h1, h2, h3, h4, h5⟩ := h
  have hs0 : (1 : ℝ) ≤ size := by exact_mod_cast h1
  have hp : 0 < p := by linarith
  have hle : (p - 1 / 2) / p ≤ 1 := by rw [div_le_one hp]; linarith
  refine ⟨?_, ?_, ?_⟩
  · unfold croppedSize
    rw [Nat.le_floor_iff (by positivity)]
    simp
  · unfold croppedSize
    apply Nat.floor_le_of_le
    apply max_le hs0
    nlinarith
  · intro n hn hpn
    have hsz : (size : ℝ) = n + 2 := by rw [hn]; push_cast; ring
    have e : (p - 1 / 2) / p * size = ((n + 1 : ℕ) : ℝ) := by
      rw [hpn, hsz]
      have : ((n : ℝ) + 2) ≠ 0 := by positivity
      push_cast
      field_simp
      ring
    unfold croppedSize
    rw [e, max_eq_right (by push_cast; linarith [Nat.cast_nonneg (α := ℝ) n]), Nat.floor_natCast]

/-- `UndistortImage` for two cameras: if the undistorted camera is one without distortion, then the colour of a pixel on which
it sees a point is the colour at which the distorted camera sees the same point in the distorted image. Holds for all models
but the fisheye model. -/
theorem C95_image {eps : ℝ} (he : 0 < eps) {heap : Heap} {distorted undistorted : Camera} {d u : Intrinsics}
    (hd : heap distorted.intrinsics = some d) (hu : heap undistorted.intrinsics = some u) (hdl : NotFisheye d.lens)
    (hul : NotFisheye u.lens) (hz : u.lens.zero = u.lens) (hc : Usable u.calibration) (sample : V2 → Nat → ℝ) :
    ∃ image, undistortImage eps heap distorted undistorted sample = .ok ((undistorted.width, undistorted.height), image) ∧
      ∀ (point : V3 ℝ) (x y c : Nat) (p : V2), point.z ≠ 0 → u.toPixel eps point = .ok ((x : ℝ) + 1 / 2, (y : ℝ) + 1 / 2) →
        d.toPixel eps point = .ok p → image x y c = .ok (sample p c) := by
  refine ⟨removeDistortion eps d u sample, by simp only [undistortImage, Heap.look, hd, hu, Outcome.ok_bind], ?_⟩
  intro point x y c p hpz hpu hpd
  obtain ⟨ray, h1, h2, h3⟩ := pixel_returns he hc hul ((x : ℝ) + 1 / 2, (y : ℝ) + 1 / 2)
  have hum : (⟨u.calibration, u.lens.zero⟩ : Intrinsics) = u := by rw [hz]
  rw [hum] at h1 h3
  -- the ray passes through the point
  have P := perspective_zero he u.calibration hul
  rw [hum] at P
  have a := (P point hpz).symm.trans hpu
  have b := (P ray (by rw [h2]; norm_num)).symm.trans h3
  rw [h2] at b
  simp only [Outcome.ok.injEq, Prod.mk.injEq, div_one] at a b
  have ey : point.y / point.z = ray.y := by
    have : u.calibration.focal * u.calibration.aspect * (point.y / point.z) =
      u.calibration.focal * u.calibration.aspect * ray.y := by linarith [a.2, b.2]
    exact mul_left_cancel₀ (mul_ne_zero hc.1 hc.2) this
  have ex : point.x / point.z = ray.x := by
    have : u.calibration.focal * (point.x / point.z) = u.calibration.focal * ray.x := by
      have h1 := a.1
      have h2 := b.1
      rw [ey] at h1
      linarith
    exact mul_left_cancel₀ hc.1 this
  have hn : normalized ray = normalized point := by
    rw [normalized_ok (by rw [h2]; norm_num), normalized_ok hpz, ex, ey, h2, div_one, div_one]
  have hray : d.toPixel eps ray = d.toPixel eps point := by
    unfold Intrinsics.toPixel
    cases hdl' : d.lens with
    | pinhole k1 k2 => simp only [pinholeToPixel, hn]
    | radialTangential k => simp only [rtToPixel, hn]
    | fisheye k => rw [hdl'] at hdl; exact absurd hdl (by simp [NotFisheye])
    | fov omega => simp only [fovToPixel, hn]
    | division k => simp only [divisionToPixel, hn]
  unfold removeDistortion remap
  rw [h1, Outcome.ok_bind, hray, hpd, Outcome.ok_bind]

/-- Two cameras with their own intrinsics, one with barrel distortion: the colour of pixel (500, 50) is taken at (478, 50.5). -/
example {eps : ℝ} (he : 0 < eps) (sample : V2 → Nat → ℝ) : ∃ image,
    undistortImage eps (fun q => some ⟨⟨900, 1, 0, 101 / 2, 101 / 2⟩, if q = 0 then .pinhole (-1 / 5) 0 else .pinhole 0 0⟩)
      ⟨⟨V3.zero, V3.zero⟩, 0, 1000, 800⟩ ⟨⟨V3.zero, V3.zero⟩, 1, 990, 790⟩ sample = .ok ((990, 790), image) ∧
    ∀ c, image 500 50 c = .ok (sample (478, 101 / 2) c) := by
  obtain ⟨image, h1, h2⟩ := C95_image he
    (heap := fun q => some ⟨⟨900, 1, 0, 101 / 2, 101 / 2⟩, if q = 0 then .pinhole (-1 / 5) 0 else .pinhole 0 0⟩)
    (distorted := ⟨⟨V3.zero, V3.zero⟩, 0, 1000, 800⟩) (undistorted := ⟨⟨V3.zero, V3.zero⟩, 1, 990, 790⟩)
    (d := ⟨⟨900, 1, 0, 101 / 2, 101 / 2⟩, .pinhole (-1 / 5) 0⟩) (u := ⟨⟨900, 1, 0, 101 / 2, 101 / 2⟩, .pinhole 0 0⟩)
    rfl rfl trivial trivial rfl ⟨by norm_num, by norm_num⟩ sample
  refine ⟨image, h1, fun c => h2 ⟨1 / 2, 0, 1⟩ 500 50 c _ one_ne_zero ?_ ?_⟩
  · norm_num [Intrinsics.toPixel, pinholeToPixel, normalized, divide, Calibration.apply, pinholeDistort, radialFactor]
  · norm_num [Intrinsics.toPixel, pinholeToPixel, normalized, divide, Calibration.apply, pinholeDistort, radialFactor]

/-- The camera passed to `UndistortCamera` as a constant loses its distortion and has its principal point moved: copying a
camera does not copy its intrinsics. The size of the new image is therefore the same whatever the distortion. -/
theorem C95_input_changed_counterexample {eps big : ℝ} (he : 0 < eps) {heap : Heap} {cam : Camera} {m : Intrinsics}
    (hm : heap cam.intrinsics = some m) (hl : NotFisheye m.lens) (hc : Usable m.calibration)
    (hx : GoodAxis big m.calibration.px cam.width) (hy : GoodAxis big m.calibration.py cam.height) :
    ∃ heap' cam' m', undistortCamera eps big heap cam = .ok (heap', cam') ∧ heap' cam.intrinsics = some m' ∧
      IsPerspective (m'.toPixel eps) m.calibration.focal m.calibration.aspect (skewOf m)
        (m.calibration.px * cam'.width / cam.width) (m.calibration.py * cam'.height / cam.height) := by
  obtain ⟨heap', cam', m', h1, -, -, -, h2, h3, -⟩ := C95_camera_partial he hm hl hc hx hy
  have e : cam'.intrinsics = cam.intrinsics := by
    rw [camera_result he hm hl hc hx hy] at h1
    simp only [Outcome.ok.injEq, Prod.mk.injEq] at h1
    rw [← h1.2]
  rw [e] at h2
  exact ⟨heap', cam', m', h1, h2, h3⟩

/-- The undistorted image is the upper left part of the distorted image: no distortion is removed, however large it is. -/
theorem C95_crop_counterexample {eps big : ℝ} (he : 0 < eps) {heap : Heap} {cam : Camera} {m : Intrinsics}
    (hm : heap cam.intrinsics = some m) (hl : NotFisheye m.lens) (hc : Usable m.calibration)
    (hx : GoodAxis big m.calibration.px cam.width) (hy : GoodAxis big m.calibration.py cam.height) (sample : V2 → Nat → ℝ) :
    ∃ heap' cam' image, undistortCamera eps big heap cam = .ok (heap', cam') ∧
      undistortImage eps heap' cam cam' sample = .ok ((cam'.width, cam'.height), image) ∧
      ∀ x y c, image x y c = .ok (sample ((x : ℝ) + 1 / 2, (y : ℝ) + 1 / 2) c) := by
  refine ⟨_, _, removeDistortion eps (after m cam.width cam.height) (after m cam.width cam.height) sample,
    camera_result he hm hl hc hx hy, ?_, ?_⟩
  · simp only [undistortImage, Heap.look, Heap.set, if_true, Outcome.ok_bind]
  · intro x y c
    simp only [removeDistortion]
    rw [remap_after he hc hl, Outcome.ok_bind]

/-- A camera of 1000 by 800 pixels with strong barrel distortion: every hypothesis holds, and the image is cut to 999 by 799
without being undistorted. -/
example {eps : ℝ} (he : 0 < eps) (sample : V2 → Nat → ℝ) : ∃ heap' cam' image,
    undistortCamera eps (2 ^ 31) (fun _ => some ⟨⟨900, 1, 0, 500, 400⟩, .pinhole (-1 / 5) 0⟩) ⟨⟨V3.zero, V3.zero⟩, 7, 1000, 800⟩ =
      .ok (heap', cam') ∧
    undistortImage eps heap' ⟨⟨V3.zero, V3.zero⟩, 7, 1000, 800⟩ cam' sample = .ok ((999, 799), image) ∧
    ∀ x y c, image x y c = .ok (sample ((x : ℝ) + 1 / 2, (y : ℝ) + 1 / 2) c) := by
  have gx : GoodAxis (2 ^ 31) 500 1000 := by norm_num [GoodAxis]
  have gy : GoodAxis (2 ^ 31) 400 800 := by norm_num [GoodAxis]
  have sx : croppedSize 500 1000 = 999 := (C95_size gx).2.2 998 rfl (by norm_num)
  have sy : croppedSize 400 800 = 799 := (C95_size gy).2.2 798 rfl (by norm_num)
  obtain ⟨heap', cam', m', h1, -, hw, hh, -⟩ := C95_camera_partial (eps := eps) (big := 2 ^ 31) he
    (heap := fun _ => some ⟨⟨900, 1, 0, 500, 400⟩, .pinhole (-1 / 5) 0⟩) (cam := ⟨⟨V3.zero, V3.zero⟩, 7, 1000, 800⟩) rfl trivial
    ⟨by norm_num, by norm_num⟩ gx gy
  obtain ⟨heap'', cam'', image, g1, g2, g3⟩ := C95_crop_counterexample (eps := eps) (big := 2 ^ 31) he
    (heap := fun _ => some ⟨⟨900, 1, 0, 500, 400⟩, .pinhole (-1 / 5) 0⟩) (cam := ⟨⟨V3.zero, V3.zero⟩, 7, 1000, 800⟩) rfl trivial
    ⟨by norm_num, by norm_num⟩ gx gy sample
  rw [h1] at g1
  simp only [Outcome.ok.injEq, Prod.mk.injEq] at g1
  obtain ⟨rfl, rfl⟩ := g1
  refine ⟨heap', cam', image, h1, ?_, g3⟩
  rw [g2, hw, hh, sx, sy]

/-- The fisheye camera without distortion parameters is not a perspective camera: it sees a point at 45 degrees at `π / 4`
focal lengths from the principal point, not at one. So the undistorted camera of a fisheye camera still distorts. -/
theorem C95_fisheye_counterexample {eps big : ℝ} {heap heap' : Heap} {cam cam' : Camera} {c : Calibration} {k : Fisheye}
    (hm : heap cam.intrinsics = some ⟨c, .fisheye k⟩) (hc : Usable c)
    (h : undistortCamera eps big heap cam = .ok (heap', cam')) :
    ∃ m' p q, heap' cam'.intrinsics = some m' ∧ m'.toPixel eps ⟨1, 0, 1⟩ = .ok p ∧ m'.toPixel eps ⟨0, 0, 1⟩ = .ok q ∧
      p.1 - q.1 = c.focal * (Real.pi / 4) ∧
      ∀ px py, ¬ IsPerspective (m'.toPixel eps) c.focal c.aspect c.skew px py := by
  obtain ⟨m, px, py, h1, h2, h3⟩ := camera_ok h
  rw [hm] at h1; cases h1
  have e1 : Intrinsics.toPixel eps ⟨{ c with px := px, py := py }, Lens.zero (.fisheye k)⟩ ⟨1, 0, 1⟩ =
      .ok (c.focal * (Real.pi / 4) + px, py) := by
    simp only [Intrinsics.toPixel, Lens.zero, fisheyeToPixel]
    rw [fisheyeDistort_far _ (r := 1) (by norm_num) (by norm_num)]
    have hn : ¬ (1 : ℝ) < 0 := by norm_num
    simp [Calibration.apply, Fisheye.angle, atan2, Real.arctan_one, hn]
  have e2 : Intrinsics.toPixel eps ⟨{ c with px := px, py := py }, Lens.zero (.fisheye k)⟩ ⟨0, 0, 1⟩ = .ok (px, py) := by
    simp only [Intrinsics.toPixel, Lens.zero, fisheyeToPixel, fisheyeDistort]
    norm_num [Calibration.apply]
  refine ⟨_, _, _, by rw [h3, h2]; simp [Heap.set], e1, e2, by ring, ?_⟩
  intro px' py' hp
  have a := (hp ⟨1, 0, 1⟩ one_ne_zero).symm.trans e1
  have b := (hp ⟨0, 0, 1⟩ one_ne_zero).symm.trans e2
  simp only [Outcome.ok.injEq, Prod.mk.injEq] at a b
  have : c.focal * 1 = c.focal * (Real.pi / 4) := by
    have := a.1
    have := b.1
    norm_num at *
    linarith
  have := mul_left_cancel₀ hc.1 this
  have := Real.pi_lt_four
  linarith

/-- A fisheye camera of 1000 by 800 pixels with a very long focal length meets the hypotheses. -/
example (eps : ℝ) : ∃ heap' cam' m', undistortCamera eps (2 ^ 31)
      (fun _ => some ⟨⟨10 ^ 12, 1, 0, 500, 400⟩, .fisheye ⟨1 / 10, 0, 0, 0⟩⟩) ⟨⟨V3.zero, V3.zero⟩, 7, 1000, 800⟩ = .ok (heap', cam') ∧
    heap' cam'.intrinsics = some m' ∧ ∀ px py, ¬ IsPerspective (m'.toPixel eps) (10 ^ 12) 1 0 px py := by
  have gx : GoodAxis (2 ^ 31) 500 1000 := by norm_num [GoodAxis]
  have gy : GoodAxis (2 ^ 31) 400 800 := by norm_num [GoodAxis]
  have h := camera_of_self (eps := eps) (big := 2 ^ 31) (m := ⟨⟨10 ^ 12, 1, 0, 500, 400⟩, .fisheye ⟨1 / 10, 0, 0, 0⟩⟩)
    (heap := fun _ => some ⟨⟨10 ^ 12, 1, 0, 500, 400⟩, .fisheye ⟨1 / 10, 0, 0, 0⟩⟩) (cam := ⟨⟨V3.zero, V3.zero⟩, 7, 1000, 800⟩)
    rfl gx gy (by
      rintro ⟨x, y⟩ h1 h2 h3 h4
      simp only at h1 h2 h3 h4
      norm_num at h2 h4
      have hx : ((x - 500) / 10 ^ 12) * ((x - 500) / 10 ^ 12) ≤ 1 / 10 ^ 18 := by
        rw [div_mul_div_comm, div_le_div_iff₀ (by positivity) (by positivity)]
        nlinarith
      have hy : ((y - 400) / 10 ^ 12) * ((y - 400) / 10 ^ 12) ≤ 1 / 10 ^ 18 := by
        rw [div_mul_div_comm, div_le_div_iff₀ (by positivity) (by positivity)]
        nlinarith
      have hr : Real.sqrt (((x - 500) / 10 ^ 12) * ((x - 500) / 10 ^ 12) + ((y - 400) / 10 ^ 12) * ((y - 400) / 10 ^ 12)) < 1 / 10 ^ 8 := by
        rw [Real.sqrt_lt' (by positivity)]
        linarith [show (2 : ℝ) / 10 ^ 18 < (1 / 10 ^ 8) ^ 2 by norm_num]
      have hs : ((x - 500) / 10 ^ 12) * ((x - 500) / 10 ^ 12) + ((y - 400) / 10 ^ 12) * ((y - 400) / 10 ^ 12) < 1 / 10 ^ 8 := by
        linarith [show (2 : ℝ) / 10 ^ 18 < 1 / 10 ^ 8 by norm_num]
      have hund : fisheyeUndistort ⟨0, 0, 0, 0⟩ ((x - 500) / 10 ^ 12, (y - 400) / 10 ^ 12) =
          .ok ((x - 500) / 10 ^ 12, (y - 400) / 10 ^ 12) := by
        unfold fisheyeUndistort fisheyeLoop
        exact if_pos hr
      have hundo : Calibration.undo ⟨10 ^ 12, 1, 0, 500, 400⟩ (x, y) = .ok ((x - 500) / 10 ^ 12, (y - 400) / 10 ^ 12) := by
        simp [Calibration.undo, divide]
      simp only [remap, Intrinsics.toCamera, Intrinsics.toPixel, Lens.zero, fisheyeToCamera, hundo, Outcome.ok_bind, hund,
        fisheyeToPixel, fisheyeDistort]
      rw [if_pos hs]
      simp only [Calibration.apply, Outcome.ok.injEq, Prod.mk.injEq]
      constructor <;> ring)
  obtain ⟨m', p, q, h1, -, -, -, h2⟩ := C95_fisheye_counterexample (heap := fun _ => some ⟨⟨10 ^ 12, 1, 0, 500, 400⟩, .fisheye ⟨1 / 10, 0, 0, 0⟩⟩)
    (cam := ⟨⟨V3.zero, V3.zero⟩, 7, 1000, 800⟩) rfl ⟨by norm_num, by norm_num⟩ h
  exact ⟨_, _, m', h, h1, h2⟩

/-- `UndistortReconstruction` when it ends: an observation is lost exactly if view and track are estimated and the feature is
outside the new image; all other features keep their coordinates. Views and tracks stay in agreement, tracks disappear exactly
if they lose all their views. The cameras of the estimated views have no distortion any more. Missing: the features are not
undistorted (they keep the coordinates they have in the distorted image); fisheye cameras. -/
theorem C95_reconstruction_partial {P : Type} {eps big : ℝ} (he : 0 < eps) {order : List Nat → List Nat}
    (ho : ∀ l, (order l).Perm l) {s s' : Scene P} (hwf : s.recon.views.WF) (hwf' : ∀ v V, s.recon.view v = some V → V.features.WF)
    (hl : Agreeing s.recon) (hg : ∀ q m, s.heap q = some m → NotFisheye m.lens ∧ Usable m.calibration)
    (h : undistortReconstruction eps big order s = .ok s') :
    Without (Lost s.recon s'.size) s.recon s'.recon ∧ Agreeing s'.recon ∧
      (∀ v V, s.recon.view v = some V → V.estimated = true → ∃ m, s'.heap V.intrinsics = some m ∧
        IsPerspective (m.toPixel eps) m.calibration.focal m.calibration.aspect (skewOf m) m.calibration.px m.calibration.py) ∧
      (∀ v V, s.recon.view v = some V → V.estimated = false → s'.size v = s.size v) := by
  obtain ⟨a1, a2, a3, a4, a5, -⟩ := viewLoop_without he ho (order s.recon.viewIds) s s' ((ho _).nodup_iff.2 hwf)
    (fun v V _ hV => hwf' v V hV) hl hg h
  have hmem : ∀ v V, s.recon.view v = some V → v ∈ order s.recon.viewIds := by
    intro v V hV
    rw [(ho _).mem_iff]
    exact AMap.mem_keys_iff.2 ⟨V, hV⟩
  have a1' : Without (Lost s.recon s'.size) s.recon s'.recon := by
    refine a1.congr fun v t => ⟨fun h => h.2, fun h => ⟨?_, h⟩⟩
    obtain ⟨V, T, f, hV, -⟩ := h
    exact hmem v V hV
  refine ⟨a1', agreeing_without hl a1', ?_, a3⟩
  intro v V hV hE
  obtain ⟨m, hm, hz⟩ := a4 v V (hmem v V hV) hV hE
  refine ⟨m, hm, ?_⟩
  have e : m = ⟨m.calibration, m.lens.zero⟩ := by rw [hz]
  have := perspective_zero he m.calibration (a5 _ m hm).1
  rw [← e] at this
  exact this

/-! ## Views that share their intrinsics -/

/-- Two estimated views of 1000 by 1000 pixels that share their intrinsics, with a track each. -/
noncomputable def sharedScene : Scene Unit :=
  ⟨⟨2, 2, 1, ⟨[("a", 0), ("b", 1)]⟩, ⟨[(0, ⟨"a", true, 0, ⟨[(0, (10, 20)), (1, (999, 5))]⟩⟩), (1, ⟨"b", true, 0, ⟨[(0, (30, 40))]⟩⟩)]⟩,
      ⟨[(0, ⟨true, (), [0, 1]⟩), (1, ⟨true, (), [0]⟩)]⟩, ⟨[(0, 0), (1, 0)]⟩, ⟨[(0, [0, 1])]⟩, 1⟩,
    fun q => if q = 0 then some ⟨⟨900, 1, 0, 500, 500⟩, .pinhole (-1 / 10) 0⟩ else none, fun _ => (1000, 1000)⟩

/-- The reconstruction of `sharedScene` afterwards. -/
noncomputable def sharedAfter : Reconstruction V2 Unit :=
  ⟨2, 2, 1, ⟨[("a", 0), ("b", 1)]⟩, ⟨[(0, ⟨"a", true, 0, ⟨[(0, (10, 20))]⟩⟩), (1, ⟨"b", true, 0, ⟨[(0, (30, 40))]⟩⟩)]⟩,
    ⟨[(0, ⟨true, (), [0, 1]⟩)]⟩, ⟨[(0, 0), (1, 0)]⟩, ⟨[(0, [0, 1])]⟩, 1⟩

/-- The first view is cut to 999 by 999 pixels. The shared principal point is then scaled a second time for the second view,
which is cut to 998 by 998: the principal point is right for neither image (it would be 499.5). -/
theorem C95_shared_intrinsics_counterexample {eps : ℝ} (he : 0 < eps) :
    ∃ s' m, undistortReconstruction eps (2 ^ 31) id sharedScene = .ok s' ∧ s'.size 0 = (999, 999) ∧ s'.size 1 = (998, 998) ∧
      s'.heap 0 = some m ∧ m.calibration.px = 498501 / 1000 ∧ m.calibration.py = 498501 / 1000 ∧
      featureOf s'.recon 0 0 = some (10, 20) ∧ featureOf s'.recon 0 1 = none ∧ s'.recon.track 1 = none := by
  have g1 : GoodAxis (2 ^ 31) 500 1000 := by norm_num [GoodAxis]
  have g2 : GoodAxis (2 ^ 31) (999 / 2) 1000 := by norm_num [GoodAxis]
  have s1 : croppedSize 500 1000 = 999 := (C95_size g1).2.2 998 rfl (by norm_num)
  have s2 : croppedSize (999 / 2) 1000 = 998 := by
    unfold croppedSize
    rw [max_eq_right (by norm_num), Nat.floor_eq_iff (by norm_num)]
    norm_num
  have c1 := camera_result (big := 2 ^ 31) he (heap := sharedScene.heap) (cam := ⟨⟨V3.zero, V3.zero⟩, 0, 1000, 1000⟩)
    (m := ⟨⟨900, 1, 0, 500, 500⟩, .pinhole (-1 / 10) 0⟩) rfl trivial ⟨by norm_num, by norm_num⟩ g1 g1
  have e1 : after ⟨⟨900, 1, 0, 500, 500⟩, .pinhole (-1 / 10) 0⟩ 1000 1000 = ⟨⟨900, 1, 0, 999 / 2, 999 / 2⟩, .pinhole 0 0⟩ := by
    simp only [after, Lens.zero, s1]
    norm_num
  have e2 : after ⟨⟨900, 1, 0, 999 / 2, 999 / 2⟩, .pinhole 0 0⟩ 1000 1000 =
      ⟨⟨900, 1, 0, 498501 / 1000, 498501 / 1000⟩, .pinhole 0 0⟩ := by
    simp only [after, Lens.zero, s2]
    norm_num
  have c2 := camera_result (big := 2 ^ 31) he (heap := sharedScene.heap.set 0 ⟨⟨900, 1, 0, 999 / 2, 999 / 2⟩, .pinhole 0 0⟩)
    (cam := ⟨⟨V3.zero, V3.zero⟩, 0, 1000, 1000⟩) (m := ⟨⟨900, 1, 0, 999 / 2, 999 / 2⟩, .pinhole 0 0⟩) rfl trivial
    ⟨by norm_num, by norm_num⟩ g2 g2
  simp only [e1, e2, s1, s2] at c1 c2
  have r1 := remap_self he (c := ⟨900, 1, 0, 999 / 2, 999 / 2⟩) (l := .pinhole 0 0) ⟨by norm_num, by norm_num⟩ trivial
  have r2 := remap_self he (c := ⟨900, 1, 0, 498501 / 1000, 498501 / 1000⟩) (l := .pinhole 0 0) ⟨by norm_num, by norm_num⟩ trivial
  simp only [Lens.zero] at r1 r2
  have o1 : outside (999, 999) (10, 20) = false := by norm_num [outside]
  have o2 : outside (999, 999) (999, 5) = true := by norm_num [outside]
  have o3 : outside (998, 998) (30, 40) = false := by norm_num [outside]
  have f1 : featureLoop eps ⟨⟨900, 1, 0, 999 / 2, 999 / 2⟩, .pinhole 0 0⟩ ⟨⟨900, 1, 0, 999 / 2, 999 / 2⟩, .pinhole 0 0⟩ (999, 999) 0
      [0, 1] sharedScene.recon = .ok sharedAfter := by
    rw [featureLoop]
    change (do let g ← remap eps _ _ _; _) = _
    rw [r1, Outcome.ok_bind]
    simp only [o1, Bool.false_eq_true, if_false]
    rw [featureLoop]
    change (do let g ← remap eps _ _ _; _) = _
    rw [r1, Outcome.ok_bind]
    change (if outside (999, 999) (999, 5) = true then _ else _) = _
    rw [o2, if_pos rfl]
    rfl
  have f2 : featureLoop eps ⟨⟨900, 1, 0, 498501 / 1000, 498501 / 1000⟩, .pinhole 0 0⟩
      ⟨⟨900, 1, 0, 498501 / 1000, 498501 / 1000⟩, .pinhole 0 0⟩ (998, 998) 1 [0] sharedAfter = .ok sharedAfter := by
    rw [featureLoop]
    change (do let g ← remap eps _ _ _; _) = _
    rw [r2, Outcome.ok_bind]
    change (if outside (998, 998) (30, 40) = true then _ else _) = _
    rw [o3]
    rfl
  refine ⟨⟨sharedAfter, (sharedScene.heap.set 0 ⟨⟨900, 1, 0, 999 / 2, 999 / 2⟩, .pinhole 0 0⟩).set 0
      ⟨⟨900, 1, 0, 498501 / 1000, 498501 / 1000⟩, .pinhole 0 0⟩,
      fun w => if w = 1 then (998, 998) else if w = 0 then (999, 999) else (1000, 1000)⟩,
    ⟨⟨900, 1, 0, 498501 / 1000, 498501 / 1000⟩, .pinhole 0 0⟩, ?_, rfl, rfl, rfl, rfl, rfl, rfl, rfl, rfl⟩
  unfold undistortReconstruction
  change viewLoop eps (2 ^ 31) id [0, 1] sharedScene = _
  rw [viewLoop]
  change (do let (heap, cam) ← undistortCamera eps (2 ^ 31) sharedScene.heap ⟨⟨V3.zero, V3.zero⟩, 0, 1000, 1000⟩; _) = _
  rw [c1, Outcome.ok_bind]
  change (do let recon ← featureLoop eps _ _ (999, 999) 0 [0, 1] sharedScene.recon; _) = _
  rw [f1, Outcome.ok_bind, viewLoop]
  change (do
    let (heap, cam) ← undistortCamera eps (2 ^ 31) (sharedScene.heap.set 0 ⟨⟨900, 1, 0, 999 / 2, 999 / 2⟩, .pinhole 0 0⟩)
      ⟨⟨V3.zero, V3.zero⟩, 0, 1000, 1000⟩
    _) = _
  rw [c2, Outcome.ok_bind]
  change (do let recon ← featureLoop eps _ _ (998, 998) 1 [0] sharedAfter; _) = _
  rw [f2, Outcome.ok_bind]
  rfl

/-- `sharedScene` meets the hypotheses of the theorem about reconstructions. -/
example {eps : ℝ} (he : 0 < eps) : ∃ s', undistortReconstruction eps (2 ^ 31) id sharedScene = .ok s' ∧
    Without (Lost sharedScene.recon s'.size) sharedScene.recon s'.recon ∧ Agreeing s'.recon := by
  obtain ⟨s', m, h, -⟩ := C95_shared_intrinsics_counterexample he
  have hw : sharedScene.recon.views.WF := by decide
  have hV : ∀ v V, sharedScene.recon.view v = some V →
      (v = 0 ∧ V = ⟨"a", true, 0, ⟨[(0, (10, 20)), (1, (999, 5))]⟩⟩) ∨ (v = 1 ∧ V = ⟨"b", true, 0, ⟨[(0, (30, 40))]⟩⟩) := by
    intro v V hV
    match v with
    | 0 => cases hV; exact Or.inl ⟨rfl, rfl⟩
    | 1 => cases hV; exact Or.inr ⟨rfl, rfl⟩
    | n + 2 => cases hV
  have hl : Agreeing sharedScene.recon := by
    intro v t
    match v, t with
    | 0, 0 => exact ⟨fun _ => ⟨_, rfl, by decide⟩, fun _ => ⟨_, rfl⟩⟩
    | 0, 1 => exact ⟨fun _ => ⟨_, rfl, by decide⟩, fun _ => ⟨_, rfl⟩⟩
    | 1, 0 => exact ⟨fun _ => ⟨_, rfl, by decide⟩, fun _ => ⟨_, rfl⟩⟩
    | 1, 1 => exact ⟨fun ⟨_, h⟩ => (by cases h), fun ⟨_, h, h'⟩ => by cases h; exact absurd h' (by decide)⟩
    | 0, n + 2 => exact ⟨fun ⟨_, h⟩ => (by cases h), fun ⟨_, h, h'⟩ => by cases h⟩
    | 1, n + 2 => exact ⟨fun ⟨_, h⟩ => (by cases h), fun ⟨_, h, h'⟩ => by cases h⟩
    | n + 2, 0 => exact ⟨fun ⟨_, h⟩ => (by cases h), fun ⟨_, h, h'⟩ => by cases h; exact absurd h' (by simp)⟩
    | n + 2, 1 => exact ⟨fun ⟨_, h⟩ => (by cases h), fun ⟨_, h, h'⟩ => by cases h; exact absurd h' (by simp)⟩
    | n + 2, k + 2 => exact ⟨fun ⟨_, h⟩ => (by cases h), fun ⟨_, h, h'⟩ => by cases h⟩
  obtain ⟨h1, h2, -⟩ := C95_reconstruction_partial he (fun l => List.Perm.refl l) hw
    (by rintro v V hV'; rcases hV v V hV' with ⟨-, rfl⟩ | ⟨-, rfl⟩ <;> (unfold AMap.WF; decide)) hl
    (by
      intro q m hq
      by_cases h0 : q = 0
      · subst h0; cases hq; exact ⟨trivial, by norm_num, by norm_num⟩
      · simp [sharedScene, h0] at hq) h
  exact ⟨s', h, h1, h2⟩

end Undistort
end Theia
