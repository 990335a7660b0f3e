import Verif.Proof.ImageSizes
import Verif.Props.ProjectionMatrix

/-!
# C106: Strecha datasets and the sizes of images
-/

namespace Theia

open Spec Spec.ImageSizes ImageSizes ProjectionMatrix

variable {F P : Type}

/-- **C106.** Whenever the reader returns, it returns true, and there is one new view for every file, in the order of the files,
with the name of the image, the image size and the position of the file, marked as estimated and in the group 0. The other
views, their cameras and all tracks are as before, except for the intrinsics of the views that were in group 0. -/
theorem C106_strecha (base : String → Option String) (ofM : M3 ℝ → V3 ℝ) (files : List (String × Option CameraFile))
    (s s' : Scene F P) (b : Bool) (hr : s.recon.Reachable) (h : readStrecha base ofM (some files) s = .ok (b, s')) :
    b = true ∧ s'.recon.nextViewId = s.recon.nextViewId + files.length ∧ s'.recon.tracks = s.recon.tracks ∧
    (∀ v V, s.recon.view v = some V → s'.recon.view v = some V ∧ s'.size v = s.size v ∧ s'.orientation v = s.orientation v ∧
      s'.position v = s.position v ∧ (s.recon.groupOf v ≠ some 0 → s'.heap V.intrinsics = s.heap V.intrinsics)) ∧
    ∀ (k : Nat) (path : String) (contents : Option CameraFile), files[k]? = some (path, contents) →
      ∃ c name V, contents = some c ∧ base path = some name ∧ s'.recon.view (s.recon.nextViewId + k) = some V ∧
        V.name = imageName name ∧ V.estimated = true ∧ s'.recon.groupOf (s.recon.nextViewId + k) = some 0 ∧
        s'.size (s.recon.nextViewId + k) = (c.width, c.height) ∧ s'.position (s.recon.nextViewId + k) = c.position := by
  have hi := Reconstruction.inv_of_reachable hr
  cases files with
  | nil => cases h
  | cons f fs =>
    obtain ⟨s1, h1, h⟩ := Outcome.bind_eq_ok.1 h
    cases h
    have hp := addCameras_post (f :: fs) s s' hi h1
    refine ⟨rfl, hp.next, hp.tracks, ?_, ?_⟩
    · intro v V hV
      obtain ⟨q1, _, q3, q4, q5⟩ := hp.oldView v (hi.freshV v (AMap.mem_keys_iff.2 ⟨V, hV⟩))
      exact ⟨q1.trans hV, q3, q4, q5, hp.oldHeap v V hV⟩
    · intro k path contents hk
      obtain ⟨c, name, V, q1, q2, q3, q4, q5, q6, q7, _, q9⟩ := hp.newView k path contents hk
      exact ⟨c, name, V, q1, q2, q3, q4, q5, q6, q7, q9⟩

/-- **C106.** The name of the view is that of the file without `.camera`, if the name of the image does not contain
`.camera` itself. -/
theorem C106_name_partial (name : String) (h : ¬ ".camera".toList <:+: name.toList) : imageName (name ++ ".camera") = name := by
  unfold imageName
  rw [String.toList_append, beforeCamera_append _ h, String.ofList_toList]

example : imageName "0001.png.camera" = "0001.png" := by decide

/-- **C106.** If the calibration matrices of all files are multiples of each other, every new camera sees every point of space where
the camera of its file sees it. `ofM` finds the angle and axis of a rotation. -/
theorem C106_cameras_partial (base : String → Option String) (ofM : M3 ℝ → V3 ℝ) (hlog : AngleAxis.IsLog ofM)
    (files : List (String × Option CameraFile)) (s s' : Scene F P) (b : Bool) (hr : s.recon.Reachable)
    (h : readStrecha base ofM (some files) s = .ok (b, s'))
    (hw : ∀ f ∈ files, ∀ c, f.2 = some c → WellFormed c)
    (hsame : ∀ f ∈ files, ∀ g ∈ files, ∀ c d, f.2 = some c → g.2 = some d → ∃ m, c.calibration = scale m d.calibration)
    (k : Nat) (path : String) (c : CameraFile) (hk : files[k]? = some (path, some c)) :
    ∃ V, s'.recon.view (s.recon.nextViewId + k) = some V ∧
      SeesAlike c (s'.heap V.intrinsics) (s'.orientation (s.recon.nextViewId + k)) (s'.position (s.recon.nextViewId + k)) := by
  have hi := Reconstruction.inv_of_reachable hr
  cases hfiles : files with
  | nil => rw [hfiles] at hk; cases hk
  | cons f fs =>
    rw [hfiles] at h
    obtain ⟨s1, h1, h⟩ := Outcome.bind_eq_ok.1 h
    cases h
    rw [← hfiles] at h1
    have hp := addCameras_post files s s' hi h1
    obtain ⟨c', name, V, q1, q2, q3, q4, q5, q6, q7, q8, q9⟩ := hp.newView k path (some c) hk
    cases q1
    refine ⟨V, q3, ?_⟩
    have hne : files ≠ [] := by rw [hfiles]; simp
    have hlast := List.getLast?_eq_some_getLast hne
    obtain ⟨j, hj⟩ := List.mem_iff_getElem?.1 (List.getLast_mem hne)
    obtain ⟨d, _, _, hd, _⟩ := hp.newView j _ _ hj
    have hcal := hp.heap _ V q3 q6 (files.getLast hne).1 d (by rw [hlast, ← hd])
    obtain ⟨m, hm⟩ := hsame _ (List.mem_of_getElem? hk) _ (List.getLast_mem hne) c d rfl hd
    obtain ⟨hKc, hRc⟩ := hw _ (List.mem_of_getElem? hk) c rfl
    obtain ⟨hKd, _⟩ := hw _ (List.getLast_mem hne) d hd
    obtain ⟨i, hi1, _, _, hKi⟩ := (C58_calibration d.calibration).2 hKd
    rw [hcal] at hi1
    cases hi1
    have hzc : c.calibration.r3.z = m * d.calibration.r3.z := by rw [hm]; simp [scale, V3.smul]
    refine ⟨m * d.calibration.r3.z, by rw [← hzc]; exact hKc.2.2.2.ne', ?_⟩
    intro X
    rw [q8, q9, (hlog _ hRc.transpose).1, hm]
    generalize (c.rotation.transpose.mulVec (X.sub c.position)) = Y
    have hK : d.calibration.mulVec Y = ((toCalibration (s'.heap V.intrinsics)).mulVec Y).smul d.calibration.r3.z := by
      conv_lhs => rw [hKi]
      apply V3.ext <;> simp [scale, M3.mulVec, V3.smul, V3.dot] <;> ring
    have : (scale m d.calibration).mulVec Y = (d.calibration.mulVec Y).smul m := by
      apply V3.ext <;> simp [scale, M3.mulVec, V3.smul, V3.dot] <;> ring
    rw [this, hK]
    apply V3.ext <;> simp [toCalibration, M3.mulVec, V3.smul, V3.dot] <;> ring

/-- **C106.** In any case all views of group 0 have the intrinsics of the last file. -/
theorem C106_last (base : String → Option String) (ofM : M3 ℝ → V3 ℝ) (files : List (String × Option CameraFile))
    (s s' : Scene F P) (b : Bool) (hr : s.recon.Reachable) (h : readStrecha base ofM (some files) s = .ok (b, s'))
    (path : String) (c : CameraFile) (hl : files.getLast? = some (path, some c)) (v : ViewId) (V : View F)
    (hV : s'.recon.view v = some V) (hg : s'.recon.groupOf v = some 0) :
    s'.heap V.intrinsics = ⟨c.calibration.r1.x / c.calibration.r3.z, c.calibration.r1.y / c.calibration.r3.z,
      c.calibration.r2.y / c.calibration.r1.x, c.calibration.r1.z / c.calibration.r3.z,
      c.calibration.r2.z / c.calibration.r3.z⟩ := by
  have hi := Reconstruction.inv_of_reachable hr
  cases files with
  | nil => cases h
  | cons f fs =>
    obtain ⟨s1, h1, h⟩ := Outcome.bind_eq_ok.1 h
    cases h
    have hcal := (addCameras_post (f :: fs) s s' hi h1).heap v V hV hg path c hl
    unfold ofCalibration at hcal
    split at hcal
    · cases hcal
    split at hcal
    · cases hcal
    simp only [Outcome.ok.injEq] at hcal
    exact hcal.symm

/-- **C106.** A dataset of at least one file is read if every file can be opened, the calibration matrices do not have a zero in the
corners, and the names of the images are not empty, not used and different. -/
theorem C106_reads (base : String → Option String) (ofM : M3 ℝ → V3 ℝ) (files : List (String × Option CameraFile))
    (s : Scene F P) (hr : s.recon.Reachable) (hne : files ≠ [])
    (hf : ∀ f ∈ files, ∃ c name, f.2 = some c ∧ base f.1 = some name ∧ imageName name ≠ "" ∧ c.calibration.r3.z ≠ 0 ∧
        c.calibration.r1.x ≠ 0 ∧ ∀ v V, s.recon.view v = some V → V.name ≠ imageName name)
    (hd : files.Pairwise (fun f g => ∀ n m, base f.1 = some n → base g.1 = some m → imageName n ≠ imageName m)) :
    ∃ s', readStrecha base ofM (some files) s = .ok (true, s') := by
  obtain ⟨s', hs'⟩ := addCameras_ok (ofM := ofM) files s (Reconstruction.inv_of_reachable hr) hf hd
  cases files with
  | nil => exact absurd rfl hne
  | cons f fs => exact ⟨s', by simp only [readStrecha, hs', Outcome.ok_bind]⟩

/-! ## The sizes of images -/

/-- **C106.** If setting the sizes returns true, all images exist, every view has the size of its image, and the principal
point of every view is the centre of the image of a view with the same intrinsics. Nothing else has changed. -/
theorem C106_sizes (order : List ViewId → List ViewId) (hord : ∀ l, (order l).Perm l) (exists_ : String → Bool)
    (load : String → Outcome (Int × Int)) (directory : String) (s s' : Scene F P)
    (h : populate order exists_ load directory s = .ok (true, s')) :
    s'.recon = s.recon ∧ s'.orientation = s.orientation ∧ s'.position = s.position ∧
    (∀ v, s.recon.view v = none → s'.size v = s.size v) ∧
    ∀ v V, s.recon.view v = some V →
      (∃ path image, ImagePath directory V.name path ∧ exists_ path = true ∧ load path = .ok image ∧ 0 < image.1 ∧
        s'.size v = image) ∧
      (s'.heap V.intrinsics).focal = (s.heap V.intrinsics).focal ∧ (s'.heap V.intrinsics).skew = (s.heap V.intrinsics).skew ∧
      (s'.heap V.intrinsics).aspect = (s.heap V.intrinsics).aspect ∧
      ∃ w W, s.recon.view w = some W ∧ W.intrinsics = V.intrinsics ∧
        (s'.heap V.intrinsics).px = ((s'.size w).1 : ℝ) / 2 ∧ (s'.heap V.intrinsics).py = ((s'.size w).2 : ℝ) / 2 := by
  unfold populate at h
  split at h
  · cases h
  have hmem : ∀ v, v ∈ order s.recon.viewIds ↔ ∃ V, s.recon.view v = some V := fun v =>
    (hord _).mem_iff.trans AMap.mem_keys_iff
  obtain ⟨b, hb, hiff⟩ := allExist_spec (exists_ := exists_) (directory := directory) (order s.recon.viewIds)
    (fun v hv => (hmem v).1 hv)
  rw [hb, Outcome.ok_bind] at h
  split at h
  · rename_i hbt
    obtain ⟨s1, h1, h⟩ := Outcome.bind_eq_ok.1 h
    cases h
    have hs := setSizes_spec _ _ _ h1
    refine ⟨hs.recon, hs.orientation, hs.position, ?_, ?_⟩
    · intro v hv
      apply hs.others
      rw [hmem]
      rintro ⟨V, hV⟩
      rw [hv] at hV
      cases hV
    · intro v V hV
      obtain ⟨V', image, q1, q2, q3, q4⟩ := hs.size v ((hmem v).2 ⟨V, hV⟩)
      rw [hV] at q1
      cases q1
      refine ⟨⟨_, image, imagePath_iff.2 rfl, hiff.1 hbt v ((hmem v).2 ⟨V, hV⟩) V hV, q2, q3, q4⟩, ?_⟩
      rcases hs.heap V.intrinsics with ⟨_, hno⟩ | ⟨w, hw, W, im, w1, w2, w3, w4⟩
      · exact absurd rfl (hno v ((hmem v).2 ⟨V, hV⟩) V hV)
      · obtain ⟨W', im', e1, e2, _, e4⟩ := hs.size w hw
        rw [w1] at e1
        cases e1
        rw [w3] at e2
        cases e2
        rw [w4]
        exact ⟨rfl, rfl, rfl, w, W, w1, w2, by rw [e4], by rw [e4]⟩
  · cases h

/-- **C106.** If the images of views that share intrinsics have the same size, the principal point of every view is the centre of
its own image. -/
theorem C106_centre_partial (order : List ViewId → List ViewId) (hord : ∀ l, (order l).Perm l) (exists_ : String → Bool)
    (load : String → Outcome (Int × Int)) (directory : String) (s s' : Scene F P)
    (h : populate order exists_ load directory s = .ok (true, s'))
    (hsame : ∀ v w V W p q, s.recon.view v = some V → s.recon.view w = some W → V.intrinsics = W.intrinsics →
      ImagePath directory V.name p → ImagePath directory W.name q → load p = load q)
    (v : ViewId) (V : View F) (hV : s.recon.view v = some V) :
    (s'.heap V.intrinsics).px = ((s'.size v).1 : ℝ) / 2 ∧ (s'.heap V.intrinsics).py = ((s'.size v).2 : ℝ) / 2 := by
  obtain ⟨_, _, _, _, hall⟩ := C106_sizes order hord exists_ load directory s s' h
  obtain ⟨⟨p, image, p1, _, p3, _, p5⟩, _, _, _, w, W, hW, hWi, hx, hy⟩ := hall v V hV
  obtain ⟨⟨q, image', q1, _, q3, _, q5⟩, _⟩ := hall w W hW
  have := hsame v w V W p q hV hW hWi.symm p1 q1
  rw [p3, q3] at this
  cases this
  rw [hx, hy, p5, q5]
  exact ⟨rfl, rfl⟩

/-- **C106.** Setting the sizes returns false exactly if an image does not exist; then nothing has changed. -/
theorem C106_missing (order : List ViewId → List ViewId) (hord : ∀ l, (order l).Perm l) (exists_ : String → Bool)
    (load : String → Outcome (Int × Int)) (directory : String) (hdir : directory ≠ "") (s : Scene F P) :
    ((∃ s', populate order exists_ load directory s = .ok (false, s')) ↔
      ∃ v V path, s.recon.view v = some V ∧ ImagePath directory V.name path ∧ exists_ path = false) ∧
    ∀ s', populate order exists_ load directory s = .ok (false, s') → s' = s := by
  have hmem : ∀ v, v ∈ order s.recon.viewIds ↔ ∃ V, s.recon.view v = some V := fun v =>
    (hord _).mem_iff.trans AMap.mem_keys_iff
  obtain ⟨b, hb, hiff⟩ := allExist_spec (exists_ := exists_) (directory := directory) (order s.recon.viewIds)
    (fun v hv => (hmem v).1 hv)
  have hpop : populate order exists_ load directory s =
      if b then do
        let s ← setSizes load directory (order s.recon.viewIds) s
        .ok (true, s)
      else .ok (false, s) := by
    unfold populate
    rw [if_neg (by simpa using hdir), hb, Outcome.ok_bind]
  rw [hpop]
  cases b with
  | true =>
    have hno : ∀ s', (do let s ← setSizes load directory (order s.recon.viewIds) s
                         Outcome.ok (true, s)) ≠ Outcome.ok (false, s') := by
      intro s' h
      obtain ⟨s1, _, h⟩ := Outcome.bind_eq_ok.1 h
      cases h
    simp only [if_true]
    refine ⟨⟨fun ⟨s', h⟩ => absurd h (hno s'), ?_⟩, fun s' h => absurd h (hno s')⟩
    rintro ⟨v, V, path, hV, hp, he⟩
    have := hiff.1 rfl v ((hmem v).2 ⟨V, hV⟩) V hV
    rw [imagePath_iff.1 hp] at he
    rw [he] at this
    cases this
  | false =>
    simp only [Bool.false_eq_true, if_false]
    refine ⟨⟨fun _ => ?_, fun _ => ⟨s, rfl⟩⟩, fun s' h => by cases h; rfl⟩
    have hnot : ¬ ∀ v ∈ order s.recon.viewIds, ∀ V, s.recon.view v = some V →
        exists_ (withSlash directory ++ V.name) = true := fun h => by cases hiff.2 h
    push Not at hnot
    obtain ⟨v, _, V, hV, he⟩ := hnot
    exact ⟨v, V, _, hV, imagePath_iff.2 rfl, by simpa using he⟩

/-- **C106.** If all images exist and can be read and none is without columns, setting the sizes returns true. -/
theorem C106_populates (order : List ViewId → List ViewId) (hord : ∀ l, (order l).Perm l) (exists_ : String → Bool)
    (load : String → Outcome (Int × Int)) (directory : String) (hdir : directory ≠ "") (s : Scene F P)
    (hall : ∀ v V path, s.recon.view v = some V → ImagePath directory V.name path →
      exists_ path = true ∧ ∃ image, load path = .ok image ∧ 0 < image.1) :
    ∃ s', populate order exists_ load directory s = .ok (true, s') := by
  have hmem : ∀ v, v ∈ order s.recon.viewIds ↔ ∃ V, s.recon.view v = some V := fun v =>
    (hord _).mem_iff.trans AMap.mem_keys_iff
  obtain ⟨b, hb, hiff⟩ := allExist_spec (exists_ := exists_) (directory := directory) (order s.recon.viewIds)
    (fun v hv => (hmem v).1 hv)
  have hbt : b = true := hiff.2 fun v _ V hV => (hall v V _ hV (imagePath_iff.2 rfl)).1
  obtain ⟨s', hs'⟩ := setSizes_ok (load := load) (directory := directory) (order s.recon.viewIds) s (by
    intro v hv
    obtain ⟨V, hV⟩ := (hmem v).1 hv
    obtain ⟨_, image, hl, hpos⟩ := hall v V _ hV (imagePath_iff.2 rfl)
    exact ⟨V, image, hV, hl, hpos⟩)
  refine ⟨s', ?_⟩
  unfold populate
  rw [if_neg (by simpa using hdir), hb, Outcome.ok_bind, if_pos hbt, hs', Outcome.ok_bind]

/-! ## Examples and counterexamples -/

namespace ImageSizesExample

/-- An empty scene. -/
noncomputable def none_ : Scene Unit Unit := ⟨.empty, fun _ => ⟨1, 0, 1, 0, 0⟩, fun _ => (0, 0), fun _ => .zero, fun _ => .zero⟩

theorem reachable_none : none_.recon.Reachable := ⟨[], [], rfl⟩

/-- A camera at the origin with two focal lengths. -/
noncomputable def camera (fx fy : ℝ) : CameraFile := ⟨⟨⟨fx, 0, 0⟩, ⟨0, fy, 0⟩, ⟨0, 0, 1⟩⟩, M3.one, .zero, 640, 480⟩

theorem camera_wellFormed {fx fy : ℝ} (h1 : 0 < fx) (h2 : 0 < fy) : WellFormed (camera fx fy) :=
  ⟨⟨⟨rfl, rfl, rfl⟩, h1, h2, one_pos⟩, M3.IsRotation.one⟩

/-- Two files. -/
noncomputable def files (n m : String) (c d : CameraFile) : List (String × Option CameraFile) := [(n, some c), (m, some d)]

theorem files_read (ofM : M3 ℝ → V3 ℝ) {fx fy gx gy : ℝ} (h1 : fx ≠ 0) (h2 : gx ≠ 0) :
    ∃ s', readStrecha some ofM (some (files "a.camera" "b.camera" (camera fx fy) (camera gx gy))) none_ = .ok (true, s') := by
  apply C106_reads _ _ _ _ reachable_none (by simp [files])
  · intro f hf
    simp only [files, List.mem_cons, List.not_mem_nil, or_false] at hf
    rcases hf with rfl | rfl
    · exact ⟨_, _, rfl, rfl, (by decide : imageName "a.camera" ≠ ""), one_ne_zero, h1, fun v V h => by cases h⟩
    · exact ⟨_, _, rfl, rfl, (by decide : imageName "b.camera" ≠ ""), one_ne_zero, h2, fun v V h => by cases h⟩
  · simp only [files, List.pairwise_cons, List.mem_cons, List.not_mem_nil, or_false, forall_eq, List.Pairwise.nil, and_true,
      false_implies, implies_true, Option.some.injEq]
    rintro n m rfl rfl
    decide

/-- Two views that share their intrinsics. -/
def shared : Reconstruction Unit Unit where
  nextTrackId := 0
  nextViewId := 2
  nextGroupId := 0
  names := ⟨[("a", 0), ("b", 1)]⟩
  views := ⟨[(0, ⟨"a", false, 0, .empty⟩), (1, ⟨"b", false, 0, .empty⟩)]⟩
  tracks := .empty
  viewGroup := ⟨[(0, 0), (1, 0)]⟩
  groups := ⟨[(0, [0, 1])]⟩
  nextIntrinsics := 2

theorem reachable_shared : shared.Reachable := ⟨[.addViewToGroup "a" 0, .addViewToGroup "b" 0], _, by rfl⟩

end ImageSizesExample

open ImageSizesExample

/-- The hypotheses of `C106_cameras_partial` can be met: two files with the same calibration. -/
example (ofM : M3 ℝ → V3 ℝ) (hlog : AngleAxis.IsLog ofM) : ∃ s' V,
    readStrecha some ofM (some (files "a.camera" "b.camera" (camera 500 500) (camera 500 500))) none_ = .ok (true, s') ∧
    s'.recon.view 1 = some V ∧ V.name = "b" ∧ SeesAlike (camera 500 500) (s'.heap V.intrinsics) (s'.orientation 1) (s'.position 1) := by
  obtain ⟨s', hs'⟩ := files_read ofM (fx := 500) (fy := 500) (gx := 500) (gy := 500) (by norm_num) (by norm_num)
  obtain ⟨V, hV, hsee⟩ := C106_cameras_partial some ofM hlog _ none_ s' true reachable_none hs' (by
      intro f hf c hc
      simp only [files, List.mem_cons, List.not_mem_nil, or_false] at hf
      rcases hf with rfl | rfl <;> (cases hc; exact camera_wellFormed (by norm_num) (by norm_num))) (by
      intro f hf g hg c d hc hd
      simp only [files, List.mem_cons, List.not_mem_nil, or_false] at hf hg
      refine ⟨1, ?_⟩
      rcases hf with rfl | rfl <;> rcases hg with rfl | rfl <;> (cases hc; cases hd; simp [scale, V3.smul, camera])) 1 "b.camera"
      _ rfl
  obtain ⟨_, _, _, _, hnew⟩ := C106_strecha some ofM _ none_ s' true reachable_none hs'
  obtain ⟨c, name, W, _, hb, hW, hn, _⟩ := hnew 1 "b.camera" _ rfl
  cases hb
  rw [hV] at hW
  cases hW
  exact ⟨s', V, hs', hV, by rw [hn]; decide, hsee⟩

/-- **C106 fails in general.** All cameras get the calibration of the last file: if the files differ, the other cameras do not see
points where the cameras of their files do. -/
theorem C106_calibration_counterexample (ofM : M3 ℝ → V3 ℝ) (hlog : AngleAxis.IsLog ofM) : ∃ s' V,
    WellFormed (camera 1 1) ∧ WellFormed (camera 2 1) ∧
    readStrecha some ofM (some (files "a.camera" "b.camera" (camera 1 1) (camera 2 1))) none_ = .ok (true, s') ∧
    s'.recon.view 0 = some V ∧ ¬ SeesAlike (camera 1 1) (s'.heap V.intrinsics) (s'.orientation 0) (s'.position 0) := by
  obtain ⟨s', hs'⟩ := files_read ofM (fx := 1) (fy := 1) (gx := 2) (gy := 1) (by norm_num) (by norm_num)
  obtain ⟨s1, h1, h⟩ := Outcome.bind_eq_ok.1 hs'
  cases h
  have hp := addCameras_post _ _ _ (Reconstruction.inv_of_reachable reachable_none) h1
  obtain ⟨c, name, V, hc, hb, hV, hn, _, hg, _, ho, hpos⟩ := hp.newView 0 "a.camera" _ rfl
  cases hc
  have hheap := C106_last some ofM _ none_ s' true reachable_none hs' "b.camera" (camera 2 1) rfl _ V hV hg
  refine ⟨s', V, camera_wellFormed one_pos one_pos, camera_wellFormed two_pos one_pos, hs', hV, ?_⟩
  rintro ⟨sc, _, hall⟩
  have ho' : AngleAxis.toM (s'.orientation 0) = M3.one := by
    have : s'.orientation 0 = ofM M3.one.transpose := ho
    rw [this, (hlog _ (M3.IsRotation.one.transpose)).1]
    simp [M3.one, M3.transpose]
  have hpos' : s'.position 0 = V3.zero := hpos
  rw [hheap, ho', hpos'] at hall
  have hz := congrArg V3.z (hall ⟨0, 0, 1⟩)
  have hx := congrArg V3.x (hall ⟨1, 0, 0⟩)
  simp [camera, M3.mulVec, M3.one, M3.transpose, V3.dot, V3.sub, V3.zero, V3.smul] at hz hx
  rw [← hz] at hx
  norm_num at hx

/-- **C106 fails in general.** The names of images are cut at the first `.camera`: a dataset with the images `a.camera1.png` and
`a.camera2.png` cannot be read. -/
theorem C106_name_counterexample (ofM : M3 ℝ → V3 ℝ) (c d : CameraFile) (b : Bool) (s' : Scene Unit Unit) :
    readStrecha some ofM (some (files "a.camera1.png.camera" "a.camera2.png.camera" c d)) none_ ≠ .ok (b, s') := by
  intro hs'
  obtain ⟨s1, h1, h⟩ := Outcome.bind_eq_ok.1 hs'
  cases h
  have hp := addCameras_post _ _ _ (Reconstruction.inv_of_reachable reachable_none) h1
  obtain ⟨_, n, V, _, hb, hV, hn, _⟩ := hp.newView 0 _ _ rfl
  obtain ⟨_, m, W, _, hb', hW, hm, _⟩ := hp.newView 1 _ _ rfl
  cases hb
  cases hb'
  have e1 : V.name = "a" := by rw [hn]; decide
  have e2 : W.name = "a" := by rw [hm]; decide
  have q1 := (hp.inv.name "a" _).2 ⟨V, hV, e1⟩
  have q2 := (hp.inv.name "a" _).2 ⟨W, hW, e2⟩
  rw [q1] at q2
  cases q2

/-- **C106 fails in general.** Two views that share their intrinsics and have images of different sizes: in whatever order the views are
visited, the principal point of one of them is not the centre of its image. -/
theorem C106_shared_counterexample (order : List ViewId → List ViewId) (hord : ∀ l, (order l).Perm l) :
    shared.Reachable ∧ ∃ s', populate order (fun _ => true) (fun p => .ok (if p = "d/a" then (10, 10) else (20, 20))) "d"
      { none_ with recon := shared } = .ok (true, s') ∧
      ∃ v V, s'.recon.view v = some V ∧ (s'.heap V.intrinsics).px ≠ ((s'.size v).1 : ℝ) / 2 := by
  refine ⟨reachable_shared, ?_⟩
  have hd : ("d" : String).toList.getLast? ≠ some '/' := by decide
  obtain ⟨s', hs'⟩ := C106_populates order hord (fun _ => true)
    (fun p => .ok (if p = "d/a" then (10, 10) else (20, 20))) "d" (by decide) { none_ with recon := shared } (by
      intro v V path _ _
      refine ⟨rfl, _, rfl, ?_⟩
      split <;> decide)
  refine ⟨s', hs', ?_⟩
  obtain ⟨hrec, _, _, _, hall⟩ := C106_sizes order hord _ _ _ _ _ hs'
  obtain ⟨⟨p, im, p1, _, p3, _, p5⟩, _⟩ := hall 0 ⟨"a", false, 0, .empty⟩ rfl
  obtain ⟨⟨q, im', q1, _, q3, _, q5⟩, _⟩ := hall 1 ⟨"b", false, 0, .empty⟩ rfl
  have hp : p = "d/a" := by rw [imagePath_iff.1 p1]; decide
  have hq : q ≠ "d/a" := by rw [imagePath_iff.1 q1]; decide
  rw [if_pos hp] at p3
  rw [if_neg hq] at q3
  cases p3
  cases q3
  by_cases h0 : (s'.heap 0).px = 5
  · refine ⟨1, ⟨"b", false, 0, .empty⟩, by rw [hrec]; rfl, ?_⟩
    rw [q5]
    simp only [h0]
    norm_num
  · refine ⟨0, ⟨"a", false, 0, .empty⟩, by rw [hrec]; rfl, ?_⟩
    rw [p5]
    intro h
    apply h0
    simp only at h
    rw [h]
    norm_num

end Theia
