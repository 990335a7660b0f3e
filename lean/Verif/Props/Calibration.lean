import Mathlib.Data.Int.Log
import Mathlib.Algebra.Order.Round
import Mathlib.Tactic.Positivity
import Mathlib.Tactic.FieldSimp
import Verif.Proof.CalibrationFile

/-!
# C82: What calibration files keep
-/

namespace Theia

open Calibration Json Spec

namespace CalibrationExample

/-- Six significant digits in scientific notation: the mantissa and the exponent. -/
noncomputable def exponentOf (v : ℚ) : Int := if v = 0 then 0 else Int.log 10 |v| - 5

noncomputable def mantissaOf (v : ℚ) : Int := round (v / (10 : ℚ) ^ exponentOf v)

/-- A way to print numbers. -/
noncomputable def scientific (v : ℚ) : List Char := intText (mantissaOf v) ++ 'e' :: intText (exponentOf v)

noncomputable def rounded (v : ℚ) : ℚ := (mantissaOf v : ℚ) * (10 : ℚ) ^ exponentOf v

theorem prints : Prints scientific rounded := by
  intro v
  refine ⟨⟨(mantissaOf v : ℚ) * (10 : ℚ) ^ exponentOf v, false, true⟩, rfl, Or.inr rfl, ?_, ?_⟩
  · intro c hc
    unfold scientific at hc
    rcases List.mem_append.1 hc with hc | hc
    · exact intText_nonzero _ c hc
    · rcases List.mem_cons.1 hc with rfl | hc
      · decide
      · exact intText_nonzero _ c hc
  · intro c rest hc
    unfold scientific
    rw [List.append_assoc, List.cons_append]
    exact number_exponent _ _ hc rest

theorem sixDigits : SixDigits rounded := by
  intro v
  by_cases h0 : v = 0
  · subst h0
    have : rounded 0 = 0 := by simp [rounded, mantissaOf]
    exact ⟨⟨0, 0, by norm_num, by rw [this]; simp⟩, by rw [this]; simp⟩
  · have hv : 0 < |v| := abs_pos.2 h0
    have he : exponentOf v = Int.log 10 |v| - 5 := if_neg h0
    have hpos : (0 : ℚ) < (10 : ℚ) ^ exponentOf v := zpow_pos (by norm_num) _
    have hlow : (10 : ℚ) ^ exponentOf v * 10 ^ 5 ≤ |v| := by
      have := Int.zpow_log_le_self (R := ℚ) (b := 10) (by norm_num) hv
      rw [he, zpow_sub₀ (by norm_num)]
      push_cast at this
      norm_num at this ⊢
      exact this
    have hhigh : |v| < (10 : ℚ) ^ exponentOf v * 10 ^ 6 := by
      have := Int.lt_zpow_succ_log_self (R := ℚ) (b := 10) (by norm_num) |v|
      rw [he, zpow_sub₀ (by norm_num)]
      rw [zpow_add₀ (by norm_num)] at this
      push_cast at this
      norm_num at this ⊢
      linarith
    refine ⟨⟨mantissaOf v, exponentOf v, ?_, rfl⟩, ?_⟩
    · have hx : |v / (10 : ℚ) ^ exponentOf v| < 10 ^ 6 := by
        rw [abs_div, abs_of_pos hpos, div_lt_iff₀ hpos]
        linarith
      have hr := abs_sub_round (v / (10 : ℚ) ^ exponentOf v)
      have h1 := abs_le.1 hr
      have h2 := abs_lt.1 hx
      have h3 : ((mantissaOf v : Int) : ℚ) = (round (v / (10 : ℚ) ^ exponentOf v) : Int) := rfl
      rw [abs_le]
      constructor
      · have : (-(10 ^ 6) - 1 : ℚ) < (mantissaOf v : ℚ) := by rw [h3]; linarith
        have : ((-(10 ^ 6) - 1 : Int) : ℚ) < (mantissaOf v : ℚ) := by push_cast; norm_num at this ⊢; exact this
        have := Int.cast_lt.1 this
        omega
      · have : (mantissaOf v : ℚ) < (10 ^ 6 + 1 : ℚ) := by rw [h3]; linarith
        have : (mantissaOf v : ℚ) < ((10 ^ 6 + 1 : Int) : ℚ) := by push_cast; norm_num at this ⊢; exact this
        have := Int.cast_lt.1 this
        omega
    · have hr := abs_sub_round (v / (10 : ℚ) ^ exponentOf v)
      have e : rounded v - v = -((v / (10 : ℚ) ^ exponentOf v - (round (v / (10 : ℚ) ^ exponentOf v) : Int)) *
          (10 : ℚ) ^ exponentOf v) := by
        unfold rounded mantissaOf
        field_simp
        ring
      rw [e, abs_neg, abs_mul, abs_of_pos hpos]
      nlinarith

/-- A camera with a focal length, a principal point and a position. -/
def camera : CameraPrior :=
  { emptyPrior with
    width := 1280, height := 720, modelType := chars! "FISHEYE"
    focalLength := ⟨true, fun _ => 1000⟩
    principalPoint := ⟨true, fun i => if i = 0 then 640 else 360⟩
    position := ⟨true, fun i => i.1 + 1 / 2⟩ }

theorem camera_writable : WritablePrior rounded camera where
  width := by decide
  height := by decide
  modelType := by decide
  point := by
    intro _ i
    have h := (sixDigits (camera.principalPoint.value i)).2
    have hv : 0 ≤ camera.principalPoint.value i ∧ camera.principalPoint.value i ≤ 640 := by
      fin_cases i <;> decide +kernel
    rw [abs_of_nonneg hv.1] at h
    have := abs_le.1 h
    rw [abs_lt]
    constructor <;> linarith

theorem empty_writable (rnd : ℚ → ℚ) : WritablePrior rnd emptyPrior where
  width := by decide
  height := by decide
  modelType := by decide
  point := by intro h; cases h

end CalibrationExample

/-! ### Writing -/

/-- **C82 (writing).** A calibration file is written exactly if there is something to write and the file can be opened, and the
result says so. -/
theorem C82_written (fmt : ℚ → List Char) (canOpen : Bool) (priors : List (List Char × CameraPrior)) :
    ((writeCalibration fmt canOpen priors).1 = true ↔ priors ≠ [] ∧ canOpen = true) ∧
    ((writeCalibration fmt canOpen priors).2.isSome = (writeCalibration fmt canOpen priors).1) := by
  cases priors with
  | nil => simp [writeCalibration]
  | cons x l =>
    obtain ⟨n, p⟩ := x
    cases canOpen <;> simp [writeCalibration]

example : (writeCalibration CalibrationExample.scientific true [(chars! "a.jpg", emptyPrior)]).1 = true :=
  (C82_written _ _ _).1.2 ⟨by simp, rfl⟩

/-- **C82 (round trip).** For any number of images with distinct names without quotes, backslashes and control characters, in
any order, with any choice of the attributes that are set: reading the file that was written succeeds and gives every image
exactly the attributes that were set, with the numbers that were printed, and the size and the type of the camera. Nothing else
that was in the container changes. -/
theorem C82_round_trip_partial {fmt : ℚ → List Char} {rnd : ℚ → ℚ} (hf : Prints fmt rnd) {priors : List (List Char × CameraPrior)}
    (hne : priors ≠ []) (hd : (priors.map (·.1)).Nodup) (hp : ∀ x ∈ priors, PlainText x.1 ∧ WritablePrior rnd x.2)
    (m : AMap (List Char) CameraPrior) :
    ∃ m', readCalibration (writeCalibration fmt true priors).2 m = .ok (true, m') ∧
      (∀ x ∈ priors, m'.get x.1 = some (storedCamera rnd x.2)) ∧
      (∀ n, n ∉ priors.map (·.1) → m'.get n = m.get n) := by
  obtain ⟨num, hn⟩ := hf.nums
  cases priors with
  | nil => exact absurd rfl hne
  | cons x l =>
    refine ⟨_, ?_, foldl_get rnd (x :: l) hd m⟩
    rw [writeCalibration_eq]
    simp only [readCalibration, upToLast_fileText]
    exact fromJson_fileText hn x l hp m

example : ∃ m', readCalibration (writeCalibration CalibrationExample.scientific true
      [(chars! "a.jpg", CalibrationExample.camera), (chars! "b.jpg", emptyPrior)]).2 AMap.empty = .ok (true, m') ∧
    m'.get (chars! "a.jpg") = some (storedCamera CalibrationExample.rounded CalibrationExample.camera) := by
  obtain ⟨m', h1, h2, -⟩ := C82_round_trip_partial CalibrationExample.prints
    (priors := [(chars! "a.jpg", CalibrationExample.camera), (chars! "b.jpg", emptyPrior)]) (by simp) (by decide) (by
      intro x hx
      simp only [List.mem_cons, List.not_mem_nil, or_false] at hx
      rcases hx with rfl | rfl
      · exact ⟨(by decide : PlainText (chars! "a.jpg")), CalibrationExample.camera_writable⟩
      · exact ⟨(by decide : PlainText (chars! "b.jpg")), CalibrationExample.empty_writable _⟩) AMap.empty
  exact ⟨m', h1, h2 _ List.mem_cons_self⟩

/-- **C82 (accuracy).** If numbers are printed with six significant digits, every value that is read back differs from the one
that was written by at most five millionths of it, and the flags are exact. -/
theorem C82_accuracy {rnd : ℚ → ℚ} (hr : SixDigits rnd) {N : Nat} (p : Prior N) :
    (storedPrior rnd p).isSet = p.isSet ∧
    (p.isSet = true → ∀ i, |(storedPrior rnd p).value i - p.value i| ≤ |p.value i| * (5 / 10 ^ 6)) := by
  refine ⟨rfl, fun h i => ?_⟩
  simp only [storedPrior, h, if_true]
  exact (hr _).2

example : |(storedPrior CalibrationExample.rounded CalibrationExample.camera.focalLength).value 0 - 1000| ≤ 5 / 1000 := by
  have h := (C82_accuracy CalibrationExample.sixDigits CalibrationExample.camera.focalLength).2 rfl 0
  have e : CalibrationExample.camera.focalLength.value 0 = 1000 := rfl
  rw [e] at h
  norm_num at h ⊢
  exact h

/-! ### Reading -/

/-- **C82 (reading).** Reading any file never removes an image from the container, and changes nothing if it reports a
failure. -/
theorem C82_read {file : Option (List Char)} {m m' : AMap (List Char) CameraPrior} {b : Bool}
    (h : readCalibration file m = .ok (b, m')) :
    (b = false → m' = m) ∧ ∀ n, (m.get n).isSome → (m'.get n).isSome := by
  unfold readCalibration at h
  split at h
  · cases h; exact ⟨fun _ => rfl, fun _ h => h⟩
  · split at h
    · cases h; exact ⟨fun _ => rfl, fun _ h => h⟩
    · unfold fromJson at h
      split at h
      · split at h
        · obtain ⟨m1, h1, h2⟩ := Outcome.bind_eq_ok.1 h
          cases h2
          exact ⟨fun h => (by cases h), readAll_keeps h1⟩
        · cases h; exact ⟨fun _ => rfl, fun _ h => h⟩
      · cases h

example : readCalibration (some (chars! "{\"cameras\" : []}")) AMap.empty = .ok (false, AMap.empty) := by decide +kernel

/-! ### What goes wrong -/

/-- The name of an image is written without escapes: the file for an image `a\n` is read as one for an image with a line break
in its name, and the file for an image with a quote in its name is not a JSON file, on which reading is not defined. -/
theorem C82_name_counterexample :
    (∃ m, readCalibration (writeCalibration CalibrationExample.scientific true [(['a', '\\', 'n'], emptyPrior)]).2 AMap.empty =
        .ok (true, m) ∧ m.get ['a', '\\', 'n'] = none ∧ m.get ['a', '\n'] = some emptyPrior) ∧
    readCalibration (writeCalibration CalibrationExample.scientific true [(['a', '"'], emptyPrior)]).2 AMap.empty = .ub := by
  have e : ∀ name, writeCalibration CalibrationExample.scientific true [(name, emptyPrior)] =
      writeCalibration (fun _ => []) true [(name, emptyPrior)] := fun _ => rfl
  rw [e, e]
  exact ⟨⟨⟨[(['a', '\n'], emptyPrior)]⟩, by decide +kernel, by decide +kernel, by decide +kernel⟩, by decide +kernel⟩

/-- More than six digits are needed. -/
theorem sevenDecimals {k e : Int} (hk : |k| ≤ 10 ^ 6) (h : (k : ℚ) * (10 : ℚ) ^ e = 40.4461234) : False := by
  have hk' := abs_le.1 hk
  rcases le_or_gt 0 (e + 7) with he | he
  · obtain ⟨n, hn⟩ := Int.eq_ofNat_of_zero_le he
    have h1 : (k : ℚ) * (10 : ℚ) ^ n = 404461234 := by
      have : (10 : ℚ) ^ e = (10 : ℚ) ^ n / 10 ^ 7 := by
        rw [show e = (n : Int) - 7 by omega, zpow_sub₀ (by norm_num)]
        norm_num
      rw [this] at h
      field_simp at h
      norm_num at h ⊢
      linarith
    have h2 : k * (10 : Int) ^ n = 404461234 := by exact_mod_cast h1
    cases n with
    | zero => norm_num at h2; omega
    | succ n =>
      rw [pow_succ] at h2
      have : k * (10 ^ n * 10) = 10 * (k * 10 ^ n) := by ring
      omega
  · obtain ⟨n, hn⟩ := Int.eq_ofNat_of_zero_le (show 0 ≤ -(e + 7) by omega)
    have h1 : (k : ℚ) = 404461234 * (10 : ℚ) ^ n := by
      have : (10 : ℚ) ^ e = 1 / ((10 : ℚ) ^ n * 10 ^ 7) := by
        rw [show e = -(n : Int) - 7 by omega, zpow_sub₀ (by norm_num), zpow_neg]
        norm_num
        ring
      rw [this] at h
      field_simp at h
      norm_num at h
      linarith
    have h2 : k = 404461234 * (10 : Int) ^ n := by exact_mod_cast h1
    have h3 : (1 : Int) ≤ 10 ^ n := one_le_pow₀ (by norm_num)
    have : (10 : Int) ^ 6 = 1000000 := by norm_num
    omega

/-- With the precision of an output stream, six significant digits, a latitude with seven decimals is not read back: the error
is several metres on the ground. -/
theorem C82_precision_counterexample {fmt : ℚ → List Char} {rnd : ℚ → ℚ} (hf : Prints fmt rnd) (hr : SixDigits rnd) :
    ∃ m q, readCalibration (writeCalibration fmt true [(chars! "a.jpg", { emptyPrior with
        latitude := ⟨true, fun _ => 40.4461234⟩ })]).2 AMap.empty = .ok (true, m) ∧ m.get (chars! "a.jpg") = some q ∧
      q.latitude.value 0 ≠ 40.4461234 := by
  obtain ⟨m, h1, h2, -⟩ := C82_round_trip_partial hf (priors := [(chars! "a.jpg", { emptyPrior with
        latitude := ⟨true, fun _ => 40.4461234⟩ })]) (by simp) (by decide) (by
      intro x hx
      rw [List.mem_singleton.1 hx]
      exact ⟨(by decide : PlainText (chars! "a.jpg")), ⟨(by decide : -(2 ^ 31) ≤ (0 : Int) ∧ (0 : Int) < 2 ^ 31),
        (by decide : -(2 ^ 31) ≤ (0 : Int) ∧ (0 : Int) < 2 ^ 31),
        (List.mem_cons_self : chars! "PINHOLE" ∈ _), fun h => (by cases h)⟩⟩) AMap.empty
  refine ⟨m, _, h1, h2 _ List.mem_cons_self, ?_⟩
  simp only [storedCamera, storedPrior, if_true]
  intro he
  obtain ⟨⟨k, e, hk, hke⟩, -⟩ := hr 40.4461234
  rw [hke] at he
  exact sevenDecimals hk he

/-- A file that is not JSON, or not a JSON object, is not reported: reading it is not defined. A focal length that is not a number is not defined
either. -/
theorem C82_malformed_counterexample :
    readCalibration (some (chars! "{\"priors\" : [}")) AMap.empty = .ub ∧
    readCalibration (some (chars! "[{}]}")) AMap.empty = .ub ∧
    readCalibration (some (chars! "{\"priors\" : [{\"CameraIntrinsicsPrior\" : {\"image_name\" : \"a\", \"focal_length\" : \"5\"}}]}")) AMap.empty
      = .ub := by
  refine ⟨?_, ?_, ?_⟩ <;> decide +kernel

/-- A type of camera that is not known ends the program, although other bad entries are skipped. -/
theorem C82_type_counterexample :
    readCalibration (some (chars! "{\"priors\" : [{\"CameraIntrinsicsPrior\" : {\"image_name\" : \"a\", \"camera_intrinsics_type\" : \"pinhole\"}}]}"))
      AMap.empty = .abort := by decide +kernel

/-- A principal point with one coordinate is taken as set, and the image gets a height of zero. -/
theorem C82_short_counterexample :
    ∃ m q, readCalibration (some (chars! "{\"priors\" : [{\"CameraIntrinsicsPrior\" : {\"image_name\" : \"a\", \"principal_point\" : [320]}}]}"))
      AMap.empty = .ok (true, m) ∧ m.get ['a'] = some q ∧ q.principalPoint.isSet = true ∧
      q.principalPoint.value 1 = 0 ∧ q.width = 640 ∧ q.height = 0 := by
  have h : (match readCalibration (some (chars! "{\"priors\" : [{\"CameraIntrinsicsPrior\" : {\"image_name\" : \"a\", \"principal_point\" : [320]}}]}"))
      AMap.empty with
    | .ok (b, m) => (m.get ['a']).map fun (q : CameraPrior) =>
      (b, q.principalPoint.isSet, q.principalPoint.value 1, q.width, q.height)
    | .abort => none
    | .ub => none) = some (true, true, 0, 640, 0) := by decide +kernel
  generalize readCalibration _ _ = o at h ⊢
  cases o with
  | abort => cases h
  | ub => cases h
  | ok r =>
    obtain ⟨b, m⟩ := r
    simp only at h
    cases hq : m.get ['a'] with
    | none => rw [hq] at h; cases h
    | some q =>
      rw [hq] at h
      simp only [Option.map_some, Option.some.injEq, Prod.mk.injEq] at h
      obtain ⟨rfl, h1, h2, h3, h4⟩ := h
      exact ⟨m, q, rfl, hq, h1, h2, h3, h4⟩

end Theia
