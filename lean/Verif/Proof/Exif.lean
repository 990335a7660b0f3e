import Verif.Spec.Exif
import Mathlib.Tactic.Linarith
import Mathlib.Tactic.FieldSimp
import Mathlib.Tactic.Ring
import Mathlib.Tactic.NormNum
import Mathlib.Data.List.Nodup

/-! # Lemmas on the EXIF reader -/

namespace Theia
namespace Exif

open Spec CameraPriors

theorem toLower_ne {c d : Char} (hd : d.toNat < 97) (h : c ≠ d) : c.toLower ≠ d := by
  unfold Char.toLower
  split
  · rename_i hc
    intro e
    have e2 := congrArg Char.toNat e
    simp only [Char.toNat] at e2 hd
    have h1 : (65 : UInt32) ≤ c.val := hc.1
    have h2 : c.val ≤ (90 : UInt32) := hc.2
    have h1' : 65 ≤ c.val.toNat := by simpa [UInt32.le_iff_toNat_le] using h1
    have h2' : c.val.toNat ≤ 90 := by simpa [UInt32.le_iff_toNat_le] using h2
    rw [← e2, UInt32.toNat_add] at hd
    have h3 : ('a'.val - 'A'.val).toNat = 32 := by decide
    rw [h3] at hd
    omega
  · exact h

theorem dropWhile_of_head {p : Char → Bool} {s : List Char} (h : ∀ c, s.head? = some c → p c = false) :
    s.dropWhile p = s := by
  cases s with
  | nil => rfl
  | cons c s => rw [List.dropWhile_cons, h c rfl]; rfl

theorem trim_plain {s : List Char} (h : PlainName s) : trim s = s := by
  unfold trim
  have h1 : s.dropWhile isBlank = s := dropWhile_of_head fun c hc => by simp [isBlank, h.1 c hc]
  have h2 : s.reverse.dropWhile isBlank = s.reverse := dropWhile_of_head fun c hc => by
    rw [List.head?_reverse] at hc
    have := h.2 c hc
    simp [isBlank, this.1, this.2.1]
  rw [h1, h2, List.reverse_reverse]

theorem lower_plain {s : List Char} (h : PlainName s) : lower s = smallLetters s := by
  unfold lower
  simp only [trim_plain h]
  rw [← List.map_reverse]
  cases hr : s.reverse with
  | nil => rfl
  | cons c rest =>
    simp only [List.map_cons]
    have hl : s.getLast? = some c := by rw [← List.head?_reverse, hr]; rfl
    have := h.2 c hl
    rw [if_neg]
    · rfl
    · simp only [Bool.or_eq_true, decide_eq_true_eq, not_or]
      exact ⟨toLower_ne (by decide) this.2.2.1, toLower_ne (by decide) this.2.2.2⟩

theorem splitAux_plain {d : Char} {s : List Char} (h : d ∉ s) (cur : List Char) (rest : List Char) :
    splitAux d cur (s ++ d :: rest) = (cur.reverse ++ s) :: splitAux d [] rest := by
  induction s generalizing cur with
  | nil => rw [List.nil_append, splitAux, if_pos rfl, List.append_nil]
  | cons c s ih =>
    rw [List.mem_cons, not_or] at h
    rw [List.cons_append, splitAux, if_neg (fun e => h.1 e.symm), ih h.2]
    simp

theorem splitAux_last {d : Char} {s : List Char} (h : d ∉ s) (cur : List Char) (hne : cur.length + s.length ≠ 0) :
    splitAux d cur s = [cur.reverse ++ s] := by
  induction s generalizing cur with
  | nil => rw [splitAux, if_neg (by simpa using hne), List.append_nil]
  | cons c s ih =>
    rw [List.mem_cons, not_or] at h
    rw [splitAux, if_neg (fun e => h.1 e.symm), ih h.2 _ (by simp)]
    simp

variable {K : Type}

theorem split_line (e : SensorEntry K) (h : ';' ∉ e.make ∧ ';' ∉ e.name ∧ ';' ∉ e.text ∧ e.text ≠ []) :
    split ';' e.line = [e.make, e.name, e.text] := by
  unfold split SensorEntry.line
  rw [splitAux_plain h.1, splitAux_plain h.2.1, splitAux_last h.2.2.1 _ (by
    have := List.length_pos_iff.2 h.2.2.2
    simp only [List.length_nil]; omega)]
  simp

/-- Loading adds exactly the entries. -/
theorem load_spec (stod : List Char → Option K) (es : List (SensorEntry K)) (db : AMap (List Char) K)
    (h1 : ∀ e ∈ es, ';' ∉ e.make ∧ ';' ∉ e.name ∧ ';' ∉ e.text ∧ e.text ≠ [])
    (h2 : ∀ e ∈ es, stod e.text = some e.width) (h3 : ∀ e ∈ es, PlainName e.name)
    (h4 : (es.map fun e => smallLetters e.name).Nodup) (h5 : ∀ e ∈ es, smallLetters e.name ∉ db.keys) :
    ∃ db', load stod (es.map SensorEntry.line) db = .ok db' ∧
      ∀ k w, db'.get k = some w ↔ (∃ e ∈ es, smallLetters e.name = k ∧ e.width = w) ∨ db.get k = some w := by
  induction es generalizing db with
  | nil => exact ⟨db, rfl, by simp⟩
  | cons e es ih =>
    simp only [List.map_cons, List.nodup_cons, List.mem_map, not_exists, not_and] at h4
    have hl : e.line.length ≠ 0 := by simp [SensorEntry.line]
    have hline : loadLine stod e.line db = .ok (db.insert (smallLetters e.name) e.width) := by
      unfold loadLine
      rw [split_line e (h1 e (by simp))]
      simp only [h2 e (by simp), lower_plain (h3 e (by simp))]
      rw [if_neg]
      rw [AMap.contains_iff]
      exact h5 e (by simp)
    obtain ⟨db', hd, hget⟩ := ih (db.insert (smallLetters e.name) e.width)
      (fun x hx => h1 x (by simp [hx])) (fun x hx => h2 x (by simp [hx])) (fun x hx => h3 x (by simp [hx])) h4.2 (by
        intro x hx hk
        rw [AMap.mem_keys_insert] at hk
        rcases hk with hk | hk
        · exact h4.1 x hx hk
        · exact h5 x (by simp [hx]) hk)
    refine ⟨db', ?_, fun k w => ?_⟩
    · rw [List.map_cons, load, if_neg hl, hline, Outcome.ok_bind, hd]
    · rw [hget, AMap.get_insert]
      constructor
      · rintro (⟨x, hx, e1, e2⟩ | h)
        · exact Or.inl ⟨x, by simp [hx], e1, e2⟩
        · by_cases hk : k = smallLetters e.name
          · rw [if_pos hk] at h
            exact Or.inl ⟨e, by simp, hk.symm, by simpa using h⟩
          · rw [if_neg hk] at h
            exact Or.inr h
      · rintro (⟨x, hx, e1, e2⟩ | h)
        · rcases List.mem_cons.1 hx with rfl | hx
          · right; rw [if_pos e1.symm, e2]
          · exact Or.inl ⟨x, hx, e1, e2⟩
        · right
          rw [if_neg]
          · exact h
          · rintro rfl
            exact h5 e (by simp) (AMap.mem_keys_iff.2 ⟨w, h⟩)

variable [Field K] [LinearOrder K] [IsStrictOrderedRing K]

theorem resolutionUnits_iff (unit : Int) (u : K) : resolutionUnits unit = some u ↔ ExifUnit unit u := by
  unfold resolutionUnits
  constructor
  · intro h
    split at h
    · rename_i e; cases h; subst e; exact .inch
    split at h
    · rename_i e; cases h; subst e; exact .centimetre
    split at h
    · rename_i e; cases h; subst e; exact .millimetre
    split at h
    · rename_i e; cases h; subst e; exact .micrometre
    cases h
  · rintro (_ | _ | _ | _) <;> norm_num

theorem exifUnit_pos {unit : Int} {u : K} (h : ExifUnit unit u) : 0 < u := by
  cases h <;> norm_num

/-- `SetFocalLengthFromExif` succeeds exactly with the focal length that follows from the sensor's resolution. -/
theorem fromExif_iff (junk : K) (im : Image K) (old f : K) :
    fromExif junk im old = (true, f) ↔ PlaneFocal im f := by
  unfold fromExif
  simp only
  constructor
  · intro h
    by_cases hb : im.focal.getD (1 / 100) ≤ 1 / 100 ∨ im.xRes.getD 0 ≤ 0 ∨ im.yRes.getD 0 ≤ 0
    · rw [if_pos hb] at h; simp at h
    rw [if_neg hb] at h
    push Not at hb
    obtain ⟨hf, hx, hy⟩ := hb
    cases hmm : im.focal with
    | none => rw [hmm] at hf; simp at hf
    | some mm =>
    cases hxr : im.xRes with
    | none => rw [hxr] at hx; simp at hx
    | some xr =>
    cases hyr : im.yRes with
    | none => rw [hyr] at hy; simp at hy
    | some yr =>
    rw [hmm] at hf; rw [hxr] at hx; rw [hyr] at hy
    simp only [hmm, hxr, hyr, Option.getD_some] at h hf hx hy
    cases hun : im.unit with
    | none => rw [hun] at h; simp [resolutionUnits] at h
    | some unit =>
    rw [hun, Option.getD_some] at h
    cases hu : (resolutionUnits unit : Option K) with
    | none => rw [hu] at h; simp at h
    | some u =>
    rw [hu] at h
    have hU := (resolutionUnits_iff unit u).1 hu
    have hup := exifUnit_pos hU
    simp only [Prod.mk.injEq] at h
    obtain ⟨hv, hval⟩ := h
    cases hp : planeFocal im mm xr yr u with
    | none => rw [hp] at hv; simp [isValid] at hv
    | some f' =>
    rw [hp] at hv hval
    simp only [Option.getD_some] at hval
    subst hval
    have hfp : 0 < f' := by simpa [isValid] using hv
    have hxu : xr / u ≠ 0 := (div_pos hx hup).ne'
    have hyu : yr / u ≠ 0 := (div_pos hy hup).ne'
    unfold planeFocal div at hp
    rw [if_neg hxu, if_neg hyu] at hp
    simp only [Option.bind_eq_bind, Option.bind_some] at hp
    by_cases hw : ((im.pixelX.getD 0 : Int) : K) / (xr / u) = 0
    · rw [if_pos hw] at hp; simp at hp
    by_cases hh : ((im.pixelY.getD 0 : Int) : K) / (yr / u) = 0
    · rw [if_neg hw, if_pos hh] at hp; simp at hp
    rw [if_neg hw, if_neg hh] at hp
    simp only [Option.bind_some, Option.some.injEq] at hp
    cases hpx : im.pixelX with
    | none => rw [hpx] at hw; simp at hw
    | some px =>
    cases hpy : im.pixelY with
    | none => rw [hpy] at hh; simp at hh
    | some py =>
    rw [hpx, hpy] at hp; rw [hpx] at hw; rw [hpy] at hh
    simp only [Option.getD_some] at hp hw hh
    refine ⟨mm, xr, yr, u, px / (xr / u), py / (yr / u), unit, px, py, hmm, hf, hxr, hx, hyr, hy, hun, hU, hpx, hpy,
      ?_, ?_, hw, hh, ?_, hfp⟩
    · have := hx.ne'; have := hup.ne'; field_simp
    · have := hy.ne'; have := hup.ne'; field_simp
    · rw [← hp]; ring
  · rintro ⟨mm, xr, yr, u, sw, sh, unit, px, py, hmm, hf, hxr, hx, hyr, hy, hun, hU, hpx, hpy, hsw, hsh, hw, hh, h2, hfp⟩
    have hup := exifUnit_pos hU
    have ew : (px : K) / (xr / u) = sw := by
      rw [div_div_eq_mul_div, ← hsw]
      exact mul_div_cancel_right₀ _ hx.ne'
    have eh : (py : K) / (yr / u) = sh := by
      rw [div_div_eq_mul_div, ← hsh]
      exact mul_div_cancel_right₀ _ hy.ne'
    simp only [hmm, hxr, hyr, hun, Option.getD_some]
    rw [if_neg (by push Not; exact ⟨hf, hx, hy⟩), (resolutionUnits_iff unit u).2 hU]
    have hp : planeFocal im mm xr yr u = some f := by
      unfold planeFocal div
      rw [if_neg (div_pos hx hup).ne', if_neg (div_pos hy hup).ne']
      simp only [Option.bind_eq_bind, Option.bind_some, hpx, hpy, Option.getD_some, ew, eh]
      rw [if_neg hw, if_neg hh]
      simp only [Option.bind_some, Option.some.injEq]
      rw [← h2]; ring
    simp only [hp, isValid, Option.getD_some, Prod.mk.injEq, decide_eq_true_eq, and_true]
    exact hfp

/-- When it fails there is no such focal length. -/
theorem fromExif_false (junk : K) (im : Image K) (old : K) :
    (fromExif junk im old).1 = false ↔ ∀ f, ¬ PlaneFocal im f := by
  constructor
  · intro h f hf
    rw [← fromExif_iff junk im old] at hf
    rw [hf] at h; cases h
  · intro h
    cases hb : (fromExif junk im old).1 with
    | false => rfl
    | true => exact absurd ((fromExif_iff junk im old _).1 (Prod.ext hb rfl)) (h _)

/-- `SetFocalLengthFromSensorDatabase` succeeds exactly with the focal length for the sensor width that was found. -/
theorem fromDatabase_iff (db : AMap (List Char) K) (im : Image K) (old f : K) :
    fromDatabase db im old = (true, f) ↔ SensorFocal im (sensorWidth db im) f := by
  unfold fromDatabase SensorFocal
  simp only
  by_cases hw : sensorWidth db im = 0
  · rw [if_pos hw]; simp [hw]
  rw [if_neg hw]
  simp only [isValid, Prod.mk.injEq, decide_eq_true_eq, Int.cast_max]
  constructor
  · rintro ⟨h, rfl⟩
    cases hmm : im.focal with
    | none => rw [hmm] at h; simp at h
    | some mm =>
      rw [hmm, Option.getD_some] at h
      exact ⟨mm, rfl, hw, div_mul_cancel₀ _ hw, h⟩
  · rintro ⟨mm, hmm, -, he, hf⟩
    rw [hmm, Option.getD_some, ← he, mul_div_cancel_right₀ _ hw]
    exact ⟨hf, rfl⟩

theorem fromDatabase_false (db : AMap (List Char) K) (im : Image K) (old : K) :
    (fromDatabase db im old).1 = false ↔ ∀ f, ¬ SensorFocal im (sensorWidth db im) f := by
  constructor
  · intro h f hf
    rw [← fromDatabase_iff db im old] at hf
    rw [hf] at h; cases h
  · intro h
    cases hb : (fromDatabase db im old).1 with
    | false => rfl
    | true => exact absurd ((fromDatabase_iff db im old _).1 (Prod.ext hb rfl)) (h _)

omit [LinearOrder K] [IsStrictOrderedRing K] in
theorem setLatitude_other (im : Image K) (p : IntrinsicsPrior K) :
    (setLatitude im p).width = p.width ∧ (setLatitude im p).height = p.height ∧ (setLatitude im p).focal = p.focal ∧
    (setLatitude im p).principal = p.principal ∧ (setLatitude im p).altitude = p.altitude ∧
    (setLatitude im p).longitude.isSet = p.longitude.isSet := by
  unfold setLatitude
  cases im.latitude with
  | none => simp
  | some c => simp only; split <;> simp

omit [LinearOrder K] [IsStrictOrderedRing K] in
theorem setLongitude_other (im : Image K) (p : IntrinsicsPrior K) :
    (setLongitude im p).width = p.width ∧ (setLongitude im p).height = p.height ∧ (setLongitude im p).focal = p.focal ∧
    (setLongitude im p).principal = p.principal ∧ (setLongitude im p).altitude = p.altitude ∧
    (setLongitude im p).latitude = p.latitude := by
  unfold setLongitude
  cases im.longitude with
  | none => simp
  | some c => simp only; split <;> simp

omit [Field K] [LinearOrder K] [IsStrictOrderedRing K] in
theorem setAltitude_other (im : Image K) (p : IntrinsicsPrior K) :
    (setAltitude im p).width = p.width ∧ (setAltitude im p).height = p.height ∧ (setAltitude im p).focal = p.focal ∧
    (setAltitude im p).principal = p.principal ∧ (setAltitude im p).longitude = p.longitude ∧
    (setAltitude im p).latitude = p.latitude := by
  unfold setAltitude
  cases im.altitude <;> simp

omit [IsStrictOrderedRing K] in
/-- The result in terms of the two attempts. -/
theorem extract_eq (junk : K) (db : AMap (List Char) K) (im : Image K) (p : IntrinsicsPrior K) :
    (∀ f, fromExif junk im p.focal.value = (true, f) → ∃ q : IntrinsicsPrior K,
      q = { p with width := im.width, height := im.height, principal := ⟨true, ((im.width : K) / 2, (im.height : K) / 2)⟩, focal := ⟨true, f⟩ } ∧
      extract junk db im p = (true, setAltitude im (setLongitude im (setLatitude im q)))) ∧
    (∀ old f, (fromExif junk im p.focal.value) = (false, old) → fromDatabase db im old = (true, f) → ∃ q : IntrinsicsPrior K,
      q = { p with width := im.width, height := im.height, principal := ⟨true, ((im.width : K) / 2, (im.height : K) / 2)⟩, focal := ⟨true, f⟩ } ∧
      extract junk db im p = (true, setAltitude im (setLongitude im (setLatitude im q)))) ∧
    (∀ old old', (fromExif junk im p.focal.value) = (false, old) → fromDatabase db im old = (false, old') →
      extract junk db im p = (true, { p with width := im.width, height := im.height, principal := ⟨true, ((im.width : K) / 2, (im.height : K) / 2)⟩, focal := ⟨p.focal.isSet, old'⟩ })) := by
  refine ⟨fun f h => ⟨_, rfl, ?_⟩, fun old f h h' => ⟨_, rfl, ?_⟩, fun old old' h h' => ?_⟩
  · unfold extract; simp only [h, if_true]
  · unfold extract; simp only [h, h', Bool.false_eq_true, if_false, if_true]
  · unfold extract; simp only [h, h', Bool.false_eq_true, if_false]

end Exif
end Theia
