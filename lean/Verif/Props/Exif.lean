import Verif.Proof.Exif

/-!
# C93: reading EXIF data
-/

namespace Theia

open Spec CameraPriors Exif

variable {K : Type} [Field K] [LinearOrder K] [IsStrictOrderedRing K]

/-- C93, size and principal point: for every image the size is that of the image and the principal point its centre. -/
theorem C93_size (junk : K) (db : AMap (List Char) K) (im : Image K) (p : IntrinsicsPrior K) :
    (extract junk db im p).2.width = im.width ∧ (extract junk db im p).2.height = im.height ∧
    (extract junk db im p).2.principal.isSet = true ∧
    2 * (extract junk db im p).2.principal.value.1 = im.width ∧
    2 * (extract junk db im p).2.principal.value.2 = im.height := by
  obtain ⟨h1, h2, h3⟩ := extract_eq junk db im p
  have key : ∀ q r : IntrinsicsPrior K, r = setAltitude im (setLongitude im (setLatitude im q)) →
      r.width = q.width ∧ r.height = q.height ∧ r.principal = q.principal := by
    rintro q r rfl
    obtain ⟨a1, a2, -, a4, -⟩ := setAltitude_other im (setLongitude im (setLatitude im q))
    obtain ⟨b1, b2, -, b4, -⟩ := setLongitude_other im (setLatitude im q)
    obtain ⟨c1, c2, -, c4, -⟩ := setLatitude_other im q
    exact ⟨by rw [a1, b1, c1], by rw [a2, b2, c2], by rw [a4, b4, c4]⟩
  have fin : ∀ q r : IntrinsicsPrior K, r.width = q.width ∧ r.height = q.height ∧ r.principal = q.principal →
      q.width = im.width → q.height = im.height → q.principal = ⟨true, ((im.width : K) / 2, (im.height : K) / 2)⟩ →
      r.width = im.width ∧ r.height = im.height ∧ r.principal.isSet = true ∧ 2 * r.principal.value.1 = im.width ∧
        2 * r.principal.value.2 = im.height := by
    rintro q r ⟨e1, e2, e3⟩ g1 g2 g3
    rw [e1, e2, e3, g1, g2, g3]
    exact ⟨rfl, rfl, rfl, by simp only; ring, by simp only; ring⟩
  rcases ha : fromExif junk im p.focal.value with ⟨b, f⟩
  cases b with
  | true =>
    obtain ⟨q, hq, he⟩ := h1 f ha
    rw [he]
    exact fin q _ (key q _ rfl) (by rw [hq]) (by rw [hq]) (by rw [hq])
  | false =>
    rcases hb : fromDatabase db im f with ⟨b', f'⟩
    cases b' with
    | true =>
      obtain ⟨q, hq, he⟩ := h2 f f' ha hb
      rw [he]
      exact fin q _ (key q _ rfl) (by rw [hq]) (by rw [hq]) (by rw [hq])
    | false =>
      rw [h3 f f' ha hb]
      exact fin _ _ ⟨rfl, rfl, rfl⟩ rfl rfl rfl

/-- C93, focal length: for a prior that has none, the focal length is set exactly if it follows from the resolution of the sensor
in the image, or from the width of the sensor that was found in the database; then it has that value, the resolution being
preferred. It is never set to something that is not a positive number. -/
theorem C93_focal (junk : K) (db : AMap (List Char) K) (im : Image K) (p : IntrinsicsPrior K) (hp : p.focal.isSet = false)
    (f : K) :
    ((extract junk db im p).2.focal.isSet = true ∧ (extract junk db im p).2.focal.value = f) ↔
      (PlaneFocal im f ∨ ((∀ g, ¬ PlaneFocal im g) ∧ SensorFocal im (sensorWidth db im) f)) := by
  obtain ⟨h1, h2, h3⟩ := extract_eq junk db im p
  have key : ∀ q : IntrinsicsPrior K, (setAltitude im (setLongitude im (setLatitude im q))).focal = q.focal := by
    intro q
    rw [(setAltitude_other im _).2.2.1, (setLongitude_other im _).2.2.1, (setLatitude_other im _).2.2.1]
  rcases ha : fromExif junk im p.focal.value with ⟨b, f'⟩
  cases b with
  | true =>
    obtain ⟨q, hq, he⟩ := h1 f' ha
    have hpf := (fromExif_iff junk im _ f').1 ha
    rw [he]
    simp only [key]
    rw [hq]
    simp only [true_and]
    constructor
    · rintro rfl; exact Or.inl hpf
    · rintro (h | h)
      · have := (fromExif_iff junk im p.focal.value f).2 h
        rw [ha] at this
        exact (Prod.ext_iff.1 this).2
      · exact absurd hpf (h.1 _)
  | false =>
    have hno := (fromExif_false junk im p.focal.value).1 (by rw [ha])
    rcases hb : fromDatabase db im f' with ⟨b', f''⟩
    cases b' with
    | true =>
      obtain ⟨q, hq, he⟩ := h2 f' f'' ha hb
      have hsf := (fromDatabase_iff db im _ f'').1 hb
      rw [he]
      simp only [key]
      rw [hq]
      simp only [true_and]
      constructor
      · rintro rfl; exact Or.inr ⟨hno, hsf⟩
      · rintro (h | h)
        · exact absurd h (hno _)
        · have := (fromDatabase_iff db im f' f).2 h.2
          rw [hb] at this
          exact (Prod.ext_iff.1 this).2
    | false =>
      have hnd := (fromDatabase_false db im f').1 (by rw [hb])
      rw [h3 f' f'' ha hb]
      simp only [hp]
      constructor
      · rintro ⟨h, -⟩; cases h
      · rintro (h | h)
        · exact absurd h (hno _)
        · exact absurd h.2 (hnd _)

/-- C93, what that means for square pixels: if the image is the original scaled by `s`, the focal length in pixels is the one in
millimetres times the pixels per millimetre times the scale. -/
theorem C93_focal_square (junk : K) (db : AMap (List Char) K) (im : Image K) (p : IntrinsicsPrior K)
    (hp : p.focal.isSet = false) (mm res u s : K) (unit px py : Int) (hmm : im.focal = some mm) (hm : 1 / 100 < mm)
    (hx : im.xRes = some res) (hy : im.yRes = some res) (hr : 0 < res) (hun : im.unit = some unit) (hu : ExifUnit unit u)
    (hpx : im.pixelX = some px) (hpy : im.pixelY = some py) (h1 : 0 < px) (h2 : 0 < py) (hs : 0 < s)
    (hw : (im.width : K) = s * px) (hh : (im.height : K) = s * py) :
    (extract junk db im p).2.focal.isSet = true ∧
    (extract junk db im p).2.focal.value = mm * (res / u) * s := by
  rw [C93_focal junk db im p hp]
  left
  have hup := exifUnit_pos hu
  have h1' : (0 : K) < px := by exact_mod_cast h1
  have h2' : (0 : K) < py := by exact_mod_cast h2
  have hm' : 0 < mm := lt_trans (by norm_num) hm
  have e0 := hr.ne'; have e1 := h1'.ne'; have e2 := h2'.ne'; have e3 := hup.ne'
  refine ⟨mm, res, res, u, px * u / res, py * u / res, unit, px, py, hmm, hm, hx, hr, hy, hr, hun, hu, hpx, hpy,
    by field_simp, by field_simp, by positivity, by positivity, ?_, by positivity⟩
  rw [hw, hh]
  field_simp
  ring

/-- C93, the sensor database: a good database is loaded, and the width found for a camera is the one of the entry named like its
maker and model, ignoring case, unless an entry is named exactly like the model alone; without such entries no width is found. -/
theorem C93_database (stod : List Char → Option K) (es : List (SensorEntry K)) (h : GoodDatabase stod es) :
    ∃ db, load stod (es.map SensorEntry.line) .empty = .ok db ∧
      ∀ im : Image K, PlainName im.make → PlainName im.model →
        (∀ e ∈ es, smallLetters e.name = im.model → sensorWidth db im = e.width) ∧
        ((∀ e ∈ es, smallLetters e.name ≠ im.model) →
          (∀ e ∈ es, smallLetters e.name = smallLetters (im.make ++ ' ' :: im.model) → sensorWidth db im = e.width) ∧
          ((∀ e ∈ es, smallLetters e.name ≠ smallLetters (im.make ++ ' ' :: im.model)) → sensorWidth db im = 0)) := by
  obtain ⟨db, hd, hget⟩ := load_spec stod es .empty h.fields h.number h.plain h.distinct (by simp)
  refine ⟨db, hd, fun im hmake hmodel => ?_⟩
  have hget' : ∀ k w, db.get k = some w ↔ ∃ e ∈ es, smallLetters e.name = k ∧ e.width = w := by
    intro k w; rw [hget]; simp
  have hnone : ∀ k, (∀ e ∈ es, smallLetters e.name ≠ k) → db.get k = none := by
    intro k hk
    cases hg : db.get k with
    | none => rfl
    | some w =>
      obtain ⟨e, he, hn, -⟩ := (hget' k w).1 hg
      exact absurd hn (hk e he)
  have hkey : lower im.make ++ ' ' :: lower im.model = smallLetters (im.make ++ ' ' :: im.model) := by
    rw [lower_plain hmake, lower_plain hmodel]
    simp [smallLetters]
  unfold sensorWidth
  rw [hkey]
  refine ⟨fun e he hn => ?_, fun hno => ⟨fun e he hn => ?_, fun hno2 => ?_⟩⟩
  · rw [(hget' im.model e.width).2 ⟨e, he, hn, rfl⟩]
  · rw [hnone _ hno, (hget' _ e.width).2 ⟨e, he, hn, rfl⟩]
  · rw [hnone _ hno, hnone _ hno2]

/-- C93, GPS, the part that holds: if a focal length was found, priors that are not set get the longitude, with its sign, and, for
images that are not south of the equator nor below the sea level, the latitude and the altitude. What happens otherwise is shown by
the counterexamples. -/
theorem C93_gps_partial (junk : K) (db : AMap (List Char) K) (im : Image K) (p : IntrinsicsPrior K)
    (hp : p.focal.isSet = false) (hlat : p.latitude.isSet = false) (hlon : p.longitude.isSet = false)
    (halt : p.altitude.isSet = false) (hf : (extract junk db im p).2.focal.isSet = true) :
    GpsPriorIs (extract junk db im p).2.longitude im.longitude (gpsAngle "W" im.longitudeRef) ∧
    (im.latitudeRef ≠ "S" → GpsPriorIs (extract junk db im p).2.latitude im.latitude (gpsAngle "S" im.latitudeRef)) ∧
    (im.altitudeRef ≠ 1 → GpsPriorIs (extract junk db im p).2.altitude im.altitude (gpsHeight im.altitudeRef)) := by
  obtain ⟨h1, h2, h3⟩ := extract_eq junk db im p
  have key : ∀ q : IntrinsicsPrior K, q.latitude.isSet = false → q.longitude.isSet = false → q.altitude.isSet = false →
      ∀ r, r = setAltitude im (setLongitude im (setLatitude im q)) →
      GpsPriorIs r.longitude im.longitude (gpsAngle "W" im.longitudeRef) ∧
      (im.latitudeRef ≠ "S" → GpsPriorIs r.latitude im.latitude (gpsAngle "S" im.latitudeRef)) ∧
      (im.altitudeRef ≠ 1 → GpsPriorIs r.altitude im.altitude (gpsHeight im.altitudeRef)) := by
    rintro q hq1 hq2 hq3 r rfl
    refine ⟨?_, fun hS => ?_, fun hA => ?_⟩
    · rw [(setAltitude_other im _).2.2.2.2.1]
      unfold setLongitude
      cases hc : im.longitude with
      | none =>
        simp only
        refine ⟨?_, fun a h => by cases h⟩
        rw [(setLatitude_other im q).2.2.2.2.2, hq2]; simp
      | some c =>
        simp only
        by_cases hW : im.longitudeRef = "W"
        · rw [if_pos hW]
          refine ⟨by simp, fun a h => ?_⟩
          cases h
          simp only [gpsAngle, if_pos hW, degrees]; ring
        · rw [if_neg hW]
          refine ⟨by simp, fun a h => ?_⟩
          cases h
          simp only [gpsAngle, if_neg hW, degrees]
    · rw [(setAltitude_other im _).2.2.2.2.2, (setLongitude_other im _).2.2.2.2.2]
      unfold setLatitude
      cases hc : im.latitude with
      | none => exact ⟨by simp [hq1], fun a h => by cases h⟩
      | some c =>
        simp only
        rw [if_neg hS]
        refine ⟨by simp, fun a h => ?_⟩
        cases h
        simp only [gpsAngle, if_neg hS, degrees]
    · unfold setAltitude
      cases hc : im.altitude with
      | none =>
        refine ⟨?_, fun a h => by cases h⟩
        simp only
        rw [(setLongitude_other im _).2.2.2.2.1, (setLatitude_other im q).2.2.2.2.1, hq3]; simp
      | some a =>
        refine ⟨by simp, fun b h => ?_⟩
        cases h
        simp only [gpsHeight, if_neg hA]
  rcases ha : fromExif junk im p.focal.value with ⟨b, f⟩
  cases b with
  | true =>
    obtain ⟨q, hq, he⟩ := h1 f ha
    rw [he]
    exact key q (by rw [hq]; exact hlat) (by rw [hq]; exact hlon) (by rw [hq]; exact halt) _ rfl
  | false =>
    rcases hb : fromDatabase db im f with ⟨b', f'⟩
    cases b' with
    | true =>
      obtain ⟨q, hq, he⟩ := h2 f f' ha hb
      rw [he]
      exact key q (by rw [hq]; exact hlat) (by rw [hq]; exact hlon) (by rw [hq]; exact halt) _ rfl
    | false =>
      rw [h3 f f' ha hb] at hf
      simp only [hp] at hf
      cases hf

/-! ## Examples -/

/-- An image of 400 x 300 pixels, scaled down by ten, from a sensor with 1000 pixels per centimetre. -/
def exifImage : Image ℚ where
  width := 400
  height := 300
  focal := some 5
  xRes := some 1000
  yRes := some 1000
  unit := some 3
  pixelX := some 4000
  pixelY := some 3000
  make := "Canon".toList
  model := "EOS 5D".toList
  latitude := some (47, 30, 36)
  latitudeRef := "N"
  longitude := some (8, 15, 0)
  longitudeRef := "W"
  altitude := some 400
  altitudeRef := 0

/-- The hypotheses of the theorems hold for this image: the focal length is 5 mm * 100 pixels/mm / 10. -/
example : (extract 0 .empty exifImage .default).2.focal = ⟨true, 50⟩ ∧
    (extract 0 .empty exifImage .default).2.latitude = ⟨true, 4751 / 100⟩ ∧
    (extract 0 .empty exifImage .default).2.longitude = ⟨true, -33 / 4⟩ ∧
    (extract 0 .empty exifImage .default).2.altitude = ⟨true, 400⟩ := by decide +kernel

example : (exifImage.width : ℚ) = 1 / 10 * (4000 : Int) ∧ (exifImage.height : ℚ) = 1 / 10 * (3000 : Int) := by
  constructor <;> norm_num [exifImage]

/-- A database with two cameras. -/
def exifDatabase : List (SensorEntry ℚ) :=
  [⟨"Canon".toList, "Canon EOS 5D".toList, "36".toList, 36⟩, ⟨"Acer".toList, "Acer CE-5330".toList, "6".toList, 6⟩]

/-- A conversion that reads the numbers of this database. -/
def exifStod (s : List Char) : Option ℚ := if s = "36".toList then some 36 else if s = "6".toList then some 6 else none

/-- It is good, and the names of the camera are plain. -/
example : GoodDatabase exifStod exifDatabase ∧ PlainName exifImage.make ∧ PlainName exifImage.model := by
  refine ⟨⟨by decide +kernel, by decide +kernel, ?_, by decide +kernel⟩, ?_, ?_⟩
  · intro e he
    simp only [exifDatabase, List.mem_cons, List.not_mem_nil, or_false] at he
    rcases he with rfl | rfl <;> exact ⟨fun c hc => by cases hc; decide, fun c hc => by cases hc; decide⟩
  · exact ⟨fun c hc => by cases hc; decide, fun c hc => by cases hc; decide⟩
  · exact ⟨fun c hc => by cases hc; decide, fun c hc => by cases hc; decide⟩

/-- The focal length from the database: 400 pixels * 5 mm / 36 mm. -/
example : (load exifStod (exifDatabase.map SensorEntry.line) .empty).bind (fun db =>
    .ok (extract 0 db { exifImage with xRes := none } .default).2.focal) = .ok ⟨true, 500 / 9⟩ := by decide +kernel

/-! ## What does not hold -/

/-- C93: an image taken south of the equator gets a positive latitude. The code changes the sign of the longitude instead, and a
longitude that was read is then overwritten. -/
theorem C93_south_counterexample :
    (extract 0 .empty { exifImage with latitudeRef := "S" } .default).2.latitude = ⟨true, 4751 / 100⟩ ∧
    gpsAngle "S" "S" ((47, 30, 36) : ℚ × ℚ × ℚ) = -(4751 / 100) := by decide +kernel

/-- C93: an image taken below the sea level gets a positive altitude; the reference is not read. -/
theorem C93_altitude_counterexample :
    (extract 0 .empty { exifImage with altitudeRef := 1 } .default).2.altitude = ⟨true, 400⟩ ∧
    gpsHeight 1 (400 : ℚ) = -400 := by decide +kernel

/-- C93: without a focal length the GPS position is not read although the image has one. -/
theorem C93_gps_without_focal_counterexample :
    (extract 0 .empty { exifImage with focal := none } .default).2.latitude.isSet = false ∧
    (extract 0 .empty { exifImage with focal := none } .default).2.longitude.isSet = false ∧
    (extract 0 .empty { exifImage with focal := none } .default).2.altitude.isSet = false := by decide +kernel

/-- C93: a camera whose model in the image contains the maker, as in the database, is not found there: the model alone is compared
without changing it to small letters, and the maker is put in front of it a second time. -/
theorem C93_model_with_make_counterexample :
    (load exifStod (exifDatabase.map SensorEntry.line) .empty).bind (fun db =>
      .ok (extract 0 db { exifImage with xRes := none, model := "Canon EOS 5D".toList } .default).2.focal.isSet) =
      .ok false := by decide +kernel

/-- C93: the documentation promises `false` for a file that cannot be opened, but the result is `true`, with an image of no pixels
and a principal point that counts as known. -/
theorem C93_unreadable_counterexample :
    (extract 0 .empty (Image.unreadable ℚ) .default).1 = true ∧
    (extract 0 .empty (Image.unreadable ℚ) .default).2.width = 0 ∧
    (extract 0 .empty (Image.unreadable ℚ) .default).2.principal = ⟨true, (0, 0)⟩ := by decide +kernel

end Theia
