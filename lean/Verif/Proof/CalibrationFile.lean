import Mathlib.Tactic.FinCases
import Verif.Proof.Calibration

/-!
# Proofs about calibration files
-/

namespace Theia
namespace Calibration

open Json Spec

theorem rows_append (sep : Char) (a b : List (List Char)) : rows sep (a ++ b) = rows sep a ++ rows sep b := by
  simp [rows]

section

variable (fmt : ℚ → List Char) (num : ℚ → Num)

/-- The member for an attribute with one value. -/
def scalarMember (name : List Char) (p : Prior 1) : List (List Char × List Char × Value) :=
  if p.isSet then [(name, fmt (p.value 0), .num (num (p.value 0)))] else []

/-- The member for an attribute with several values. -/
def vectorMember (name : List Char) (s : Bool) (v : ℚ) (vs : List ℚ) : List (List Char × List Char × Value) :=
  if s then [(name, '[' :: (fmt v ++ (rows ' ' (vs.map fmt) ++ [']'])),
    .arr (.num (num v) :: vs.map fun x => .num (num x)))] else []

/-- The members after the name. -/
def tailMembers (p : CameraPrior) : List (List Char × List Char × Value) :=
  [(chars! "width", intText p.width, .num (classify (decide (p.width < 0)) p.width.natAbs false p.width)),
   (chars! "height", intText p.height, .num (classify (decide (p.height < 0)) p.height.natAbs false p.height)),
   (chars! "camera_intrinsics_type", '"' :: (p.modelType ++ ['"']), .str p.modelType)] ++
  (scalarMember fmt num (chars! "focal_length") p.focalLength ++
  (vectorMember fmt num (chars! "principal_point") p.principalPoint.isSet (p.principalPoint.value 0)
    [p.principalPoint.value 1] ++
  (scalarMember fmt num (chars! "aspect_ratio") p.aspectRatio ++
  (scalarMember fmt num (chars! "skew") p.skew ++
  (vectorMember fmt num (chars! "radial_distortion_coeffs") p.radialDistortion.isSet (p.radialDistortion.value 0)
    [p.radialDistortion.value 1, p.radialDistortion.value 2, p.radialDistortion.value 3] ++
  (vectorMember fmt num (chars! "tangential_distortion_coeffs") p.tangentialDistortion.isSet
    (p.tangentialDistortion.value 0) [p.tangentialDistortion.value 1] ++
  (vectorMember fmt num (chars! "position") p.position.isSet (p.position.value 0)
    [p.position.value 1, p.position.value 2] ++
  (vectorMember fmt num (chars! "orientation") p.orientation.isSet (p.orientation.value 0)
    [p.orientation.value 1, p.orientation.value 2] ++
  (scalarMember fmt num (chars! "latitude") p.latitude ++
  (scalarMember fmt num (chars! "longitude") p.longitude ++
  scalarMember fmt num (chars! "altitude") p.altitude))))))))))

def nameMember (name : List Char) : List Char × List Char × Value :=
  (chars! "image_name", '"' :: (name ++ ['"']), .str name)

theorem writeScalar_eq (name : List Char) (p : Prior 1) :
    writeScalar fmt name p = rows '\n' ((scalarMember fmt num name p).map memberText) := by
  unfold writeScalar scalarMember
  split <;> simp [rows, memberText]

theorem write2_eq (name : List Char) (p : Prior 2) :
    write2 fmt name p = rows '\n' ((vectorMember fmt num name p.isSet (p.value 0) [p.value 1]).map memberText) := by
  unfold write2 vectorMember
  split <;> simp [rows, memberText]

theorem write3_eq (name : List Char) (p : Prior 3) :
    write3 fmt name p = rows '\n' ((vectorMember fmt num name p.isSet (p.value 0) [p.value 1, p.value 2]).map memberText) := by
  unfold write3 vectorMember
  split <;> simp [rows, memberText]

theorem write4_eq (name : List Char) (p : Prior 4) :
    write4 fmt name p =
      rows '\n' ((vectorMember fmt num name p.isSet (p.value 0) [p.value 1, p.value 2, p.value 3]).map memberText) := by
  unfold write4 vectorMember
  split <;> simp [rows, memberText]

/-- The text of the object with the attributes. -/
def innerText (name : List Char) (p : CameraPrior) : List Char :=
  '{' :: (['\n'] ++ (memberText (nameMember name) ++ (rows '\n' ((tailMembers fmt num p).map memberText) ++ ['\n', '}'])))

/-- The value it is read as. -/
def innerMembers (name : List Char) (p : CameraPrior) : List (List Char × Value) :=
  ((nameMember name).1, (nameMember name).2.2) :: (tailMembers fmt num p).map fun x => (x.1, x.2.2)

theorem writePrior_eq (name : List Char) (p : CameraPrior) :
    writePrior fmt name p =
      '{' :: (memberText (chars! "CameraIntrinsicsPrior", innerText fmt num name p, .obj (innerMembers fmt num name p)) ++ ['}']) := by
  unfold writePrior innerText tailMembers
  rw [writeScalar_eq fmt num, writeScalar_eq fmt num, writeScalar_eq fmt num, writeScalar_eq fmt num, writeScalar_eq fmt num,
    writeScalar_eq fmt num, write2_eq fmt num, write2_eq fmt num, write3_eq fmt num, write3_eq fmt num, write4_eq fmt num]
  simp only [List.map_append, rows_append]
  simp [rows, memberText, nameMember]

end

section

variable {fmt : ℚ → List Char} {rnd : ℚ → ℚ} {num : ℚ → Num}

/-- How numbers are printed and read. -/
structure Nums (fmt : ℚ → List Char) (rnd : ℚ → ℚ) (num : ℚ → Num) : Prop where
  value : ∀ v, (num v).value = rnd v
  kind : ∀ v, (num v).isInt = true ∨ (num v).isDouble = true
  reads : ∀ v, Reads (fmt v) (.num (num v))
  nonzero : ∀ v, ∀ c ∈ fmt v, c.toNat ≠ 0

theorem _root_.Theia.Spec.Prints.nums (h : Prints fmt rnd) : ∃ num, Nums fmt rnd num := by
  choose num h1 h2 h3 h4 using h
  exact ⟨num, h1, h2, fun v => reads_number (h4 v), h3⟩

theorem reads_vector (hn : Nums fmt rnd num) (v : ℚ) (vs : List ℚ) :
    Reads ('[' :: (fmt v ++ (rows ' ' (vs.map fmt) ++ [']']))) (.arr (.num (num v) :: vs.map fun x => .num (num x))) := by
  have h := reads_array ' ' (Or.inl rfl) false false (hn.reads v) (vs.map fun x => (fmt x, Value.num (num x))) (by
    intro x hx
    obtain ⟨y, -, rfl⟩ := List.mem_map.1 hx
    exact hn.reads y)
  simp only [Bool.false_eq_true, if_false, List.nil_append, List.map_map, Function.comp_def] at h
  exact h.reads

theorem scalarMember_ok (hn : Nums fmt rnd num) {name : List Char} (hp : PlainText name) (p : Prior 1) :
    ∀ x ∈ scalarMember fmt num name p, PlainText x.1 ∧ Reads x.2.1 x.2.2 := by
  intro x hx
  unfold scalarMember at hx
  split at hx
  · rw [List.mem_singleton.1 hx]; exact ⟨hp, hn.reads _⟩
  · cases hx

theorem vectorMember_ok (hn : Nums fmt rnd num) {name : List Char} (hp : PlainText name) (s : Bool) (v : ℚ) (vs : List ℚ) :
    ∀ x ∈ vectorMember fmt num name s v vs, PlainText x.1 ∧ Reads x.2.1 x.2.2 := by
  intro x hx
  unfold vectorMember at hx
  split at hx
  · rw [List.mem_singleton.1 hx]; exact ⟨hp, reads_vector hn v vs⟩
  · cases hx

instance (s : List Char) : Decidable (PlainText s) := by unfold PlainText; infer_instance

theorem reads_int (n : Int) : Reads (intText n) (.num (classify (decide (n < 0)) n.natAbs false n)) :=
  reads_number fun _ rest hc => number_intText n hc rest

theorem type_plain {s : List Char} (h : s ∈ [chars! "PINHOLE", chars! "PINHOLE_RADIAL_TANGENTIAL", chars! "FISHEYE", chars! "FOV",
    chars! "DIVISION_UNDISTORTION"]) : PlainText s ∧ validType s = true := by
  revert s
  decide

theorem tailMembers_ok (hn : Nums fmt rnd num) {p : CameraPrior} (hp : WritablePrior rnd p) :
    ∀ x ∈ tailMembers fmt num p, PlainText x.1 ∧ Reads x.2.1 x.2.2 := by
  unfold tailMembers
  simp only [List.forall_mem_append]
  refine ⟨?_, scalarMember_ok hn (by decide) _, vectorMember_ok hn (by decide) _ _ _, scalarMember_ok hn (by decide) _,
    scalarMember_ok hn (by decide) _, vectorMember_ok hn (by decide) _ _ _, vectorMember_ok hn (by decide) _ _ _,
    vectorMember_ok hn (by decide) _ _ _, vectorMember_ok hn (by decide) _ _ _, scalarMember_ok hn (by decide) _,
    scalarMember_ok hn (by decide) _, scalarMember_ok hn (by decide) _⟩
  intro x hx
  simp only [List.mem_cons, List.not_mem_nil, or_false] at hx
  rcases hx with rfl | rfl | rfl
  · exact ⟨(by decide : PlainText (chars! "width")), reads_int _⟩
  · exact ⟨(by decide : PlainText (chars! "height")), reads_int _⟩
  · exact ⟨(by decide : PlainText (chars! "camera_intrinsics_type")), (reads_string (type_plain hp.modelType).1).reads⟩

theorem writePrior_reads (hn : Nums fmt rnd num) {name : List Char} (hname : PlainText name) {p : CameraPrior}
    (hp : WritablePrior rnd p) :
    ReadsAlways (writePrior fmt name p) (.obj [(chars! "CameraIntrinsicsPrior", .obj (innerMembers fmt num name p))]) := by
  rw [writePrior_eq fmt num]
  refine reads_wrapped (by decide) ?_ ?_
  · exact reads_object true (nameMember name) (by decide : PlainText (chars! "image_name")) (reads_string hname).reads _
      (tailMembers_ok hn hp)
  · intro rest
    unfold innerText
    rw [List.cons_append, skip_solid (by decide)]

/-! ### Looking up members -/

theorem lookup_append (k : List Char) (a b : List (List Char × Value)) :
    lookup k (a ++ b) = (lookup k a).or (lookup k b) := by
  induction a with
  | nil => simp [lookup]
  | cons x a ih =>
    obtain ⟨k', v⟩ := x
    rw [List.cons_append, lookup, lookup]
    split
    · rfl
    · exact ih

/-- Members as pairs. -/
def pairs (ms : List (List Char × List Char × Value)) : List (List Char × Value) := ms.map fun x => (x.1, x.2.2)

theorem lookup_scalar (k name : List Char) (p : Prior 1) :
    lookup k (pairs (scalarMember fmt num name p)) =
      if name = k then (if p.isSet then some (.num (num (p.value 0))) else none) else none := by
  unfold scalarMember pairs
  by_cases h : p.isSet <;> by_cases h' : name = k <;> simp [h, h', lookup]

theorem lookup_vector (k name : List Char) (s : Bool) (v : ℚ) (vs : List ℚ) :
    lookup k (pairs (vectorMember fmt num name s v vs)) =
      if name = k then (if s then some (.arr (.num (num v) :: vs.map fun x => .num (num x))) else none) else none := by
  unfold vectorMember pairs
  by_cases h : s <;> by_cases h' : name = k <;> simp [h, h', lookup]

theorem asDouble_num (hn : Nums fmt rnd num) (v : ℚ) : asDouble (.num (num v)) = some (rnd v) := by
  simp only [asDouble]
  rw [if_pos (by rcases hn.kind v with h | h <;> simp [h]), hn.value]

theorem readScalar_of (hn : Nums fmt rnd num) {ms : List (List Char × Value)} {name : List Char} {p : Prior 1}
    (h : lookup name ms = if p.isSet then some (.num (num (p.value 0))) else none) : readScalar ms name = storedPrior rnd p := by
  unfold readScalar storedPrior
  rw [h]
  cases hp : p.isSet with
  | true =>
    simp only [if_true, Option.bind_some, asDouble_num hn]
    congr 1
    funext i
    rw [Subsingleton.elim i 0]
  | false => rfl

theorem readFocal_of (hn : Nums fmt rnd num) {ms : List (List Char × Value)} {p : Prior 1}
    (h : lookup (chars! "focal_length") ms = if p.isSet then some (.num (num (p.value 0))) else none) :
    readFocal ms = .ok (storedPrior rnd p) := by
  unfold readFocal storedPrior
  rw [h]
  cases hp : p.isSet with
  | true =>
    simp only [if_true, hn.value]
    congr 2
    funext i
    rw [Subsingleton.elim i 0]
  | false => rfl

theorem readVector_of (hn : Nums fmt rnd num) {N : Nat} {ms : List (List Char × Value)} {name : List Char} {p : Prior N}
    {vs : List ℚ} (hvs : vs ≠ []) (hv : ∀ i : Fin N, vs[i.1]? = some (p.value i))
    (h : lookup name ms = if p.isSet then some (.arr (vs.map fun x => .num (num x))) else none) :
    readVector N ms name = storedPrior rnd p := by
  unfold readVector storedPrior
  rw [h]
  cases hp : p.isSet with
  | true =>
    simp only [if_true]
    congr 1
    · have h1 : (vs.map fun x => Value.num (num x)).isEmpty = false := by
        cases vs with
        | nil => exact absurd rfl hvs
        | cons a l => rfl
      have h2 : ((vs.map fun x => Value.num (num x)).take N).all (fun v => (asDouble v).isSome) = true := by
        rw [List.all_eq_true]
        intro v hv
        obtain ⟨x, -, rfl⟩ := List.mem_map.1 (List.mem_of_mem_take hv)
        rw [asDouble_num hn]
        rfl
      rw [h1, h2]
      rfl
    · funext i
      rw [List.getElem?_map, hv i]
      simp only [Option.map_some, Option.bind_some, asDouble_num hn]
  | false => rfl

theorem readSize_int {ms : List (List Char × Value)} {name : List Char} {n old : Int} (h1 : -(2 ^ 31) ≤ n) (h2 : n < 2 ^ 31)
    (h : lookup name ms = some (.num (classify (decide (n < 0)) n.natAbs false n))) : readSize ms name old = n := by
  unfold readSize
  rw [h]
  have hi : (classify (decide (n < 0)) n.natAbs false (n : ℚ)).isInt = true := by
    unfold classify
    simp only [Bool.false_eq_true, if_false]
    split
    · next hm => simp only [decide_eq_true_eq] at hm ⊢; omega
    · next hm => simp only [decide_eq_true_eq] at hm ⊢; omega
  have hv : (classify (decide (n < 0)) n.natAbs false (n : ℚ)).value = (n : ℚ) := by
    unfold classify
    simp only [Bool.false_eq_true, if_false]
    split <;> rfl
  simp only
  rw [if_pos hi, hv, Int.floor_intCast]

theorem sizeFromPoint_ok {p : Prior 2} (h : p.isSet = true → ∀ i, |2 * p.value i| < 2 ^ 31) :
    ∃ wh, sizeFromPoint p = .ok wh := by
  unfold sizeFromPoint
  cases hp : p.isSet with
  | false => exact ⟨_, rfl⟩
  | true =>
    have hc : ∀ i, ∃ n, castInt (2 * p.value i) = .ok n := by
      intro i
      have := abs_lt.1 (h hp i)
      unfold castInt
      rw [if_pos ⟨by linarith, this.2⟩]
      exact ⟨_, rfl⟩
    obtain ⟨w, hw⟩ := hc 0
    obtain ⟨hh, hh'⟩ := hc 1
    exact ⟨(w, hh), by simp [hw, hh']⟩

theorem readParameters_ok (hn : Nums fmt rnd num) (name : List Char) {p : CameraPrior} (hp : WritablePrior rnd p) :
    readParameters (innerMembers fmt num name p) = .ok (storedCamera rnd p) := by
  have hms : innerMembers fmt num name p = (chars! "image_name", Value.str name) :: pairs (tailMembers fmt num p) := rfl
  have hL : ∀ k, lookup k (innerMembers fmt num name p) = lookup k
      ((chars! "image_name", Value.str name) :: pairs (tailMembers fmt num p)) := fun _ => by rw [hms]
  generalize innerMembers fmt num name p = ms at hL
  unfold tailMembers at hL
  have hpairs : ∀ a b, pairs (a ++ b) = pairs a ++ pairs b := fun a b => by simp [pairs]
  simp only [hpairs, lookup, lookup_append, lookup_scalar, lookup_vector] at hL
  have e1 := hL (chars! "focal_length")
  have e2 := hL (chars! "principal_point")
  have e3 := hL (chars! "aspect_ratio")
  have e4 := hL (chars! "skew")
  have e5 := hL (chars! "radial_distortion_coeffs")
  have e6 := hL (chars! "tangential_distortion_coeffs")
  have e7 := hL (chars! "position")
  have e8 := hL (chars! "orientation")
  have e9 := hL (chars! "latitude")
  have e10 := hL (chars! "longitude")
  have e11 := hL (chars! "altitude")
  have e12 := hL (chars! "width")
  have e13 := hL (chars! "height")
  have e14 := hL (chars! "camera_intrinsics_type")
  clear hL hms
  simp [pairs, lookup] at e1 e2 e3 e4 e5 e6 e7 e8 e9 e10 e11 e12 e13 e14
  obtain ⟨wh, hwh⟩ := sizeFromPoint_ok (p := storedPrior rnd p.principalPoint) (by
    intro h i
    have h' : p.principalPoint.isSet = true := h
    simp only [storedPrior, h', if_true]
    exact hp.point h' i)
  have v2 : readVector 2 ms (chars! "principal_point") = storedPrior rnd p.principalPoint :=
    readVector_of hn (vs := [p.principalPoint.value 0, p.principalPoint.value 1]) (by simp)
      (fun i => by fin_cases i <;> rfl) e2
  have v5 : readVector 4 ms (chars! "radial_distortion_coeffs") = storedPrior rnd p.radialDistortion :=
    readVector_of hn (vs := [p.radialDistortion.value 0, p.radialDistortion.value 1, p.radialDistortion.value 2,
      p.radialDistortion.value 3]) (by simp) (fun i => by fin_cases i <;> rfl) e5
  have v6 : readVector 2 ms (chars! "tangential_distortion_coeffs") = storedPrior rnd p.tangentialDistortion :=
    readVector_of hn (vs := [p.tangentialDistortion.value 0, p.tangentialDistortion.value 1]) (by simp)
      (fun i => by fin_cases i <;> rfl) e6
  have v7 : readVector 3 ms (chars! "position") = storedPrior rnd p.position :=
    readVector_of hn (vs := [p.position.value 0, p.position.value 1, p.position.value 2]) (by simp)
      (fun i => by fin_cases i <;> rfl) e7
  have v8 : readVector 3 ms (chars! "orientation") = storedPrior rnd p.orientation :=
    readVector_of hn (vs := [p.orientation.value 0, p.orientation.value 1, p.orientation.value 2]) (by simp)
      (fun i => by fin_cases i <;> rfl) e8
  have v14 : readType ms = p.modelType := by
    unfold readType
    rw [e14]
    simp only
    rw [if_pos (type_plain hp.modelType).2]
  unfold readParameters
  rw [readFocal_of hn e1, v2]
  simp only [Outcome.ok_bind, hwh]
  rw [v5, v6, v7, v8, v14, readScalar_of hn e3, readScalar_of hn e4, readScalar_of hn e9, readScalar_of hn e10,
    readScalar_of hn e11, readSize_int hp.width.1 hp.width.2 e12, readSize_int hp.height.1 hp.height.2 e13]
  rfl

theorem readOne_ok (hn : Nums fmt rnd num) (name : List Char) {p : CameraPrior} (hp : WritablePrior rnd p)
    (m : AMap (List Char) CameraPrior) :
    readOne (.obj [(chars! "CameraIntrinsicsPrior", .obj (innerMembers fmt num name p))]) m =
      .ok (m.insert name (storedCamera rnd p)) := by
  have h1 : lookup (chars! "image_name") (innerMembers fmt num name p) = some (.str name) := rfl
  have h2 : lookup (chars! "camera_intrinsics_type") (innerMembers fmt num name p) = some (.str p.modelType) := rfl
  have h3 : checkType (innerMembers fmt num name p) = .ok () := by
    unfold checkType
    rw [h2]
    simp only
    rw [if_pos (type_plain hp.modelType).2]
  have h4 : readEntry (.obj (innerMembers fmt num name p)) = .ok (some (name, storedCamera rnd p)) := by
    unfold readEntry
    simp only [h1, h3, readParameters_ok hn name hp, Outcome.ok_bind]
  simp [readOne, lookup, h4]

/-- The entries of a file. -/
def entryValue (fmt : ℚ → List Char) (num : ℚ → Num) (x : List Char × CameraPrior) : Value :=
  .obj [(chars! "CameraIntrinsicsPrior", .obj (innerMembers fmt num x.1 x.2))]

theorem readAll_ok (hn : Nums fmt rnd num) (l : List (List Char × CameraPrior)) (hl : ∀ x ∈ l, WritablePrior rnd x.2) :
    ∀ m, readAll (l.map (entryValue fmt num)) m = .ok (l.foldl (fun m x => m.insert x.1 (storedCamera rnd x.2)) m) := by
  induction l with
  | nil => intro m; rfl
  | cons x l ih =>
    intro m
    rw [List.map_cons, readAll, entryValue, readOne_ok hn x.1 (hl x List.mem_cons_self), Outcome.ok_bind,
      ih (fun y hy => hl y (List.mem_cons_of_mem _ hy))]
    rfl

theorem writeRest_eq (fmt : ℚ → List Char) (l : List (List Char × CameraPrior)) :
    writeRest fmt l = rows '\n' (l.map fun x => writePrior fmt x.1 x.2) := by
  induction l with
  | nil => rfl
  | cons x l ih =>
    obtain ⟨n, p⟩ := x
    rw [writeRest, ih]
    simp [rows]

/-- The text of a file up to the last curly bracket. -/
def fileText (fmt : ℚ → List Char) (x : List Char × CameraPrior) (l : List (List Char × CameraPrior)) : List Char :=
  '{' :: (['\n'] ++ (memberText (chars! "priors", '[' :: (['\n'] ++ (writePrior fmt x.1 x.2 ++
    (rows '\n' (l.map fun x => writePrior fmt x.1 x.2) ++ (['\n'] ++ [']'])))), Value.null) ++ ['\n', '}']))

theorem writeCalibration_eq (fmt : ℚ → List Char) (x : List Char × CameraPrior) (l : List (List Char × CameraPrior)) :
    writeCalibration fmt true (x :: l) = (true, some (fileText fmt x l ++ ['\n'])) := by
  obtain ⟨n, p⟩ := x
  simp only [writeCalibration, if_true, writeRest_eq, fileText, memberText]
  simp

theorem upToLast_fileText (fmt : ℚ → List Char) (x : List Char × CameraPrior) (l : List (List Char × CameraPrior)) :
    upToLast (fileText fmt x l ++ ['\n']) = some (fileText fmt x l) := by
  have h : ∃ t, fileText fmt x l = t ++ ['}'] := ⟨_, by
    unfold fileText
    rw [show ∀ a : List Char, a ++ ['\n', '}'] = (a ++ ['\n']) ++ ['}'] from fun a => by simp, ← List.append_assoc,
      ← List.cons_append]⟩
  obtain ⟨t, ht⟩ := h
  rw [ht]
  unfold upToLast
  have : ((t ++ ['}'] ++ ['\n']).reverse.dropWhile fun c => decide (c ≠ '}')).reverse = t ++ ['}'] := by
    simp [List.dropWhile]
  rw [this]
  cases t <;> rfl

theorem fileText_reads (hn : Nums fmt rnd num) (x : List Char × CameraPrior) (l : List (List Char × CameraPrior))
    (hl : ∀ y ∈ x :: l, PlainText y.1 ∧ WritablePrior rnd y.2) :
    ReadsAlways (fileText fmt x l) (.obj [(chars! "priors", .arr ((x :: l).map (entryValue fmt num)))]) := by
  have hx := hl x List.mem_cons_self
  have harr := reads_array '\n' (Or.inr rfl) true true (writePrior_reads hn hx.1 hx.2).reads
    (l.map fun y => (writePrior fmt y.1 y.2, entryValue fmt num y)) (by
      intro z hz
      obtain ⟨y, hy, rfl⟩ := List.mem_map.1 hz
      have := hl y (List.mem_cons_of_mem _ hy)
      exact (writePrior_reads hn this.1 this.2).reads)
  simp only [List.map_map, Function.comp_def, if_true] at harr
  have hobj := reads_object true (chars! "priors", _, _) (by decide : PlainText (chars! "priors")) harr.reads [] (by simp)
  exact hobj

theorem natText_nonzero (n : Nat) : ∀ c ∈ natText n, c.toNat ≠ 0 := by
  intro c hc
  by_cases h : n = 0
  · subst h
    rw [List.mem_singleton.1 (show c ∈ ['0'] from hc)]
    decide
  · rw [natText_eq h] at hc
    obtain ⟨d, hd, rfl⟩ := List.mem_map.1 hc
    rw [digitChar_toNat (textDigits_lt hd)]
    omega

theorem intText_nonzero (n : Int) : ∀ c ∈ intText n, c.toNat ≠ 0 := by
  intro c hc
  cases n with
  | ofNat n => exact natText_nonzero n c hc
  | negSucc n =>
    rcases List.mem_cons.1 hc with rfl | hc
    · decide
    · exact natText_nonzero _ c hc

theorem writePrior_nonzero (hn : Nums fmt rnd num) {name : List Char} (hname : PlainText name) {p : CameraPrior}
    (hp : WritablePrior rnd p) : ∀ c ∈ writePrior fmt name p, c.toNat ≠ 0 := by
  have hs : ∀ s, PlainText s → ∀ c ∈ s, c.toNat ≠ 0 := fun s h c hc => by have := (h c hc).2.2; omega
  have h0 : ∀ c ∈ ([] : List Char), c.toNat ≠ 0 := by simp
  have w1 : ∀ key : List Char, (∀ c ∈ key, c.toNat ≠ 0) → ∀ q, ∀ c ∈ writeScalar fmt key q, c.toNat ≠ 0 := by
    intro key hk q
    unfold writeScalar
    split
    · simp only [List.forall_mem_append]
      exact ⟨⟨⟨⟨by decide, by decide⟩, hk⟩, by decide⟩, hn.nonzero _⟩
    · exact h0
  have w2 : ∀ key : List Char, (∀ c ∈ key, c.toNat ≠ 0) → ∀ q, ∀ c ∈ write2 fmt key q, c.toNat ≠ 0 := by
    intro key hk q
    unfold write2
    split
    · simp only [List.forall_mem_append]
      exact ⟨⟨⟨⟨⟨⟨⟨by decide, by decide⟩, hk⟩, by decide⟩, hn.nonzero _⟩, by decide⟩, hn.nonzero _⟩, by decide⟩
    · exact h0
  have w3 : ∀ key : List Char, (∀ c ∈ key, c.toNat ≠ 0) → ∀ q, ∀ c ∈ write3 fmt key q, c.toNat ≠ 0 := by
    intro key hk q
    unfold write3
    split
    · simp only [List.forall_mem_append]
      exact ⟨⟨⟨⟨⟨⟨⟨⟨⟨by decide, by decide⟩, hk⟩, by decide⟩, hn.nonzero _⟩, by decide⟩, hn.nonzero _⟩, by decide⟩,
        hn.nonzero _⟩, by decide⟩
    · exact h0
  have w4 : ∀ key : List Char, (∀ c ∈ key, c.toNat ≠ 0) → ∀ q, ∀ c ∈ write4 fmt key q, c.toNat ≠ 0 := by
    intro key hk q
    unfold write4
    split
    · simp only [List.forall_mem_append]
      exact ⟨⟨⟨⟨⟨⟨⟨⟨⟨⟨⟨by decide, by decide⟩, hk⟩, by decide⟩, hn.nonzero _⟩, by decide⟩, hn.nonzero _⟩, by decide⟩,
        hn.nonzero _⟩, by decide⟩, hn.nonzero _⟩, by decide⟩
    · exact h0
  unfold writePrior
  simp only [List.forall_mem_append]
  repeat' apply And.intro
  all_goals first
    | decide
    | exact hs _ hname
    | exact hs _ (type_plain hp.modelType).1
    | exact intText_nonzero _
    | exact w1 _ (by decide) _
    | exact w2 _ (by decide) _
    | exact w3 _ (by decide) _
    | exact w4 _ (by decide) _

theorem fileText_nonzero (hn : Nums fmt rnd num) (x : List Char × CameraPrior) (l : List (List Char × CameraPrior))
    (hl : ∀ y ∈ x :: l, PlainText y.1 ∧ WritablePrior rnd y.2) : ∀ c ∈ fileText fmt x l, c.toNat ≠ 0 := by
  have hrows : ∀ l : List (List Char × CameraPrior), (∀ y ∈ l, PlainText y.1 ∧ WritablePrior rnd y.2) →
      ∀ c ∈ rows '\n' (l.map fun y => writePrior fmt y.1 y.2), c.toNat ≠ 0 := by
    intro l hl c hc
    unfold rows at hc
    simp only [List.map_map, List.mem_flatten, List.mem_map, Function.comp_def] at hc
    obtain ⟨t, ⟨y, hy, rfl⟩, hc⟩ := hc
    rcases List.mem_cons.1 hc with rfl | hc
    · decide
    · rcases List.mem_cons.1 hc with rfl | hc
      · decide
      · exact writePrior_nonzero hn (hl y hy).1 (hl y hy).2 c hc
  have hx := hl x List.mem_cons_self
  have h1 := writePrior_nonzero hn hx.1 hx.2
  have h2 := hrows l (fun y hy => hl y (List.mem_cons_of_mem _ hy))
  unfold fileText memberText
  simp only [List.forall_mem_append, List.forall_mem_cons]
  refine ⟨by decide, ⟨by decide, by simp⟩, ⟨by decide, by decide, by decide, by decide, by decide, by decide, by decide,
    ⟨by decide, by simp⟩, h1, h2, ⟨by decide, by simp⟩, by decide, by simp⟩, by decide, by decide, by simp⟩

theorem takeWhile_all {α : Type} {q : α → Bool} {l : List α} (h : ∀ x ∈ l, q x = true) : l.takeWhile q = l := by
  induction l with
  | nil => rfl
  | cons x l ih =>
    rw [List.takeWhile_cons, if_pos (h x List.mem_cons_self), ih fun y hy => h y (List.mem_cons_of_mem _ hy)]

theorem fromJson_fileText (hn : Nums fmt rnd num) (x : List Char × CameraPrior) (l : List (List Char × CameraPrior))
    (hl : ∀ y ∈ x :: l, PlainText y.1 ∧ WritablePrior rnd y.2) (m : AMap (List Char) CameraPrior) :
    fromJson (fileText fmt x l) m =
      .ok (true, (x :: l).foldl (fun m x => m.insert x.1 (storedCamera rnd x.2)) m) := by
  have hp : parse (fileText fmt x l) = .obj [(chars! "priors", .arr ((x :: l).map (entryValue fmt num)))] := by
    unfold parse
    have htake : (fileText fmt x l).takeWhile (fun c => decide (c.toNat ≠ 0)) = fileText fmt x l := by
      exact takeWhile_all fun c hc => decide_eq_true (fileText_nonzero hn x l hl c hc)
    have hskip : skip (fileText fmt x l) = fileText fmt x l := by
      unfold fileText
      exact skip_solid (by decide) _
    have hv := fileText_reads hn x l hl ((fileText fmt x l).length + 1) [] (by omega)
    rw [List.append_nil] at hv
    rw [htake, hskip, hv]
    rfl
  unfold fromJson
  rw [hp]
  simp only [lookup, if_true]
  rw [readAll_ok hn (x :: l) (fun y hy => (hl y hy).2)]
  rfl

theorem foldl_get (rnd : ℚ → ℚ) (l : List (List Char × CameraPrior)) (hd : (l.map (·.1)).Nodup) :
    ∀ (m : AMap (List Char) CameraPrior),
    (∀ x ∈ l, (l.foldl (fun m x => m.insert x.1 (storedCamera rnd x.2)) m).get x.1 = some (storedCamera rnd x.2)) ∧
    (∀ n, n ∉ l.map (·.1) → (l.foldl (fun m x => m.insert x.1 (storedCamera rnd x.2)) m).get n = m.get n) := by
  induction l with
  | nil => intro m; exact ⟨by simp, fun n _ => rfl⟩
  | cons x l ih =>
    intro m
    rw [List.map_cons, List.nodup_cons] at hd
    obtain ⟨i1, i2⟩ := ih hd.2 (m.insert x.1 (storedCamera rnd x.2))
    rw [List.foldl_cons]
    refine ⟨fun y hy => ?_, fun n hn => ?_⟩
    · rcases List.mem_cons.1 hy with rfl | hy
      · rw [i2 _ hd.1, AMap.get_insert_self]
      · exact i1 y hy
    · rw [List.map_cons, List.mem_cons, not_or] at hn
      rw [i2 n hn.2, AMap.get_insert_ne _ _ hn.1]

end

/-! ### What reading keeps -/

theorem readOne_keeps {v : Value} {m m' : AMap (List Char) CameraPrior} (h : readOne v m = .ok m') (n : List Char)
    (hn : (m.get n).isSome) : (m'.get n).isSome := by
  unfold readOne at h
  split at h
  · split at h
    · cases h; exact hn
    · obtain ⟨r, hr, h⟩ := Outcome.bind_eq_ok.1 h
      split at h
      · cases h; exact hn
      · cases h
        rw [AMap.get_insert]
        split
        · rfl
        · exact hn
  · cases h

theorem readAll_keeps {vs : List Value} : ∀ {m m' : AMap (List Char) CameraPrior}, readAll vs m = .ok m' →
    ∀ n, (m.get n).isSome → (m'.get n).isSome := by
  induction vs with
  | nil =>
    intro m m' h n hn
    cases h
    exact hn
  | cons v vs ih =>
    intro m m' h n hn
    rw [readAll] at h
    obtain ⟨m1, h1, h⟩ := Outcome.bind_eq_ok.1 h
    exact ih h n (readOne_keeps h1 n hn)

end Calibration
end Theia
