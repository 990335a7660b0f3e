import Verif.Model.FeatureFiles
import Mathlib.Tactic.Ring
import Mathlib.Tactic.Linarith
import Mathlib.Tactic.Positivity
import Mathlib.Tactic.FieldSimp
import Mathlib.Algebra.Order.Field.Power

/-! # Files of features: lemmas -/

namespace Theia.FeatureFile

/-! ## Bytes -/

@[simp] theorem length_leBytes : ∀ k n, (leBytes k n).length = k
  | 0, _ => rfl
  | k + 1, n => by simp [leBytes, length_leBytes k]

@[simp] theorem length_mem (m : Bool) (k n : Nat) : (mem m k n).length = k := by
  unfold mem; split <;> simp

theorem ofLe_leBytes : ∀ k n, ofLe (leBytes k n) = n % 256 ^ k
  | 0, n => by simp [leBytes, ofLe, Nat.mod_one]
  | k + 1, n => by
    simp only [leBytes, ofLe, ofLe_leBytes k]
    rw [pow_succ', Nat.mod_mul]

theorem leBytes_ofLe : ∀ bs : List Byte, leBytes bs.length (ofLe bs) = bs
  | [] => rfl
  | b :: bs => by
    have h := leBytes_ofLe bs
    simp only [List.length_cons, leBytes, ofLe]
    have hb := b.isLt
    congr 1
    · apply Fin.ext
      show (b.val + 256 * ofLe bs) % 256 = b.val
      omega
    · rw [show (b.val + 256 * ofLe bs) / 256 = ofLe bs by omega, h]

theorem unmem_mem (m : Bool) (k n : Nat) : unmem m (mem m k n) = n % 256 ^ k := by
  cases m <;> simp [unmem, mem, ofLe_leBytes]

/-- Swapping the bytes of a number of the other byte order gives it in this one. -/
theorem unmem_mem_swap (m₁ m₂ : Bool) (k n : Nat) :
    unmem m₂ (if decide (m₁ ≠ m₂) then (mem m₁ k n).reverse else mem m₁ k n) = n % 256 ^ k := by
  cases m₁ <;> cases m₂ <;> simp [unmem, mem, ofLe_leBytes]

theorem mem_unmem (m : Bool) (bs : List Byte) : mem m bs.length (unmem m bs) = bs := by
  cases m
  · simp only [mem, unmem, if_false, Bool.false_eq_true]
    have h := leBytes_ofLe bs.reverse
    rw [List.length_reverse] at h
    rw [h, List.reverse_reverse]
  · simp only [mem, unmem, if_true]
    exact leBytes_ofLe bs

/-! ## Loaders -/

theorem Loader.bind_ok {α β : Type} {l : Loader α} {f : α → Loader β} {bs rest : List Byte} {a : α}
    (h : l bs = .ok (a, rest)) : (l >>= f) bs = f a rest := by
  show Loader.bind l f bs = _
  unfold Loader.bind
  rw [h]

theorem Loader.pure_apply {α : Type} (a : α) (bs : List Byte) :
    (Pure.pure a : Loader α) bs = .ok (a, bs) := rfl

/-- A loader that throws when the stream ends too early, and otherwise does not look at what
follows. -/
def Monotone {α : Type} (l : Loader α) : Prop :=
  ∀ bs more, l bs = .abort ∨ (l bs = .ub ∧ l (bs ++ more) = .ub) ∨
    ∃ a rest, l bs = .ok (a, rest) ∧ l (bs ++ more) = .ok (a, rest ++ more)

theorem Monotone.pure {α : Type} (a : α) : Monotone (Pure.pure a : Loader α) := fun bs _ =>
  .inr (.inr ⟨a, bs, rfl, rfl⟩)

theorem Monotone.bind {α β : Type} {l : Loader α} {f : α → Loader β} (hl : Monotone l)
    (hf : ∀ a, Monotone (f a)) : Monotone (l >>= f) := by
  intro bs more
  rcases hl bs more with h | ⟨h, h'⟩ | ⟨a, rest, h, h'⟩
  · left
    show Loader.bind l f bs = _
    unfold Loader.bind
    rw [h]
  · right; left
    constructor
    · show Loader.bind l f bs = _
      unfold Loader.bind
      rw [h]
    · show Loader.bind l f _ = _
      unfold Loader.bind
      rw [h']
  · rw [Loader.bind_ok h, Loader.bind_ok h']
    exact hf a rest more

theorem Monotone.fail {α : Type} : Monotone (Loader.fail .ub : Loader α) := fun _ _ =>
  .inr (.inl ⟨rfl, rfl⟩)

theorem Monotone.many {α : Type} {l : Loader α} (h : Monotone l) :
    ∀ n, Monotone (loadMany l n)
  | 0 => Monotone.pure _
  | n + 1 => by
    rw [loadMany]
    exact h.bind fun a => (Monotone.many h n).bind fun as => Monotone.pure _

theorem monotone_loadBinary (c : Bool) (k n : Nat) : Monotone (loadBinary c k n) := by
  intro bs more
  unfold loadBinary
  by_cases h : bs.length < k * n
  · left; rw [if_pos h]
  · right; right
    refine ⟨_, _, if_neg h, ?_⟩
    rw [if_neg (by rw [List.length_append]; omega)]
    rw [List.take_append_of_le_length (by omega), List.drop_append_of_le_length (by omega)]

theorem monotone_loadWord (m c : Bool) (k : Nat) : Monotone (loadWord m c k) :=
  (monotone_loadBinary c k 1).bind fun _ => Monotone.pure _

theorem monotone_loadKeypoint (m c first : Bool) : Monotone (loadKeypoint m c first) := by
  have h := monotone_loadWord m c
  unfold loadKeypoint
  refine Monotone.bind ?_ fun _ => ?_
  · unfold loadVersion
    split
    · exact h 4
    · exact Monotone.pure _
  · exact (h 8).bind fun _ => (h 8).bind fun _ => (h 4).bind fun _ => (h 8).bind fun _ =>
      (h 8).bind fun _ => (h 8).bind fun _ => Monotone.pure _

theorem monotone_loadKeypoints (m c : Bool) : ∀ first n, Monotone (loadKeypoints m c first n)
  | _, 0 => Monotone.pure _
  | first, n + 1 => by
    rw [loadKeypoints]
    exact (monotone_loadKeypoint m c first).bind fun _ =>
      (monotone_loadKeypoints m c false n).bind fun _ => Monotone.pure _

theorem monotone_loadVector (m c : Bool) : Monotone (loadVector m c) := by
  have h := monotone_loadWord m c
  unfold loadVector
  refine (h 4).bind fun r => (h 4).bind fun cols => ?_
  split
  · exact Monotone.fail
  · exact (monotone_loadBinary c 4 r).bind fun _ => Monotone.pure _

theorem monotone_loadFeatures (m : Bool) : Monotone (loadFeatures m) := by
  unfold loadFeatures
  exact (monotone_loadWord m _ 1).bind fun _ => (monotone_loadWord m _ 8).bind fun _ =>
    (monotone_loadKeypoints m _ _ _).bind fun _ => (monotone_loadWord m _ 8).bind fun _ =>
      ((monotone_loadVector m _).many _).bind fun _ => Monotone.pure _

/-! ## The portable file -/

theorem loadWord_saveWord (m₁ m₂ : Bool) (k n : Nat) (hn : n < 256 ^ k) (rest : List Byte) :
    loadWord m₂ (decide (m₁ ≠ m₂)) k (saveWord m₁ k n ++ rest) = .ok (n, rest) := by
  unfold loadWord
  have hl : (saveWord m₁ k n).length = k := length_mem m₁ k n
  have h : loadBinary (decide (m₁ ≠ m₂)) k 1 (saveWord m₁ k n ++ rest) =
      .ok (if decide (m₁ ≠ m₂) then (mem m₁ k n).reverse else mem m₁ k n, rest) := by
    unfold loadBinary
    rw [if_neg (by rw [List.length_append, hl]; omega)]
    simp only [mul_one]
    rw [List.take_left' hl, List.drop_left' hl]
    congr 2
    cases decide (m₁ ≠ m₂)
    · rfl
    · simp only [if_true, swapGroups]
      rw [List.take_of_length_le (le_of_eq hl), List.drop_eq_nil_of_le (le_of_eq hl),
        List.append_nil]
      rfl
  rw [Loader.bind_ok h, Loader.pure_apply, unmem_mem_swap, Nat.mod_eq_of_lt hn]

theorem loadWord_saveWord_order (m₁ m₂ : Bool) (rest : List Byte) :
    loadWord m₂ false 1 (saveWord m₁ 1 (if m₁ then 1 else 0) ++ rest) =
      .ok (if m₁ then 1 else 0, rest) := by
  have h := loadWord_saveWord m₂ m₂ 1 (if m₁ then 1 else 0) (by split <;> decide) rest
  have hd : decide (m₂ ≠ m₂) = false := by simp
  rw [hd] at h
  have hs : saveWord m₁ 1 (if m₁ then 1 else 0) = saveWord m₂ 1 (if m₁ then 1 else 0) := by
    cases m₁ <;> cases m₂ <;> rfl
  rw [hs]
  exact h

theorem loadKeypoint_saveKeypoint (m₁ m₂ first : Bool) (k : Keypoint (BitVec 64))
    (rest : List Byte) :
    loadKeypoint m₂ (decide (m₁ ≠ m₂)) first (saveKeypoint m₁ first k ++ rest) =
      .ok (k, rest) := by
  have h8 : ∀ (v : BitVec 64) rest, loadWord m₂ (decide (m₁ ≠ m₂)) 8
      (saveWord m₁ 8 v.toNat ++ rest) = .ok (v.toNat, rest) := fun v rest =>
    loadWord_saveWord m₁ m₂ 8 v.toNat (by have := v.isLt; norm_num at this ⊢; exact this) rest
  have h4 : ∀ (v : BitVec 32) rest, loadWord m₂ (decide (m₁ ≠ m₂)) 4
      (saveWord m₁ 4 v.toNat ++ rest) = .ok (v.toNat, rest) := fun v rest =>
    loadWord_saveWord m₁ m₂ 4 v.toNat (by have := v.isLt; norm_num at this ⊢; exact this) rest
  have hv : ∀ rest, loadVersion m₂ (decide (m₁ ≠ m₂)) first
      ((if first then saveWord m₁ 4 0 else []) ++ rest) = .ok (0, rest) := by
    intro rest
    cases first
    · rfl
    · exact loadWord_saveWord m₁ m₂ 4 0 (by decide) rest
  unfold loadKeypoint saveKeypoint
  simp only [List.append_assoc]
  rw [Loader.bind_ok (hv _), Loader.bind_ok (h8 _ _), Loader.bind_ok (h8 _ _),
    Loader.bind_ok (h4 _ _), Loader.bind_ok (h8 _ _), Loader.bind_ok (h8 _ _),
    Loader.bind_ok (h8 _ _), Loader.pure_apply]
  simp

theorem loadKeypoints_saveKeypoints (m₁ m₂ : Bool) :
    ∀ first (ks : List (Keypoint (BitVec 64))) rest,
      loadKeypoints m₂ (decide (m₁ ≠ m₂)) first ks.length (saveKeypoints m₁ first ks ++ rest) =
        .ok (ks, rest)
  | _, [], rest => rfl
  | first, k :: ks, rest => by
    rw [saveKeypoints, List.length_cons, loadKeypoints, List.append_assoc,
      Loader.bind_ok (loadKeypoint_saveKeypoint m₁ m₂ first k _),
      Loader.bind_ok (loadKeypoints_saveKeypoints m₁ m₂ false ks rest), Loader.pure_apply]

theorem words_swapGroups (m₁ m₂ : Bool) : ∀ v : List (BitVec 32),
    words m₂ 4 v.length
      (if decide (m₁ ≠ m₂) then swapGroups 4 v.length (v.flatMap fun f => saveWord m₁ 4 f.toNat)
        else v.flatMap fun f => saveWord m₁ 4 f.toNat) = v.map BitVec.toNat
  | [] => rfl
  | f :: v => by
    have ih := words_swapGroups m₁ m₂ v
    have hl : (saveWord m₁ 4 f.toNat).length = 4 := length_mem _ _ _
    have hw := unmem_mem_swap m₁ m₂ 4 f.toNat
    rw [Nat.mod_eq_of_lt (by have := f.isLt; norm_num at this ⊢; exact this)] at hw
    rw [List.flatMap_cons, List.length_cons, List.map_cons]
    cases hd : decide (m₁ ≠ m₂)
    · rw [hd] at ih hw
      simp only [Bool.false_eq_true, if_false] at ih hw ⊢
      rw [words, List.take_left' hl, List.drop_left' hl, ih]
      exact congrArg (· :: _) hw
    · rw [hd] at ih hw
      simp only [if_true] at ih hw ⊢
      rw [swapGroups, List.take_left' hl, List.drop_left' hl, words]
      have hr : (saveWord m₁ 4 f.toNat).reverse.length = 4 := by rw [List.length_reverse, hl]
      rw [List.take_left' hr, List.drop_left' hr, ih]
      exact congrArg (· :: _) hw

theorem length_flatMap_word (m : Bool) (v : List (BitVec 32)) :
    (v.flatMap fun f => saveWord m 4 f.toNat).length = 4 * v.length := by
  induction v with
  | nil => rfl
  | cons f v ih =>
    rw [List.flatMap_cons, List.length_append, ih, List.length_cons]
    have : (saveWord m 4 f.toNat).length = 4 := length_mem _ _ _
    omega

theorem loadVector_saveVector (m₁ m₂ : Bool) (v : List (BitVec 32)) (hv : v.length < 2 ^ 31)
    (rest : List Byte) :
    loadVector m₂ (decide (m₁ ≠ m₂)) (saveVector m₁ v ++ rest) = .ok (v, rest) := by
  have hn : (BitVec.ofNat 32 v.length).toNat = v.length := by
    rw [BitVec.toNat_ofNat, Nat.mod_eq_of_lt (by omega)]
  unfold loadVector saveVector
  rw [hn]
  simp only [List.append_assoc]
  rw [Loader.bind_ok (loadWord_saveWord m₁ m₂ 4 _ (by norm_num at hv ⊢; omega) _),
    Loader.bind_ok (loadWord_saveWord m₁ m₂ 4 1 (by decide) _)]
  rw [if_neg (by
    rw [BitVec.toInt_eq_toNat_cond, hn, if_pos (by omega)]
    simp)]
  have hl := length_flatMap_word m₁ v
  have h : loadBinary (decide (m₁ ≠ m₂)) 4 v.length
      ((v.flatMap fun f => saveWord m₁ 4 f.toNat) ++ rest) =
      .ok (if decide (m₁ ≠ m₂) then
          swapGroups 4 v.length (v.flatMap fun f => saveWord m₁ 4 f.toNat)
        else v.flatMap fun f => saveWord m₁ 4 f.toNat, rest) := by
    unfold loadBinary
    rw [if_neg (by rw [List.length_append, hl]; omega)]
    simp only
    rw [List.take_left' hl, List.drop_left' hl]
  rw [Loader.bind_ok h, Loader.pure_apply, words_swapGroups]
  simp [Function.comp_def]

theorem loadMany_flatMap {α : Type} {l : Loader α} {save : α → List Byte} :
    ∀ (as : List α) rest, (∀ a ∈ as, ∀ rest, l (save a ++ rest) = .ok (a, rest)) →
      loadMany l as.length (as.flatMap save ++ rest) = .ok (as, rest)
  | [], rest, _ => rfl
  | a :: as, rest, h => by
    rw [List.flatMap_cons, List.length_cons, loadMany, List.append_assoc,
      Loader.bind_ok (h a (by simp) _),
      Loader.bind_ok (loadMany_flatMap as rest fun b hb => h b (by simp [hb])), Loader.pure_apply]

theorem loadFeatures_writeFeatures (m₁ m₂ : Bool) (ks : List (Keypoint (BitVec 64)))
    (ds : List (List (BitVec 32))) (hk : ks.length < 2 ^ 64) (hd : ds.length < 2 ^ 64)
    (hv : ∀ v ∈ ds, v.length < 2 ^ 31) (rest : List Byte) :
    loadFeatures m₂ (writeFeatures m₁ ks ds ++ rest) = .ok ((ks, ds), rest) := by
  have hc : decide ((if m₁ then 1 else 0) ≠ if m₂ then 1 else 0) = decide (m₁ ≠ m₂) := by
    cases m₁ <;> cases m₂ <;> rfl
  unfold loadFeatures writeFeatures
  simp only [List.append_assoc]
  rw [Loader.bind_ok (loadWord_saveWord_order m₁ m₂ _)]
  rw [hc, Loader.bind_ok (loadWord_saveWord m₁ m₂ 8 _ (by norm_num at hk ⊢; exact hk) _),
    Loader.bind_ok (loadKeypoints_saveKeypoints m₁ m₂ true ks _),
    Loader.bind_ok (loadWord_saveWord m₁ m₂ 8 _ (by norm_num at hd ⊢; exact hd) _),
    Loader.bind_ok (loadMany_flatMap ds rest fun v h r =>
      loadVector_saveVector m₁ m₂ v (hv v h) r), Loader.pure_apply]

/-! ## Rounding -/

/-- An entry between zero and one fits in a byte, and is read back with an error of at most one
step. -/
theorem quantize_spec {v : ℚ} (h0 : 0 ≤ v) (h1 : v ≤ 1) (i : Bool) :
    ∃ b, quantize v = .ok b ∧ v - 1 / 255 - 1 / 2 ^ 22 < dequantize i b ∧
      dequantize i b ≤ v + 1 / 2 ^ 22 := by
  have hy := abs_le.1 (roundFloat_near (v * 255))
  have hy0 := roundFloat_nonneg (x := v * 255) (by positivity)
  rw [abs_of_nonneg (by positivity : (0 : ℚ) ≤ v * 255)] at hy
  unfold quantize
  simp only
  set y := roundFloat (v * 255) with hydef
  have hy1 : y < 256 := by
    have : v * 255 / 2 ^ 24 ≤ 1 / 2 := by
      rw [div_le_div_iff₀ (by norm_num) (by norm_num)]
      norm_num
      linarith
    linarith
  refine ⟨_, if_pos ⟨by linarith, hy1⟩, ?_⟩
  have hf1 : (y.floor : ℚ) ≤ y := Rat.floor_le y
  have hf2 : y < (y.floor : ℚ) + 1 := by
    have := Rat.lt_floor_add_one y
    exact_mod_cast this
  have hf0 : 0 ≤ y.floor := by
    have : (-1 : ℚ) < y.floor := by linarith
    have : (-1 : ℤ) < y.floor := by exact_mod_cast this
    omega
  have hf256 : y.floor < 256 := by
    have : (y.floor : ℚ) < 256 := by linarith
    exact_mod_cast this
  have hb : ((Fin.ofNat 256 y.floor.toNat).val : ℚ) = y.floor := by
    have : (Fin.ofNat 256 y.floor.toNat).val = y.floor.toNat := by
      rw [Fin.val_ofNat]
      exact Nat.mod_eq_of_lt (by omega)
    rw [this]
    have h3 : ((y.floor.toNat : ℤ) : ℚ) = y.floor := by rw [Int.toNat_of_nonneg hf0]
    exact_mod_cast h3
  have hf0' : (0 : ℚ) ≤ y.floor := by exact_mod_cast hf0
  have hf256' : (y.floor : ℚ) ≤ 255 := by
    have : y.floor ≤ 255 := by omega
    exact_mod_cast this
  -- the value read differs little from the byte over 255
  have hd : |dequantize i (Fin.ofNat 256 y.floor.toNat) - (y.floor : ℚ) / 255| ≤ 3 / 2 ^ 24 := by
    unfold dequantize
    rw [hb]
    cases i
    · simp only [Bool.false_eq_true, if_false]
      refine (roundFloat_near _).trans ?_
      rw [abs_of_nonneg (by positivity)]
      rw [div_le_div_iff_of_pos_right (by norm_num), div_le_iff₀ (by norm_num)]
      linarith
    · simp only [if_true]
      have hr := roundFloat_near (1 / 255)
      rw [abs_of_nonneg (by norm_num : (0 : ℚ) ≤ 1 / 255)] at hr
      generalize roundFloat (1 / 255) = r at hr
      have hq := roundFloat_near ((y.floor : ℚ) * r)
      generalize roundFloat ((y.floor : ℚ) * r) = q at hq
      have hr' := abs_le.1 hr
      have hr0 : 0 ≤ r := by linarith
      rw [abs_of_nonneg (mul_nonneg hf0' hr0)] at hq
      have hq' := abs_le.1 hq
      generalize (y.floor : ℚ) = f at *
      have hfr1 : f * r ≤ f / 255 + 1 / 2 ^ 24 := by
        have h3 : f * (r - 1 / 255) ≤ f * (1 / 255 / 2 ^ 24) :=
          mul_le_mul_of_nonneg_left hr'.2 hf0'
        have h4 : f * (1 / 255 / 2 ^ 24) ≤ 255 * (1 / 255 / 2 ^ 24) :=
          mul_le_mul_of_nonneg_right hf256' (by norm_num)
        linarith
      have hfr2 : f / 255 - 1 / 2 ^ 24 ≤ f * r := by
        have h3 : f * (-(1 / 255 / 2 ^ 24)) ≤ f * (r - 1 / 255) :=
          mul_le_mul_of_nonneg_left hr'.1 hf0'
        have h4 : f * (1 / 255 / 2 ^ 24) ≤ 255 * (1 / 255 / 2 ^ 24) :=
          mul_le_mul_of_nonneg_right hf256' (by norm_num)
        linarith
      have hfr3 : f * r / 2 ^ 24 ≤ 2 / 2 ^ 24 := by
        rw [div_le_div_iff_of_pos_right (by norm_num)]
        have : f / 255 ≤ 1 := by rw [div_le_one (by norm_num)]; exact hf256'
        linarith
      rw [abs_le]
      constructor <;> linarith
  have hd' := abs_le.1 hd
  generalize dequantize i (Fin.ofNat 256 y.floor.toNat) = w at *
  have hv24 : v * 255 / 2 ^ 24 ≤ 255 / 2 ^ 24 := by
    rw [div_le_div_iff_of_pos_right (by norm_num)]
    linarith
  generalize (y.floor : ℚ) = f at *
  constructor
  · have h3 : v * 255 - 255 / 2 ^ 24 - 1 < f := by linarith
    have h4 : v - 1 / 2 ^ 24 - 1 / 255 < f / 255 := by
      rw [lt_div_iff₀ (by norm_num)]
      linarith
    have h5 : w ≥ f / 255 - 3 / 2 ^ 24 := by linarith
    have h6 : (1 : ℚ) / 2 ^ 22 = 1 / 2 ^ 24 + 3 / 2 ^ 24 := by norm_num
    linarith
  · have h3 : f ≤ v * 255 + 255 / 2 ^ 24 := by linarith
    have h4 : f / 255 ≤ v + 1 / 2 ^ 24 := by
      rw [div_le_iff₀ (by norm_num)]
      linarith
    have h6 : (1 : ℚ) / 2 ^ 22 = 1 / 2 ^ 24 + 3 / 2 ^ 24 := by norm_num
    linarith

set_option maxRecDepth 100000 in
/-- Every byte is read as a number that is written as the same byte. -/
theorem quantize_dequantize : ∀ (i : Bool) (b : Byte), quantize (dequantize i b) = .ok b := by
  decide +kernel

/-! ## The binary SIFT key file -/

theorem quantizeAll_length : ∀ {v : List ℚ} {bs : List Byte}, quantizeAll v = .ok bs →
    bs.length = v.length
  | [], bs, h => by cases h; rfl
  | a :: v, bs, h => by
    rw [quantizeAll] at h
    obtain ⟨b, -, h⟩ := Outcome.bind_eq_ok.1 h
    obtain ⟨cs, hc, h⟩ := Outcome.bind_eq_ok.1 h
    cases h
    simp [quantizeAll_length hc]

theorem quantizeAll_dequantize (i : Bool) : ∀ bs : List Byte,
    quantizeAll (bs.map (dequantize i)) = .ok bs
  | [] => rfl
  | b :: bs => by
    rw [List.map_cons, quantizeAll, quantize_dequantize]
    simp only [Outcome.ok_bind, quantizeAll_dequantize i bs, Outcome.pure_eq]

theorem rawRead_append {bs rest : List Byte} {k : Nat} (h : bs.length = k) :
    rawRead k (bs ++ rest) = .ok (bs, rest) := by
  unfold rawRead
  rw [if_neg (by rw [List.length_append]; omega), List.take_left' h, List.drop_left' h]

variable {D : Type}

/-- What is read of one feature that was written. -/
def siftRead (c : Doubles D) (k : Keypoint D) (bytes : List Byte) : Keypoint D × List ℚ :=
  (⟨c.toDouble (c.toFloat k.x), c.toDouble (c.toFloat k.y), sift, c.invalid,
    c.toDouble (c.toFloat k.scale), c.toDouble (c.toFloat k.orientation)⟩,
    bytes.map (dequantize c.inverse))

theorem ofNat_unmem_mem (m : Bool) (f : BitVec 32) :
    BitVec.ofNat 32 (unmem m (mem m 4 f.toNat)) = f := by
  rw [unmem_mem, Nat.mod_eq_of_lt (by have := f.isLt; norm_num at this ⊢; exact this)]
  simp

theorem loadSiftFeature_siftFeature (m : Bool) (c : Doubles D) (k : Keypoint D) {v : List ℚ}
    {bytes file : List Byte} (hv : quantizeAll v = .ok bytes) (hl : v.length = 128)
    (h : siftFeature m c k v = .ok file) (rest : List Byte) :
    loadSiftFeature m c (file ++ rest) = .ok (siftRead c k bytes, rest) := by
  unfold siftFeature at h
  rw [hv, Outcome.ok_bind] at h
  cases h
  have hb : bytes.length = 128 := (quantizeAll_length hv).trans hl
  unfold loadSiftFeature
  simp only [List.append_assoc]
  rw [Loader.bind_ok (rawRead_append (length_mem _ _ _)),
    Loader.bind_ok (rawRead_append (length_mem _ _ _)),
    Loader.bind_ok (rawRead_append (length_mem _ _ _)),
    Loader.bind_ok (rawRead_append (length_mem _ _ _)),
    Loader.bind_ok (rawRead_append hb), Loader.pure_apply]
  simp only [ofNat_unmem_mem]
  rfl

theorem siftFeatures_ok (m : Bool) (c : Doubles D) :
    ∀ {fs : List (Keypoint D × List ℚ)} {file : List Byte}, siftFeatures m c fs = .ok file →
      (∀ f ∈ fs, f.2.length = 128) →
      ∃ bytes : List (List Byte), List.Forall₂ (fun f b => quantizeAll f.2 = .ok b) fs bytes ∧
        ∀ rest, loadMany (loadSiftFeature m c) fs.length (file ++ rest) =
          .ok (List.zipWith (fun f b => siftRead c f.1 b) fs bytes, rest)
  | [], file, h, _ => by
    cases h
    exact ⟨[], .nil, fun rest => rfl⟩
  | f :: fs, file, h, hl => by
    rw [siftFeatures] at h
    obtain ⟨b, hb, h⟩ := Outcome.bind_eq_ok.1 h
    obtain ⟨bs, hbs, h⟩ := Outcome.bind_eq_ok.1 h
    cases h
    obtain ⟨bytes, hall, hload⟩ := siftFeatures_ok m c hbs fun g hg => hl g (by simp [hg])
    have hq : ∃ q, quantizeAll f.2 = .ok q := by
      unfold siftFeature at hb
      obtain ⟨q, hq, -⟩ := Outcome.bind_eq_ok.1 hb
      exact ⟨q, hq⟩
    obtain ⟨q, hq⟩ := hq
    refine ⟨q :: bytes, .cons hq hall, fun rest => ?_⟩
    rw [List.length_cons, loadMany, List.append_assoc,
      Loader.bind_ok (loadSiftFeature_siftFeature m c f.1 hq (hl f (by simp)) hb _),
      Loader.bind_ok (hload rest), Loader.pure_apply]
    rfl

theorem siftFeatures_isOk (m : Bool) (c : Doubles D) :
    ∀ {fs : List (Keypoint D × List ℚ)}, (∀ f ∈ fs, ∃ b, quantizeAll f.2 = .ok b) →
      ∃ file, siftFeatures m c fs = .ok file
  | [], _ => ⟨[], rfl⟩
  | f :: fs, h => by
    obtain ⟨b, hb⟩ := h f (by simp)
    obtain ⟨file, hf⟩ := siftFeatures_isOk m c (fs := fs) fun g hg => h g (by simp [hg])
    rw [siftFeatures, siftFeature, hb, hf]
    exact ⟨_, rfl⟩

theorem quantizeAll_isOk : ∀ {v : List ℚ}, (∀ a ∈ v, ∃ b, quantize a = .ok b) →
    ∃ bs, quantizeAll v = .ok bs
  | [], _ => ⟨[], rfl⟩
  | a :: v, h => by
    obtain ⟨b, hb⟩ := h a (by simp)
    obtain ⟨bs, hbs⟩ := quantizeAll_isOk (v := v) fun x hx => h x (by simp [hx])
    rw [quantizeAll, hb, hbs]
    exact ⟨_, rfl⟩

theorem quantizeAll_forall₂ : ∀ {v : List ℚ} {bs : List Byte}, quantizeAll v = .ok bs →
    List.Forall₂ (fun a b => quantize a = .ok b) v bs
  | [], bs, h => by cases h; exact .nil
  | a :: v, bs, h => by
    rw [quantizeAll] at h
    obtain ⟨b, hb, h⟩ := Outcome.bind_eq_ok.1 h
    obtain ⟨cs, hc, h⟩ := Outcome.bind_eq_ok.1 h
    cases h
    exact .cons hb (quantizeAll_forall₂ hc)

/-! ## Reading, then writing -/

theorem rawRead_ok {k : Nat} {bs a rest : List Byte} (h : rawRead k bs = .ok (a, rest)) :
    a.length = k ∧ bs = a ++ rest := by
  unfold rawRead at h
  split_ifs at h with hl
  cases h
  refine ⟨?_, (List.take_append_drop k bs).symm⟩
  rw [List.length_take]
  omega

theorem Loader.bind_eq_ok {α β : Type} {l : Loader α} {f : α → Loader β} {bs : List Byte}
    {r : β × List Byte} (h : (l >>= f) bs = .ok r) :
    ∃ a rest, l bs = .ok (a, rest) ∧ f a rest = .ok r := by
  change Loader.bind l f bs = _ at h
  unfold Loader.bind at h
  cases hl : l bs with
  | ok p => rw [hl] at h; exact ⟨p.1, p.2, rfl, h⟩
  | abort => rw [hl] at h; cases h
  | ub => rw [hl] at h; cases h

theorem mem_ofNat_unmem (m : Bool) {w : List Byte} (hw : w.length = 4) :
    mem m 4 (BitVec.ofNat 32 (unmem m w)).toNat = w := by
  have h := mem_unmem m w
  rw [hw] at h
  have hlt : unmem m w < 2 ^ 32 := by
    have h2 := unmem_mem m 4 (unmem m w)
    rw [h] at h2
    rw [h2]
    exact Nat.mod_lt _ (by norm_num)
  rw [BitVec.toNat_ofNat, Nat.mod_eq_of_lt hlt, h]

theorem siftFeature_loadSiftFeature (m : Bool) (c : Doubles D)
    (hc : ∀ f, c.toFloat (c.toDouble f) = f) {bs rest : List Byte} {f : Keypoint D × List ℚ}
    (h : loadSiftFeature m c bs = .ok (f, rest)) :
    ∃ file, siftFeature m c f.1 f.2 = .ok file ∧ bs = file ++ rest := by
  unfold loadSiftFeature at h
  obtain ⟨y, r₁, hy, h₁⟩ := Loader.bind_eq_ok h
  obtain ⟨x, r₂, hx, h₂⟩ := Loader.bind_eq_ok h₁
  obtain ⟨s, r₃, hs, h₃⟩ := Loader.bind_eq_ok h₂
  obtain ⟨o, r₄, ho, h₄⟩ := Loader.bind_eq_ok h₃
  obtain ⟨b, r₅, hb, h₅⟩ := Loader.bind_eq_ok h₄
  clear h h₁ h₂ h₃ h₄
  obtain ⟨ly, rfl⟩ := rawRead_ok hy
  obtain ⟨lx, rfl⟩ := rawRead_ok hx
  obtain ⟨ls, rfl⟩ := rawRead_ok hs
  obtain ⟨lo, rfl⟩ := rawRead_ok ho
  obtain ⟨lb, rfl⟩ := rawRead_ok hb
  cases h₅
  unfold siftFeature
  rw [quantizeAll_dequantize]
  simp only [hc]
  refine ⟨_, rfl, ?_⟩
  rw [mem_ofNat_unmem m ly, mem_ofNat_unmem m lx, mem_ofNat_unmem m ls, mem_ofNat_unmem m lo]
  simp [List.append_assoc]

theorem siftFeatures_loadMany (m : Bool) (c : Doubles D)
    (hc : ∀ f, c.toFloat (c.toDouble f) = f) :
    ∀ {n : Nat} {bs rest : List Byte} {fs : List (Keypoint D × List ℚ)},
      loadMany (loadSiftFeature m c) n bs = .ok (fs, rest) →
      fs.length = n ∧ ∃ file, siftFeatures m c fs = .ok file ∧ bs = file ++ rest
  | 0, bs, rest, fs, h => by
    cases h
    exact ⟨rfl, [], rfl, rfl⟩
  | n + 1, bs, rest, fs, h => by
    rw [loadMany] at h
    obtain ⟨f, r₁, hf, h⟩ := Loader.bind_eq_ok h
    obtain ⟨fs', r₂, hfs, h⟩ := Loader.bind_eq_ok h
    cases h
    obtain ⟨file, h1, rfl⟩ := siftFeature_loadSiftFeature m c hc hf
    obtain ⟨hl, files, h2, rfl⟩ := siftFeatures_loadMany m c hc hfs
    refine ⟨by simp [hl], file ++ files, ?_, by simp⟩
    rw [siftFeatures, h1, h2]
    rfl

theorem writeSift_loadSift (m : Bool) (c : Doubles D)
    (hc : ∀ f, c.toFloat (c.toDouble f) = f) {bs rest : List Byte}
    {fs : List (Keypoint D × List ℚ)} (h : loadSift m c bs = .ok (fs, rest)) :
    ∃ file, writeSift m c (fs.map Prod.snd) (fs.map Prod.fst) = .ok file ∧ bs = file ++ rest := by
  unfold loadSift at h
  obtain ⟨n, r₁, hn, h₁⟩ := Loader.bind_eq_ok h
  obtain ⟨l, r₂, hl, h₂⟩ := Loader.bind_eq_ok h₁
  clear h h₁
  rename' h₂ => h
  obtain ⟨ln, rfl⟩ := rawRead_ok hn
  obtain ⟨ll, rfl⟩ := rawRead_ok hl
  simp only at h
  split_ifs at h with h1 h2
  · cases h
  · cases h
  · obtain ⟨hlen, body, hb, rfl⟩ := siftFeatures_loadMany m c hc h
    have h1' : unmem m l = 128 := not_not.1 h1
    have hnum : BitVec.ofNat 32 fs.length = BitVec.ofNat 32 (unmem m n) := by
      rw [hlen]
      generalize BitVec.ofNat 32 (unmem m n) = b at *
      have hb1 : b.toInt = b.toNat := by
        rw [BitVec.toInt_eq_toNat_cond] at h2 ⊢
        split_ifs at h2 ⊢ with h3
        · rfl
        · have := b.isLt
          omega
      rw [hb1, Int.toNat_natCast]
      simp
    unfold writeSift
    simp only [List.length_map, decide_true, Outcome.check_true, Outcome.ok_bind]
    rw [hnum]
    have hzip : (List.map Prod.fst fs).zip (List.map Prod.snd fs) = fs := by
      clear hb h hlen hnum hl hn
      induction fs with
      | nil => rfl
      | cons f fs ih => simp [ih]
    rw [hzip, ← hlen, List.take_length, hb]
    refine ⟨_, rfl, ?_⟩
    rw [mem_ofNat_unmem m ln]
    have hm : mem m 4 128 = l := by
      have := mem_unmem m l
      rwa [ll, h1'] at this
    rw [hm]
    simp [List.append_assoc]

end Theia.FeatureFile
