import Verif.Proof.FeatureFiles
import Verif.Spec.FeatureFiles

/-!
# C85: features written to a file come back

The portable file gives back every keypoint and descriptor, bit for bit, whatever the byte orders of
the machines that write and read it, and a file cut short is never taken for a whole one.  The
binary SIFT key file keeps what its format can hold, as long as every descriptor has 128 entries
between zero and one and the two machines have the same byte order.
-/

namespace Theia

open FeatureFile

/-! ## The portable file -/

/-- Keypoints and descriptors come back as they were, bit for bit, on a machine of either byte
order, whatever follows them in the file. -/
theorem C85_portable (writer reader : Bool) (keypoints : List (Keypoint (BitVec 64)))
    (descriptors : List (List (BitVec 32))) (more : List Byte)
    (hk : keypoints.length < 2 ^ 64) (hd : descriptors.length < 2 ^ 64)
    (hv : ∀ v ∈ descriptors, v.length < 2 ^ 31) :
    readFeatures reader (writeFeatures writer keypoints descriptors ++ more) =
      .ok (keypoints, descriptors) := by
  unfold readFeatures
  rw [loadFeatures_writeFeatures writer reader keypoints descriptors hk hd hv]

/-- A file that is cut short, at whatever byte, is never read as features: reading it throws. -/
theorem C85_truncated (writer reader : Bool) (keypoints : List (Keypoint (BitVec 64)))
    (descriptors : List (List (BitVec 32)))
    (hk : keypoints.length < 2 ^ 64) (hd : descriptors.length < 2 ^ 64)
    (hv : ∀ v ∈ descriptors, v.length < 2 ^ 31) (part missing : List Byte)
    (hm : missing ≠ []) (h : part ++ missing = writeFeatures writer keypoints descriptors) :
    readFeatures reader part = .abort := by
  have hfull := loadFeatures_writeFeatures writer reader keypoints descriptors hk hd hv []
  rw [List.append_nil, ← h] at hfull
  unfold readFeatures
  rcases monotone_loadFeatures reader part missing with hp | ⟨-, hp⟩ | ⟨a, rest, -, hp⟩
  · rw [hp]
  · rw [hp] at hfull
    cases hfull
  · rw [hp] at hfull
    simp only [Outcome.ok.injEq, Prod.mk.injEq, List.append_eq_nil_iff] at hfull
    exact absurd hfull.2.2 hm

/-- Two keypoints, one of them with a payload of not-a-number, and two descriptors of different
lengths. -/
def portableKeypoints : List (Keypoint (BitVec 64)) :=
  [⟨0x3FF0000000000000#64, 0x4000000000000000#64, 2#32, 0x7FF8000000000123#64, 5#64, 6#64⟩,
    ⟨1#64, 2#64, 0xFFFFFFFF#32, 3#64, 4#64, 5#64⟩]

def portableDescriptors : List (List (BitVec 32)) := [[0x3F800000#32, 7#32], []]

/-- The file begins with the byte order, here a little endian one, the number of keypoints and the
version of their class, and has 1 + 8 + 4 + 2·44 + 8 + 2·8 + 2·4 bytes. -/
example : (writeFeatures true portableKeypoints portableDescriptors).take 14 =
      [1, 2, 0, 0, 0, 0, 0, 0, 0, 0, 0, 0, 0, 0] ∧
    (writeFeatures true portableKeypoints portableDescriptors).length = 133 ∧
    (writeFeatures false portableKeypoints portableDescriptors).take 9 =
      [0, 0, 0, 0, 0, 0, 0, 0, 2] := by decide +kernel

example : readFeatures true (writeFeatures false portableKeypoints portableDescriptors) =
    .ok (portableKeypoints, portableDescriptors) := by decide +kernel

example : readFeatures true ((writeFeatures false portableKeypoints portableDescriptors).take 132) =
    .abort := by decide +kernel

/-! ## The binary SIFT key file -/

section

variable {D : Type} (c : Doubles D)

private theorem take_all {α : Type} {l : List α} {n : Nat} (h : l.length < 2 ^ 31)
    (hn : n = l.length) : l.take (BitVec.ofNat 32 n).toInt.toNat = l := by
  have h1 : (BitVec.ofNat 32 n).toNat = l.length := by
    rw [BitVec.toNat_ofNat, Nat.mod_eq_of_lt (by omega), hn]
  have h2 : (BitVec.ofNat 32 n).toInt = l.length := by
    rw [BitVec.toInt_eq_toNat_cond, h1, if_pos (by omega)]
  rw [h2, Int.toNat_natCast, List.take_length]

private theorem num_toNat {n : Nat} (h : n < 2 ^ 31) :
    BitVec.ofNat 32 ((BitVec.ofNat 32 n).toNat % 256 ^ 4) = BitVec.ofNat 32 n := by
  have : (BitVec.ofNat 32 n).toNat = n := by rw [BitVec.toNat_ofNat, Nat.mod_eq_of_lt (by omega)]
  rw [this, Nat.mod_eq_of_lt (by norm_num at h ⊢; omega)]

private theorem sift_forall {fs : List (Keypoint D × List ℚ)} {bytes : List (List Byte)}
    (h : List.Forall₂ (fun f b => quantizeAll f.2 = .ok b) fs bytes)
    (hv : ∀ f ∈ fs, Spec.SiftDescriptor f.2) :
    (List.zipWith (fun f b => siftRead c f.1 b) fs bytes).length = fs.length ∧
      ∀ (i : Nat) f, fs[i]? = some f → ∃ f', (List.zipWith (fun f b => siftRead c f.1 b) fs bytes)[i]? =
        some f' ∧ Spec.SiftKept c f.1 f.2 f'.1 f'.2 := by
  induction h with
  | nil => exact ⟨rfl, by simp⟩
  | @cons f b fs bytes hb _ ih =>
    obtain ⟨h1, h2⟩ := ih fun g hg => hv g (by simp [hg])
    refine ⟨by simp only [List.zipWith_cons_cons, List.length_cons, h1], fun i g hg => ?_⟩
    cases i with
    | zero =>
      simp only [List.getElem?_cons_zero, Option.some.injEq] at hg
      subst hg
      refine ⟨siftRead c f.1 b, by simp only [List.zipWith_cons_cons, List.getElem?_cons_zero], ?_⟩
      refine ⟨rfl, rfl, rfl, rfl, rfl, rfl, ?_⟩
      have hq := quantizeAll_forall₂ hb
      have hr := (hv f (by simp)).2
      simp only [siftRead]
      generalize f.2 = v at hq hr
      clear hb
      induction hq with
      | nil => exact .nil
      | @cons a b v bs hab _ ih =>
        rw [List.map_cons]
        refine .cons ?_ (ih fun x hx => hr x (by simp [hx]))
        obtain ⟨b', hb', hd⟩ := quantize_spec (hr a (by simp)).1 (hr a (by simp)).2 c.inverse
        rw [hab] at hb'
        cases hb'
        exact hd
    | succ i =>
      simp only [List.getElem?_cons_succ] at hg
      obtain ⟨f', hf', hk⟩ := h2 i g hg
      exact ⟨f', by simpa only [List.zipWith_cons_cons, List.getElem?_cons_succ] using hf', hk⟩

/-- Features with descriptors of 128 entries between zero and one are written, and come back on a
machine of the same byte order: positions, scales and orientations to the precision of floats,
descriptors to one step. -/
theorem C85_sift_partial (little : Bool) (descriptors : List (List ℚ)) (keypoints : List (Keypoint D))
    (hl : descriptors.length = keypoints.length) (hn : descriptors.length < 2 ^ 31)
    (hv : ∀ v ∈ descriptors, Spec.SiftDescriptor v) :
    ∃ file, writeSift little c descriptors keypoints = .ok file ∧
      ∃ descriptors' keypoints', readSift little c file = .ok (descriptors', keypoints') ∧
        Spec.SiftAllKept c keypoints descriptors keypoints' descriptors' := by
  have hz : (keypoints.zip descriptors).length = descriptors.length := by
    rw [List.length_zip, hl, min_self]
  have hzv : ∀ f ∈ keypoints.zip descriptors, Spec.SiftDescriptor f.2 := fun f hf =>
    hv _ (List.of_mem_zip hf).2
  obtain ⟨body, hb⟩ := siftFeatures_isOk little c (fs := keypoints.zip descriptors) fun f hf =>
    quantizeAll_isOk fun a ha => by
      obtain ⟨b, hb, -⟩ := quantize_spec ((hzv f hf).2 a ha).1 ((hzv f hf).2 a ha).2 true
      exact ⟨b, hb⟩
  obtain ⟨bytes, hall, hload⟩ := siftFeatures_ok little c hb fun f hf => (hzv f hf).1
  have hw : writeSift little c descriptors keypoints =
      .ok (mem little 4 (BitVec.ofNat 32 descriptors.length).toNat ++ mem little 4 128 ++ body) := by
    unfold writeSift
    simp only [hl, decide_true, Outcome.check_true, Outcome.ok_bind]
    rw [← hl, take_all (by rw [hz]; exact hn) hz.symm, hb]
    rfl
  refine ⟨_, hw, ?_⟩
  have hr : loadSift little c
      (mem little 4 (BitVec.ofNat 32 descriptors.length).toNat ++ mem little 4 128 ++ body) =
      .ok (List.zipWith (fun f b => siftRead c f.1 b) (keypoints.zip descriptors) bytes, []) := by
    unfold loadSift
    rw [List.append_assoc, Loader.bind_ok (rawRead_append (length_mem _ _ _)),
      Loader.bind_ok (rawRead_append (length_mem _ _ _))]
    simp only [unmem_mem]
    have h1 : (BitVec.ofNat 32 descriptors.length).toNat = descriptors.length := by
      rw [BitVec.toNat_ofNat, Nat.mod_eq_of_lt (by omega)]
    have h2 : (BitVec.ofNat 32 descriptors.length).toInt = descriptors.length := by
      rw [BitVec.toInt_eq_toNat_cond, h1, if_pos (by omega)]
    rw [num_toNat hn, if_neg (by norm_num), if_neg (by rw [h2]; omega), h2, Int.toNat_natCast]
    have h3 := hload []
    rw [List.append_nil, hz] at h3
    exact h3
  unfold readSift
  rw [hr]
  refine ⟨_, _, rfl, ?_⟩
  obtain ⟨h1, h2⟩ := sift_forall c hall hzv
  refine ⟨?_, ?_, fun i k v hk hv' => ?_⟩
  · rw [List.length_map, h1, hz, hl]
  · rw [List.length_map, h1, hz]
  · have hkv : (keypoints.zip descriptors)[i]? = some (k, v) := by
      rw [List.getElem?_zip_eq_some]
      exact ⟨hk, hv'⟩
    obtain ⟨f', hf', hkept⟩ := h2 i _ hkv
    refine ⟨f'.1, f'.2, ?_, ?_, hkept⟩
    · rw [List.getElem?_map, hf']; rfl
    · rw [List.getElem?_map, hf']; rfl

/-- Writing what was read from a file gives the file again, up to what followed the last feature: a
feature loses nothing more however often it is read and written. -/
theorem C85_sift_stable (little : Bool) (hc : ∀ f, c.toFloat (c.toDouble f) = f)
    (file : List Byte) (descriptors : List (List ℚ)) (keypoints : List (Keypoint D))
    (h : readSift little c file = .ok (descriptors, keypoints)) :
    ∃ file', writeSift little c descriptors keypoints = .ok file' ∧ file' <+: file := by
  unfold readSift at h
  cases hl : loadSift little c file with
  | ok p =>
    rw [hl] at h
    simp only [Outcome.ok.injEq, Prod.mk.injEq] at h
    obtain ⟨rfl, rfl⟩ := h
    obtain ⟨file', hw, hf⟩ := writeSift_loadSift little c hc (fs := p.1) (rest := p.2) hl
    exact ⟨file', hw, p.2, hf.symm⟩
  | abort => rw [hl] at h; cases h
  | ub => rw [hl] at h; cases h

/-- A file from a machine of the other byte order is never read as features: the process is ended. -/
theorem C85_sift_byte_order (little : Bool) (descriptors : List (List ℚ))
    (keypoints : List (Keypoint D)) (file : List Byte)
    (h : writeSift little c descriptors keypoints = .ok file) :
    readSift (!little) c file = .abort := by
  unfold writeSift at h
  obtain ⟨_, -, h⟩ := Outcome.bind_eq_ok.1 h
  simp only at h
  obtain ⟨body, -, h⟩ := Outcome.bind_eq_ok.1 h
  cases h
  have hl : loadSift (!little) c
      (mem little 4 (BitVec.ofNat 32 descriptors.length).toNat ++ mem little 4 128 ++ body) =
      .abort := by
    unfold loadSift
    rw [List.append_assoc, Loader.bind_ok (rawRead_append (length_mem _ _ _)),
      Loader.bind_ok (rawRead_append (length_mem _ _ _))]
    rw [if_pos (by cases little <;> decide)]
    rfl
  unfold readSift
  rw [hl]

/-- Keypoints and descriptors that are not as many end the process: nothing is written. -/
theorem C85_sift_sizes (little : Bool) (descriptors : List (List ℚ))
    (keypoints : List (Keypoint D)) (h : descriptors.length ≠ keypoints.length) :
    writeSift little c descriptors keypoints = .abort := by
  unfold writeSift
  rw [decide_eq_false h]
  rfl

end

/-- Doubles that are floats already, for the examples. -/
def floats : Doubles (BitVec 32) := ⟨id, id, 0xC61C3C00#32, false⟩

/-- A keypoint for the examples. -/
def siftKeypoint (n : Nat) : Keypoint (BitVec 32) :=
  ⟨BitVec.ofNat 32 n, BitVec.ofNat 32 (n + 1), 2#32, 9#32, BitVec.ofNat 32 (n + 2), 11#32⟩

/-- A descriptor of the right kind that is neither constant nor made of whole steps. -/
def siftRamp : List ℚ := (List.range 128).map fun i => (i : ℚ) / 130

set_option maxRecDepth 100000 in
/-- The hypotheses of `C85_sift_partial` and `C85_sift_stable` are met. -/
example : Spec.SiftDescriptor siftRamp ∧ (∀ f, floats.toFloat (floats.toDouble f) = f) ∧
    ((writeSift true floats [siftRamp, siftRamp] [siftKeypoint 3, siftKeypoint 77]) >>= fun file =>
      readSift true floats file >>= fun r =>
        .ok (r.2, (r.1.map fun v => v.map fun a => (a * 255).floor), file.length)) =
      .ok ([⟨3#32, 4#32, 1#32, 0xC61C3C00#32, 5#32, 11#32⟩,
        ⟨77#32, 78#32, 1#32, 0xC61C3C00#32, 79#32, 11#32⟩],
        [siftRamp.map fun a => (((a * 255).floor : ℚ)).floor,
          siftRamp.map fun a => (((a * 255).floor : ℚ)).floor], 296) := by
  refine ⟨⟨by decide +kernel, ?_⟩, fun _ => rfl, ?_⟩
  · decide +kernel
  · decide +kernel

/-- The entries of a descriptor are not checked to be 128: here the first descriptor has one too
many and the second one too few, so that the file has the right length and is read without
complaint, with a second keypoint that is not the one written. -/
theorem C85_sift_length_counterexample :
    ∃ file descriptors keypoints,
      writeSift true floats [List.replicate 129 1, List.replicate 127 1]
        [siftKeypoint 3, siftKeypoint 77] = .ok file ∧
      readSift true floats file = .ok (descriptors, keypoints) ∧
      keypoints.map Keypoint.y = [4#32, 20223#32] := by
  have h : ((writeSift true floats [List.replicate 129 1, List.replicate 127 1]
        [siftKeypoint 3, siftKeypoint 77]) >>= fun file =>
      readSift true floats file >>= fun r => .ok (r.2.map Keypoint.y)) =
      .ok [4#32, 20223#32] := by decide +kernel
  obtain ⟨file, hf, h⟩ := Outcome.bind_eq_ok.1 h
  obtain ⟨r, hr, h⟩ := Outcome.bind_eq_ok.1 h
  exact ⟨file, r.1, r.2, hf, hr, by simpa using h⟩

/-- A file cut short is not noticed either: reading goes on with variables that were never set.
(The portable file throws.) -/
theorem C85_sift_truncated_counterexample :
    ∃ file, writeSift true floats [siftRamp] [siftKeypoint 3] = .ok file ∧
      readSift true floats (file.take 100) = .ub := by
  have h : ((writeSift true floats [siftRamp] [siftKeypoint 3]) >>= fun file =>
      (.ok (decide (readSift true floats (file.take 100) = .ub)) : Outcome Bool)) = .ok true := by
    decide +kernel
  obtain ⟨file, hf, h⟩ := Outcome.bind_eq_ok.1 h
  exact ⟨file, hf, by simpa using h⟩

/-- Entries of a descriptor outside of zero to one, such as the negative ones of other kinds of
features, are converted to bytes without a check, which is undefined. -/
theorem C85_sift_range_counterexample :
    writeSift true floats [(-1 / 2) :: List.replicate 127 0] [siftKeypoint 3] = .ub ∧
      writeSift true floats [2 :: List.replicate 127 0] [siftKeypoint 3] = .ub := by
  decide +kernel

end Theia
