import Verif.Proof.DescriptorsGiven
import Mathlib.Tactic.FieldSimp

/-!
# C107: descriptor extractors
-/

namespace Theia

open Spec.Descr Desc

variable {P G D : Type}

namespace DescExample

/-- An image is the octave in which it has its only keypoint, and a label. The gradient and the descriptor are
the label. -/
def vl : VL (Int × Int) Int Int where
  candidates := fun _ p o => if o = p.1 then [⟨3, 4, 2, 1, 1, 5, true⟩] else []
  gradOf := fun _ p _ => p.2
  orient := fun _ _ _ => [0, 1]
  describe := fun _ g _ _ => g
  orientable := fun _ _ => true
  describable := fun _ k => decide (k.y < 9)
  octave := fun _ _ => 0

/-- Two octaves; no conversion. -/
def params : Params := ⟨2, 3, -1, 10, 1 / 2, false, true⟩

/-- An image of 10 by 10. -/
def img (o label : Int) : Img (Int × Int) := ⟨10, 10, (o, label)⟩

theorem octave10 : validFirstOctave (-1) 10 10 = -1 := by
  unfold validFirstOctave
  rw [validLoop]
  norm_num

theorem geo10 (o label : Int) : siftGeo params (img o label) = ⟨10, 10, 3, -1⟩ := by
  simp [siftGeo, params, img, octave10]

theorem octaves10 (o label : Int) : siftOctaves params (img o label) = 2 := by
  simp [siftOctaves, params]

theorem found10 (o label q : Int) :
    found vl params (img o label) q = if q = o then [⟨q, 3, 4, 2⟩] else [] := by
  have hacc : Accepted params.edge params.peak ⟨3, 4, 2, 1, 1, 5, true⟩ := by
    refine ⟨?_, ?_, ?_, ?_, rfl⟩ <;> norm_num [params]
  simp only [found, vl, img]
  split
  · rw [List.filter_cons_of_pos (p := fun c => decide (Accepted params.edge params.peak c)) (by simpa using hacc)]
    rfl
  · rfl

theorem active10 (o label q : Int) : Active vl params (img o label) q ↔ q = o := by
  unfold Active
  rw [found10]
  by_cases h : q = o <;> simp [h, vl]

end DescExample

open DescExample in
/-- C107: a new extractor that detects and describes returns, octave by octave, the features of the image: one
keypoint and one descriptor, in the same place of the two vectors, for each keypoint and angle (only the first
angle if upright features are asked for), after what the vectors held, converted if the parameters ask for it. -/
theorem C107_detect (vl : VL P G D) (root : D → D) (hasNaN : D → Bool) (zero : D) (p : Params) (img : Img P)
    (out : Out D) :
    (detectAndExtract vl root hasNaN zero p none img out >>= fun r => .ok r.1) =
      extracted root hasNaN p out (features vl zero p img) :=
  (detect_spec vl root hasNaN zero p [] none img out (by intro f hf; cases hf)).2 (by intro a ha; cases ha)

/-- C107, using the extractor again, the part that holds: after features of any images were extracted, the
features of the next image are those that a new extractor gives, if no earlier image of the same size has its
last keypoints in the octave of the first keypoints of this one. Without the condition it is false
(`C107_reuse_counterexample`), and after descriptors at given keypoints it is false
(`C107_thresholds_counterexample`). -/
theorem C107_reuse_partial (vl : VL P G D) (root : D → D) (hasNaN : D → Bool) (zero : D) (p : Params)
    (imgs : List (Img P)) (st : Option (Filt P G)) (img : Img P) (out : Out D)
    (hst : Extracted vl root hasNaN zero p imgs st)
    (hsep : ∀ a ∈ imgs, a.width = img.width → a.height = img.height → ∀ o, LastOctave vl p a o →
      ¬ FirstOctave vl p img o) :
    (detectAndExtract vl root hasNaN zero p st img out >>= fun r => .ok r.1) =
      extracted root hasNaN p out (features vl zero p img) :=
  (detect_spec vl root hasNaN zero p imgs st img out (extracted_fits vl root hasNaN zero p hst)).2 hsep

namespace DescExample

/-- The features of these images. -/
theorem features10 (label : Int) : features vl 0 params (img 0 label) = [(⟨3, 4, some 2, some 0⟩, label)] ∧
    features vl 0 params (img (-1) label) = [(⟨3, 4, some 2, some 0⟩, label)] := by
  have hd : (4 : ℚ) < 9 := by norm_num
  have h2 : (2 : Int).toNat = 2 := rfl
  constructor <;>
  · simp only [features, geo10, octaves10, h2, octavesFrom, List.flatMap_cons, List.flatMap_nil, featuresOf, found10]
    simp [feature, vl, img, params, hd]

/-- A new extractor on one of them. -/
theorem extract10 (o label : Int) (ho : o = 0 ∨ o = -1) :
    ∃ st, detectAndExtract vl id (fun _ => false) 0 params none (img o label) ⟨[], []⟩ =
      .ok (⟨[⟨3, 4, some 2, some 0⟩], [label]⟩, st) := by
  have h := C107_detect vl id (fun _ => false) 0 params (img o label) ⟨[], []⟩
  have hf : features vl 0 params (img o label) = [(⟨3, 4, some 2, some 0⟩, label)] := by
    rcases ho with rfl | rfl
    · exact (features10 label).1
    · exact (features10 label).2
  rw [hf] at h
  simp only [extracted, params, Bool.false_eq_true, if_false, List.map_cons, List.map_nil, List.nil_append] at h
  rw [Outcome.bind_eq_ok] at h
  obtain ⟨⟨r, st⟩, h1, h2⟩ := h
  simp only [Outcome.ok.injEq] at h2
  subst h2
  exact ⟨st, h1⟩

end DescExample

open DescExample in
/-- The hypotheses of `C107_reuse_partial` hold: the first image has its keypoint in octave 0, the second in
octave -1, and both calls return features. -/
example : ∃ st, Extracted vl id (fun _ => false) 0 params [DescExample.img 0 7] st ∧
    (∀ a ∈ [DescExample.img 0 7], a.width = (DescExample.img (-1) 8).width →
      a.height = (DescExample.img (-1) 8).height → ∀ o, LastOctave vl params a o →
      ¬ FirstOctave vl params (DescExample.img (-1) 8) o) ∧
    extracted id (fun _ => false) params ⟨[], []⟩ (features vl 0 params (DescExample.img (-1) 8)) =
      .ok ⟨[⟨3, 4, some 2, some 0⟩], [8]⟩ := by
  obtain ⟨st, hst⟩ := extract10 0 7 (Or.inl rfl)
  refine ⟨st, .call .new hst, ?_, ?_⟩
  · intro a ha _ _ o hl hf
    rw [List.mem_singleton] at ha
    subst ha
    have h1 := (active10 0 7 o).1 hl.1
    have h2 := (active10 (-1) 8 o).1 hf.1
    omega
  · rw [(features10 8).2]
    simp [extracted, params]

open DescExample in
/-- The condition is needed. VLFeat keeps the gradient of the octave in which it was last computed and does not
forget it when an image is started; so the second of two images of the same size, with keypoints in the same
octave, gets the descriptor of the first: 7 instead of 8. -/
theorem C107_reuse_counterexample :
    ∃ st, Extracted vl id (fun _ => false) 0 params [DescExample.img 0 7] st ∧
    (detectAndExtract vl id (fun _ => false) 0 params st (DescExample.img 0 8) ⟨[], []⟩ >>= fun r => .ok r.1) =
      .ok ⟨[⟨3, 4, some 2, some 0⟩], [7]⟩ ∧
    extracted id (fun _ => false) params ⟨[], []⟩ (features vl 0 params (DescExample.img 0 8)) =
      .ok ⟨[⟨3, 4, some 2, some 0⟩], [8]⟩ := by
  have h4 : (4 : ℚ) < 9 := by norm_num
  have hacc : passes 10 (1 / 2) ⟨3, 4, 2, 1, 1, 5, true⟩ = true := by
    simp only [passes]; norm_num
  have hrun : detectAndExtract vl id (fun _ => false) 0 params none (DescExample.img 0 7) ⟨[], []⟩ =
      .ok (⟨[⟨3, 4, some 2, some 0⟩], [7]⟩, some ⟨⟨10, 10, 3, -1⟩, 2, 0, 10, 1 / 2, some (0, 7), 0, some 7⟩) := by
    simp [detectAndExtract, filterFor, newFilter, Filt.new, params, DescExample.img, octave10, Filt.processFirst,
      detectOctaves, Filt.detect, vl, keysLoop, Filt.processNext, hacc, Filt.orientations, Filt.updateGradient,
      anglesLoop, Filt.descriptor, rootAll, h4, -one_div]
  refine ⟨_, .call .new hrun, ?_, ?_⟩
  · simp [detectAndExtract, filterFor, params, DescExample.img, Filt.processFirst,
      detectOctaves, Filt.detect, vl, keysLoop, Filt.processNext, hacc, Filt.orientations, Filt.updateGradient,
      anglesLoop, Filt.descriptor, rootAll, h4, -one_div]
  · rw [(features10 8).1]
    simp [extracted, params]

/-- Every loop adds as many descriptors as keypoints. -/
theorem anglesLoop_pairs (vl : VL P G D) (zero : D) (k : VK) (as : List ℚ) : ∀ (out r : Out D) (f f' : Filt P G),
    anglesLoop vl zero k as out f = .ok (r, f') →
      r.keypoints.length + out.descriptors.length = r.descriptors.length + out.keypoints.length := by
  induction as with
  | nil =>
    intro out r f f' h
    simp only [anglesLoop, Outcome.ok.injEq, Prod.mk.injEq] at h
    rw [← h.1]; omega
  | cons a as ih =>
    intro out r f f' h
    rw [anglesLoop, Outcome.bind_eq_ok] at h
    obtain ⟨q, _, h⟩ := h
    have := ih _ _ _ _ h
    simp only [List.length_append, List.length_singleton] at this
    omega

theorem keysLoop_pairs (vl : VL P G D) (zero : D) (u : Bool) (ks : List VK) : ∀ (out r : Out D) (f f' : Filt P G),
    keysLoop vl zero u ks out f = .ok (r, f') →
      r.keypoints.length + out.descriptors.length = r.descriptors.length + out.keypoints.length := by
  induction ks with
  | nil =>
    intro out r f f' h
    simp only [keysLoop, Outcome.ok.injEq, Prod.mk.injEq] at h
    rw [← h.1]; omega
  | cons k ks ih =>
    intro out r f f' h
    rw [keysLoop, Outcome.bind_eq_ok] at h
    obtain ⟨q, _, h⟩ := h
    rw [Outcome.bind_eq_ok] at h
    obtain ⟨⟨s1, s2⟩, h1, h⟩ := h
    have h2 := ih _ _ _ _ h
    have h3 := anglesLoop_pairs vl zero k _ _ _ _ _ h1
    simp only at h2
    omega

theorem detectOctaves_pairs (vl : VL P G D) (zero : D) (u : Bool) (n : Nat) : ∀ (out r : Out D) (f f' : Filt P G),
    detectOctaves vl zero u n out f = .ok (r, f') →
      r.keypoints.length + out.descriptors.length = r.descriptors.length + out.keypoints.length := by
  induction n with
  | zero => intro out r f f' h; cases h
  | succ n ih =>
    intro out r f f' h
    rw [detectOctaves, Outcome.bind_eq_ok] at h
    obtain ⟨ks, _, h⟩ := h
    rw [Outcome.bind_eq_ok] at h
    obtain ⟨⟨s1, s2⟩, h1, h⟩ := h
    have h3 := keysLoop_pairs vl zero u _ _ _ _ _ h1
    simp only at h
    split at h
    · have h2 := ih _ _ _ _ h
      omega
    · simp only [Outcome.ok.injEq, Prod.mk.injEq] at h
      rw [← h.1]
      exact h3

/-- C107, using the extractor again, in any state that calls of any kind can leave: a call that returns adds as
many descriptors as keypoints, and keeps the keypoints that were there. -/
theorem C107_pairs (vl : VL P G D) (root : D → D) (hasNaN : D → Bool) (zero : D) (p : Params)
    (st st' : Option (Filt P G)) (img : Img P) (out r : Out D)
    (h : detectAndExtract vl root hasNaN zero p st img out = .ok (r, st')) :
    r.keypoints.length + out.descriptors.length = r.descriptors.length + out.keypoints.length := by
  unfold detectAndExtract at h
  simp only at h
  obtain ⟨s1, s2, hp, h⟩ : ∃ (s1 : Out D) (s2 : Filt P G),
      s1.keypoints.length + out.descriptors.length = s1.descriptors.length + out.keypoints.length ∧
      (rootAll root hasNaN p s1.descriptors >>= fun ds =>
        (.ok (⟨s1.keypoints, ds⟩, some s2) : Outcome (Out D × Option (Filt P G)))) = .ok (r, st') := by
    split at h
    · rw [Outcome.bind_eq_ok] at h
      obtain ⟨⟨s1, s2⟩, h1, h⟩ := h
      exact ⟨s1, s2, detectOctaves_pairs vl zero _ _ _ _ _ _ h1, h⟩
    · rw [Outcome.ok_bind] at h
      exact ⟨out, _, by omega, h⟩
  rw [Outcome.bind_eq_ok] at h
  obtain ⟨ds, hds, h⟩ := h
  simp only [Outcome.ok.injEq, Prod.mk.injEq] at h
  have hlen : ds.length = s1.descriptors.length := by
    unfold rootAll at hds
    split at hds
    · split at hds
      · cases hds
      · simp only [Outcome.ok.injEq] at hds
        rw [← hds]; simp
    · simp only [Outcome.ok.injEq] at hds
      rw [← hds]
  rw [← h.1]
  simp only
  omega

open DescExample in
/-- A call that returns, on an extractor that has been used. -/
example : ∃ r st, detectAndExtract vl id (fun _ => false) 0 params none (DescExample.img 0 7) ⟨[], []⟩ = .ok (r, st) := by
  obtain ⟨st, h⟩ := extract10 0 7 (Or.inl rfl)
  exact ⟨_, st, h⟩

theorem toRoot_eq (root : D → D) (p : Params) (d : D) : toRoot root p d = converted root p d := rfl

/-- C107, given keypoints, one at a time, the part that holds: a new extractor returns the descriptor at the
keypoint, computed from the octave of its scale. The keypoint must be where VLFeat can describe it; otherwise
the call says that it succeeded and returns the numbers that happened to be in memory. -/
theorem C107_compute_partial (vl : VL P G D) (root : D → D) (p : Params) (img : Img P) (k : Kp) (junk : D) (s a : ℚ)
    (hs : k.scale = some s) (ha : k.orientation = some a) (hO : siftOctaves p img ≠ 0) :
    (∀ d, descriptorFor vl p img k.x k.y s a = some d →
      ∃ st, computeDescriptor vl root p none img k junk = .ok (converted root p d, st)) ∧
    (descriptorFor vl p img k.x k.y s a = none →
      ∃ st, computeDescriptor vl root p none img k junk = .ok (converted root p junk, st)) := by
  simp only [← toRoot_eq]
  obtain ⟨h1, h2, h3, _, _⟩ := newFilter_spec (G := G) p false img
  have hlo : (siftGeo p img).oMin ≤ octaveFor vl p img s := le_max_right _ _
  obtain ⟨hy, hn⟩ := computeDescriptor_given vl root p none img k junk s a hs ha (newFilter p false img) rfl h1 h2 hO
    (vl.gradOf (siftGeo p img) img.pixels (octaveFor vl p img s)) (by rw [if_neg (by rw [h3]; omega)])
  constructor
  · intro d hd
    simp only [descriptorFor] at hd
    split at hd
    · rename_i hdes
      obtain ⟨f', hf', _⟩ := hy hdes
      simp only [Option.some.injEq] at hd
      rw [← hd]
      exact ⟨_, hf'⟩
    · cases hd
  · intro hd
    simp only [descriptorFor] at hd
    split at hd
    · cases hd
    · rename_i hdes
      obtain ⟨f', hf'⟩ := hn (by simpa using hdes)
      exact ⟨_, hf'⟩

/-- C107, given keypoints: a keypoint without a scale or an orientation ends the program. -/
theorem C107_compute_abort (vl : VL P G D) (root : D → D) (p : Params) (st : Option (Filt P G)) (img : Img P) (k : Kp)
    (junk : D) (h : k.scale = none ∨ k.orientation = none) :
    computeDescriptor vl root p st img k junk = .abort := by
  unfold computeDescriptor
  cases hs : k.scale with
  | none => rfl
  | some s =>
    cases ha : k.orientation with
    | none => rfl
    | some a => simp [hs, ha] at h

/-- C107, given keypoints, one at a time: for every two images of the same size and every keypoint that can be
described, an extractor that has described the keypoint in the first image returns for the second image the
descriptor of the first. -/
theorem C107_compute_stale (vl : VL P G D) (root : D → D) (p : Params) (a b : Img P) (k : Kp) (ja jb d : D) (s t : ℚ)
    (hw : a.width = b.width) (hh : a.height = b.height) (hs : k.scale = some s) (ht : k.orientation = some t)
    (hO : siftOctaves p a ≠ 0) (hd : descriptorFor vl p a k.x k.y s t = some d) :
    ∃ st st', computeDescriptor vl root p none a k ja = .ok (converted root p d, st) ∧
      computeDescriptor vl root p st b k jb = .ok (converted root p d, st') := by
  simp only [← toRoot_eq]
  obtain ⟨h1, h2, h3, _, _⟩ := newFilter_spec (G := G) p false a
  have hlo : (siftGeo p a).oMin ≤ octaveFor vl p a s := le_max_right _ _
  have hgeo := siftGeo_eq (p := p) hw hh
  have hoct := siftOctaves_eq (p := p) hw hh
  have hof : octaveFor vl p b s = octaveFor vl p a s := by rw [octaveFor, octaveFor, hgeo, hoct]
  simp only [descriptorFor] at hd
  split at hd
  · rename_i hdes
    simp only [Option.some.injEq] at hd
    obtain ⟨f', hf', g1, g2, g3, g4⟩ := (computeDescriptor_given vl root p none a k ja s t hs ht (newFilter p false a) rfl
      h1 h2 hO (vl.gradOf (siftGeo p a) a.pixels (octaveFor vl p a s)) (by rw [if_neg (by rw [h3]; omega)])).1 hdes
    have hgf : f'.geo = siftGeo p a := g1.trans h1
    have hfilter : filterFor p false (some f') b = f' := by
      rw [filterFor, if_neg]
      rw [hgf]
      simp [siftGeo, hw, hh]
    obtain ⟨f2, hf2, _⟩ := (computeDescriptor_given vl root p (some f') b k jb s t hs ht f' hfilter (hgf.trans hgeo)
      (g2.trans (h2.trans hoct)) (by rw [← hoct]; exact hO)
      (vl.gradOf (siftGeo p a) a.pixels (octaveFor vl p a s)) (by rw [hof, if_pos g3, g4])).1
      (by rw [hof, ← hgeo]; exact hdes)
    refine ⟨some f', some f2, by rw [hf', hd], ?_⟩
    rw [hf2, hof, ← hgeo, hd]
  · cases hd

open DescExample in
/-- The hypotheses of the theorems on given keypoints hold here, and the two images have different descriptors; a
keypoint in the last row has none. -/
example : siftOctaves params (DescExample.img 0 7) ≠ 0 ∧
    descriptorFor vl params (DescExample.img 0 7) 3 4 2 0 = some 7 ∧
    descriptorFor vl params (DescExample.img 0 8) 3 4 2 0 = some 8 ∧
    descriptorFor vl params (DescExample.img 0 8) 3 9 2 0 = none := by
  have h4 : (4 : ℚ) < 9 := by norm_num
  refine ⟨by rw [octaves10]; decide, ?_, ?_, ?_⟩ <;> simp [descriptorFor, vl, DescExample.img, h4]

open DescExample in
/-- C107 is false after a descriptor at a given keypoint: the new filter then has VLFeat's thresholds, and
extracting the features of the same image finds a keypoint that the parameters of the extractor exclude. -/
theorem C107_thresholds_counterexample :
    let p : Params := { params with peak := 2 }
    ∃ st d, computeDescriptor vl id p none (DescExample.img 0 7) ⟨3, 4, some 2, some 0⟩ 0 = .ok (d, st) ∧
    (detectAndExtract vl id (fun _ => false) 0 p st (DescExample.img 0 7) ⟨[], []⟩ >>= fun r => .ok r.1) =
      .ok ⟨[⟨3, 4, some 2, some 0⟩], [7]⟩ ∧
    (detectAndExtract vl id (fun _ => false) 0 p none (DescExample.img 0 7) ⟨[], []⟩ >>= fun r => .ok r.1) =
      .ok ⟨[], []⟩ := by
  have h4 : (4 : ℚ) < 9 := by norm_num
  have hacc : passes 10 0 ⟨3, 4, 2, 1, 1, 5, true⟩ = true := by
    simp only [passes]; norm_num
  have hrej : passes 10 2 ⟨3, 4, 2, 1, 1, 5, true⟩ = false := by
    simp only [passes]; norm_num
  have hrun : computeDescriptor vl id { params with peak := 2 } none (DescExample.img 0 7) ⟨3, 4, some 2, some 0⟩ 0 =
      .ok (7, some ⟨⟨10, 10, 3, -1⟩, 2, 0, 10, 0, some (0, 7), 0, some 7⟩) := by
    simp [computeDescriptor, filterFor, newFilter, Filt.new, params, DescExample.img, octave10, Filt.processFirst,
      Filt.keypointInit, advance, vl, Filt.processNext, Filt.updateGradient, Filt.descriptor, toRoot, h4]
  refine ⟨_, _, hrun, ?_, ?_⟩
  · simp [detectAndExtract, filterFor, params, DescExample.img, Filt.processFirst,
      detectOctaves, Filt.detect, vl, keysLoop, Filt.processNext, hacc, Filt.orientations, Filt.updateGradient,
      anglesLoop, Filt.descriptor, rootAll, h4]
  · simp [detectAndExtract, filterFor, newFilter, Filt.new, params, DescExample.img, octave10, Filt.processFirst,
      detectOctaves, Filt.detect, vl, keysLoop, Filt.processNext, hrej, rootAll]

/-- C107, given keypoints, all at once, the part that holds: a new SIFT extractor keeps all keypoints and returns
one descriptor for each, in their order: the descriptor at the keypoint if VLFeat can describe it, otherwise
what the vector held there or the numbers that happened to be in memory. -/
theorem C107_given_partial (vl : VL P G D) (root : D → D) (p : Params) (img : Img P) (ks : List Kp) (ds : List D)
    (junk : D) (hk : ∀ k ∈ ks, k.scale ≠ none ∧ k.orientation ≠ none) (hO : siftOctaves p img ≠ 0) :
    ∃ r st, computeDescriptors vl root p none img ks ds junk = .ok (r, st) ∧ r.length = ks.length ∧
      ∀ (i : Nat) k s a, ks[i]? = some k → k.scale = some s → k.orientation = some a →
        (∀ d, descriptorFor vl p img k.x k.y s a = some d → r[i]? = some (converted root p d)) ∧
        (descriptorFor vl p img k.x k.y s a = none →
          r[i]? = some (converted root p (match ds[i]? with | some d => d | none => junk))) := by
  simp only [← toRoot_eq]
  obtain ⟨h1, h2, h3, _, _⟩ := newFilter_spec (G := G) p false img
  have hnn := octaves_nonneg p img
  obtain ⟨vks, hi, hlen, hget⟩ := initAll_spec vl p img (newFilter p false img) h1 h2 ks hk
  have hpf : (newFilter p false img : Filt P G).processFirst img.pixels =
      (true, { (newFilter p false img : Filt P G) with
        oCur := (newFilter p false img : Filt P G).geo.oMin, im := some img.pixels }) := by
    rw [Filt.processFirst, if_neg (by rw [h2]; exact hO)]
  obtain ⟨f', hd⟩ := describeOctaves_spec vl img.pixels vks (newFilter p false img : Filt P G).O.toNat
    (resize ks.length junk ds)
    { (newFilter p false img : Filt P G) with
        oCur := (newFilter p false img : Filt P G).geo.oMin, im := some img.pixels } rfl
    (by simp only; rw [h3, h1]; omega) (by rw [resize_length, hlen]) (by rw [h2]; omega)
    (by simp only; rw [h2]; omega)
  simp only [h1, h2] at hd
  have hcomp : computeDescriptors vl root p none img ks ds junk =
      .ok ((List.zipWith (entry vl (siftGeo p img) img.pixels (siftGeo p img).oMin
        ((siftGeo p img).oMin + siftOctaves p img)) vks (resize ks.length junk ds)).map (toRoot root p), some f') := by
    unfold computeDescriptors
    rw [show filterFor p false (none : Option (Filt P G)) img = newFilter p false img from rfl]
    simp only [hi, Outcome.ok_bind, hpf, Bool.true_eq_false, if_false, h1, h2]
    rw [hd, Outcome.ok_bind]
  refine ⟨_, _, hcomp, by simp [hlen, resize_length], ?_⟩
  intro i k s a hki hs ha
  have hlt : i < ks.length := (List.getElem?_eq_some_iff.1 hki).1
  have hv := hget i k s a hki hs ha
  have hr := resize_get ks.length junk ds i hlt
  have hlo : (siftGeo p img).oMin ≤ octaveFor vl p img s := le_max_right _ _
  have hhi : octaveFor vl p img s < (siftGeo p img).oMin + siftOctaves p img := by
    have : octaveFor vl p img s ≤ (siftGeo p img).oMin + siftOctaves p img - 1 :=
      max_le (min_le_right _ _) (by omega)
    omega
  constructor
  · intro d hdd
    simp only [descriptorFor] at hdd
    split at hdd
    · rename_i hdes
      simp only [Option.some.injEq] at hdd
      simp only [List.getElem?_map, List.getElem?_zipWith, hv, hr, Option.map_some, entry]
      rw [if_pos ⟨hlo, hhi, hdes⟩, hdd]
    · cases hdd
  · intro hdd
    simp only [descriptorFor] at hdd
    split at hdd
    · cases hdd
    · rename_i hdes
      simp only [List.getElem?_map, List.getElem?_zipWith, hv, hr, Option.map_some, entry]
      rw [if_neg (fun hcon => hdes hcon.2.2)]
      rfl

/-- C107, given keypoints, all at once: one keypoint without a scale or an orientation ends the program. -/
theorem C107_given_abort (vl : VL P G D) (root : D → D) (p : Params) (st : Option (Filt P G)) (img : Img P)
    (ks : List Kp) (ds : List D) (junk : D) (hk : ∃ k ∈ ks, k.scale = none ∨ k.orientation = none) :
    computeDescriptors vl root p st img ks ds junk = .abort := by
  unfold computeDescriptors
  simp only
  rw [initAll_abort vl _ ks hk]
  rfl

/-- C107, given keypoints, an extractor that has no own way of describing many: for a nonempty list in which some
keypoint can be described it never returns (the first such keypoint is described again and again); it
returns exactly if no keypoint can be described, and then all keypoints are removed. -/
theorem C107_base (compute : Kp → Option D) (ks : List Kp) (ds : List D) :
    (baseComputeDescriptors (fun k => .ok (compute k)) ks ds = .ub ↔ ∃ k ∈ ks, compute k ≠ none) ∧
    ((∀ k ∈ ks, compute k = none) → baseComputeDescriptors (fun k => .ok (compute k)) ks ds = .ok ([], ds)) := by
  induction ks with
  | nil => simp [baseComputeDescriptors]
  | cons k ks ih =>
    rw [baseComputeDescriptors, Outcome.ok_bind]
    cases hc : compute k with
    | none =>
      simp only [List.mem_cons, exists_eq_or_imp, hc, ne_eq, not_true_eq_false, false_or, forall_eq_or_imp, true_and]
      exact ih
    | some d => simp [hc]

/-- A keypoint that can be described, and one that cannot. -/
example : baseComputeDescriptors (fun k => .ok (if k.x < 5 then none else some (1 : Nat)))
    [⟨1, 1, none, none⟩, ⟨7, 1, none, none⟩] [] = .ub := by
  have h1 : (1 : ℚ) < 5 := by norm_num
  have h7 : ¬ (7 : ℚ) < 5 := by norm_num
  simp [baseComputeDescriptors, h1, h7]

/-- C107: describing given keypoints with AKAZE ends the program unless there are none. -/
theorem C107_akaze (ks : List Kp) (ds : List D) :
    baseComputeDescriptors akazeComputeDescriptor ks ds = if ks = [] then .ok ([], ds) else .abort := by
  cases ks <;> simp [baseComputeDescriptors, akazeComputeDescriptor]

/-- C107: the first octave that is used is the lowest one, from the one asked for, in which the longer side of the
image has fewer than 3600 pixels. -/
theorem C107_octave (o : Int) (w h : Nat) :
    o ≤ validFirstOctave o w h ∧ ((max w h : Nat) : ℚ) * 2 ^ (-(validFirstOctave o w h)) < 3600 ∧
    ∀ q, o ≤ q → q < validFirstOctave o w h → 3600 ≤ ((max w h : Nat) : ℚ) * 2 ^ (-q) := by
  obtain ⟨k, h1, h2, h3⟩ := validLoop_spec ((max w h : Nat) * (2 : ℚ) ^ (-1 * o)) o
  have hv : validFirstOctave o w h = o + k := h1
  rw [hv]
  refine ⟨by omega, ?_, ?_⟩
  · rw [zpow_shift, ← mul_div_assoc]
    exact h2
  · intro q hq1 hq2
    obtain ⟨j, rfl⟩ : ∃ j : Nat, q = o + j := ⟨(q - o).toNat, by omega⟩
    rw [zpow_shift, ← mul_div_assoc]
    exact h3 j (by omega)

/-- An image of 4000 by 3000 starts one octave later than asked for, one of 1000 by 800 does not. -/
example : validFirstOctave 0 4000 3000 = 1 ∧ validFirstOctave (-1) 1000 800 = -1 := by
  constructor
  · unfold validFirstOctave
    rw [validLoop, validLoop]
    norm_num
  · unfold validFirstOctave
    rw [validLoop]
    norm_num

/-- C107, creating an extractor: the two types and three densities give an extractor of that type; the more
features are asked for, the lower is the threshold on the strength of a feature. -/
theorem C107_create (k : Kind) (d : Density) (hk : k ≠ .invalid) (hd : d ≠ .invalid) :
    (k = .sift → ∃ p, create k d = .ok (.sift p) ∧ 0 < p.peak ∧
      (d = .dense → p.peak < Params.default.peak) ∧ (d = .normal → p = Params.default) ∧
      (d = .sparse → Params.default.peak < p.peak)) ∧
    (k = .akaze → ∃ t, create k d = .ok (.akaze t) ∧ 0 < t ∧
      (d = .dense → t < 1 / 1000) ∧ (d = .normal → t = 1 / 1000) ∧ (d = .sparse → 1 / 1000 < t)) := by
  constructor
  · rintro rfl
    cases d with
    | invalid => exact absurd rfl hd
    | dense => exact ⟨_, rfl, by norm_num [Params.default], fun _ => by norm_num [Params.default], nofun, nofun⟩
    | normal => exact ⟨_, rfl, by norm_num [Params.default], nofun, fun _ => rfl, nofun⟩
    | sparse => exact ⟨_, rfl, by norm_num [Params.default], nofun, nofun, fun _ => by norm_num [Params.default]⟩
  · rintro rfl
    cases d with
    | invalid => exact absurd rfl hd
    | dense => exact ⟨_, rfl, by norm_num, fun _ => by norm_num, nofun, nofun⟩
    | normal => exact ⟨_, rfl, by norm_num, nofun, fun _ => rfl, nofun⟩
    | sparse => exact ⟨_, rfl, by norm_num, nofun, nofun, fun _ => by norm_num⟩

/-- C107, SIFT densities, the part that holds: an extremum whose edge score is below 14 and that is accepted for
sparse features is accepted for normal ones, and one accepted for normal features is accepted for dense ones. -/
theorem C107_density_partial (c : Cand) (hc : c.score < 14) (ps pn pd : Params)
    (hs : densityToSift .sparse = .ok ps) (hn : densityToSift .normal = .ok pn) (hd : densityToSift .dense = .ok pd) :
    (Accepted ps.edge ps.peak c → Accepted pn.edge pn.peak c) ∧
    (Accepted pn.edge pn.peak c → Accepted pd.edge pd.peak c) := by
  simp only [densityToSift, Outcome.ok.injEq] at hs hn hd
  subst hs hn hd
  simp only [Params.default]
  constructor
  · rintro ⟨h1, h2, h3, h4, h5⟩
    exact ⟨by linarith, by linarith, fun _ => lt_trans hc (by norm_num), h4, h5⟩
  · rintro ⟨h1, h2, h3, h4, h5⟩
    exact ⟨by linarith, by linarith, fun _ => lt_trans hc (by norm_num), h4, h5⟩

/-- Asking for denser SIFT features excludes some: below one, the edge threshold works the other way round, and
doubling it makes the test on edges stricter. An extremum of score 20 is accepted for normal features and not
for dense ones, one of score 40 for sparse ones and not for normal ones. -/
theorem C107_density_counterexample :
    ∃ ps pn pd, densityToSift .sparse = .ok ps ∧ densityToSift .normal = .ok pn ∧ densityToSift .dense = .ok pd ∧
      (Accepted pn.edge pn.peak ⟨0, 0, 1, 1, 1, 20, true⟩ ∧ ¬ Accepted pd.edge pd.peak ⟨0, 0, 1, 1, 1, 20, true⟩) ∧
      (Accepted ps.edge ps.peak ⟨0, 0, 1, 1, 1, 40, true⟩ ∧ ¬ Accepted pn.edge pn.peak ⟨0, 0, 1, 1, 1, 40, true⟩) := by
  refine ⟨_, _, _, rfl, rfl, rfl, ⟨?_, ?_⟩, ⟨?_, ?_⟩⟩
  · refine ⟨?_, ?_, fun _ => ?_, ?_, rfl⟩ <;> norm_num [Params.default]
  · rintro ⟨_, _, h, _⟩
    have := h (by norm_num [Params.default])
    norm_num [Params.default] at this
  · refine ⟨?_, ?_, fun _ => ?_, ?_, rfl⟩ <;> norm_num [Params.default]
  · rintro ⟨_, _, h, _⟩
    have := h (by norm_num [Params.default])
    norm_num [Params.default] at this

/-- An extremum that all three densities accept. -/
example : Accepted (10 / 255 / 2) (12 / 10 / 255 * 3) ⟨0, 0, 1, 1, 1, 5, true⟩ := by
  refine ⟨?_, ?_, fun _ => ?_, ?_, rfl⟩ <;> norm_num

end Theia
