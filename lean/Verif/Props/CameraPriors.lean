import Verif.Proof.CameraPriors

/-!
# C47, C54: camera priors
-/

namespace Theia

open CameraPriors Spec

section
variable {K : Type} [Field K] [LinearOrder K]

/-- C47. The names of camera models convert back. -/
theorem C47_names (t : ModelType) (ht : t ≠ .invalid) : ∃ s, typeToString t = .ok s ∧ stringToType s = .ok t := by
  cases t
  · exact absurd rfl ht
  all_goals exact ⟨_, rfl, rfl⟩

/-- C47. Applying a prior sets every parameter as `Spec.withPrior` says, for every model, prior and old parameters; a
focal length that is not positive stops the program. -/
theorem C47_apply (t : ModelType) (ht : t ≠ .invalid) (p : IntrinsicsPrior K) (l : Lens K) :
    (BadFocal t p → setFromPriors p ⟨t, layout t l⟩ = .abort) ∧
    (¬ BadFocal t p → setFromPriors p ⟨t, layout t l⟩ = .ok ⟨t, layout t (withPrior t p l)⟩) := by
  constructor
  · intro hb
    cases t
    · exact absurd rfl ht
    all_goals
      unfold setFromPriors
      simp only [setPinhole, setPinholeRadialTangential, setFisheye, setFov, setDivision]
      rw [focal_step _ ht, if_pos (by simpa [BadFocal, guessedFocal] using hb)]
      rfl
  · intro hb
    cases t
    · exact absurd rfl ht
    all_goals
      unfold setFromPriors
      simp only [setPinhole, setPinholeRadialTangential, setFisheye, setFov, setDivision]
      rw [focal_step _ ht, if_neg (by simpa [BadFocal, guessedFocal] using hb)]
      simp only [Outcome.ok_bind]
      rw [principal_step _ ht]
      simp only [Outcome.ok_bind]
      rw [aspect_step _ ht]
      simp only [Outcome.ok_bind]
      try rw [skew_step _ (by simp)]
      try simp only [Outcome.ok_bind]
      try rw [radial1_step _ (by simp)]
      try simp only [Outcome.ok_bind]
      try rw [radial2_step _ (by simp)]
      try simp only [Outcome.ok_bind]
      try rw [radial3_step _ (by simp)]
      try simp only [Outcome.ok_bind]
      try rw [radial4_step _ (by simp)]
      try simp only [Outcome.ok_bind]
      try rw [tangential1_step _ (by simp), Outcome.ok_bind]
      try rw [tangential2_step _ (by simp)]
      rfl

/-- C47. Reading the priors of an intrinsics object and applying them to any object of the same model gives an equal
object. The focal length must be positive, as every object set through the interface has it. -/
theorem C47_model_roundtrip (t : ModelType) (ht : t ≠ .invalid) (l l' : Lens K) (hf : 0 < l.focal) :
    ∃ p, priorFrom ⟨t, layout t l⟩ = .ok p ∧ stringToType p.modelType = .ok t ∧
      setFromPriors p ⟨t, layout t l'⟩ = .ok ⟨t, layout t l⟩ := by
  cases t
  · exact absurd rfl ht
  all_goals
    refine ⟨_, rfl, rfl, ?_⟩
    rw [(C47_apply _ ht _ l').2]
    · rfl
    · rintro (⟨_, h⟩ | ⟨h, _⟩)
      · exact absurd hf (not_lt.2 h)
      · cases h

/-- C47. The same for cameras: the image size and the model come back too, whatever model the receiving camera had. -/
theorem C47_camera_roundtrip (t t' : ModelType) (ht : t ≠ .invalid) (l l' : Lens K)
    (hf : 0 < l.focal) (w h w' h' : Int) :
    ∃ p, Camera.priorFrom ⟨⟨t, layout t l⟩, w, h⟩ = .ok p ∧
      Camera.setFromPriors p ⟨⟨t', layout t' l'⟩, w', h'⟩ = .ok ⟨⟨t, layout t l⟩, w, h⟩ := by
  obtain ⟨p, hp, hs, _⟩ := C47_model_roundtrip t ht l l hf
  refine ⟨{ p with width := w, height := h }, ?_, ?_⟩
  · unfold Camera.priorFrom
    rw [hp]
    rfl
  · have hnb : ¬ BadFocal t { p with width := w, height := h } := by
      rintro (⟨_, hb⟩ | ⟨hb, _⟩)
      · cases t
        · exact ht rfl
        all_goals cases hp; exact absurd hf (not_lt.2 hb)
      · cases t
        · exact ht rfl
        all_goals cases hp; cases hb
    have hset : ∀ l'' : Lens K, setFromPriors { p with width := w, height := h } ⟨t, layout t l''⟩ =
        .ok ⟨t, layout t l⟩ := by
      intro l''
      rw [(C47_apply t ht _ l'').2 hnb]
      cases t
      · exact absurd rfl ht
      all_goals cases hp; rfl
    unfold Camera.setFromPriors Camera.modelFor
    simp only [hs, Outcome.ok_bind]
    by_cases htt : t' = t
    · subst htt
      simp only [ne_eq, not_true_eq_false, if_false, Outcome.ok_bind, hset]
    · rw [if_pos htt]
      have hc : ∃ l'' : Lens K, (create t : Outcome (Intrinsics K)) = .ok ⟨t, layout t l''⟩ := by
        cases t
        · exact absurd rfl ht
        · exact ⟨⟨1, 1, 0, 0, 0, 0, 0, 0, 0, 0, 0⟩, rfl⟩
        · exact ⟨⟨1, 1, 0, 0, 0, 0, 0, 0, 0, 0, 0⟩, rfl⟩
        · exact ⟨⟨1, 1, 0, 0, 0, 0, 0, 0, 0, 0, 0⟩, rfl⟩
        · exact ⟨⟨1, 1, 0, 0, 0, 3 / 4, 0, 0, 0, 0, 0⟩, rfl⟩
        · exact ⟨⟨1, 1, 0, 0, 0, 0, 0, 0, 0, 0, 0⟩, rfl⟩
      obtain ⟨l'', hl''⟩ := hc
      simp only [hl'', Outcome.ok_bind, hset]

omit [LinearOrder K] in
/-- C47. A deep copy has the same model, parameters and image size. -/
theorem C47_copy (t : ModelType) (ht : t ≠ .invalid) (l : Lens K) (w h : Int) :
    Camera.deepCopy ⟨⟨t, layout t l⟩, w, h⟩ = .ok ⟨⟨t, layout t l⟩, w, h⟩ := by
  cases t
  · exact absurd rfl ht
  all_goals rfl

omit [Field K] [LinearOrder K] in
/-- C47. Writing a prior to an archive and reading it back gives the same prior and leaves the rest of the archive,
whatever object receives it. -/
theorem C47_archive [Zero K] (p into : IntrinsicsPrior K) (rest : List (Tok K)) (version : Nat) (hv : 4 ≤ version) :
    save p = archive4 p ∧ load version into (save p ++ rest) = .ok (p, rest) := by
  refine ⟨rfl, ?_⟩
  unfold load
  rw [if_pos hv]
  rfl

omit [Field K] [LinearOrder K] in
/-- C47. Archives of older versions restore the fields they hold; the receiving object keeps the others. -/
theorem C47_old_archives [Zero K] (p into : IntrinsicsPrior K) (rest : List (Tok K)) :
    load 3 into (archive3 p ++ rest) = .ok ({ p with principal := into.principal }, rest) ∧
    load 2 into (archive2 p ++ rest) = .ok ({ p with
      modelType := into.modelType, principal := into.principal,
      radial := ⟨p.radial.isSet, (p.radial.value.1, p.radial.value.2.1, into.radial.value.2.2)⟩ }, rest) ∧
    load 1 into (archive1 p ++ rest) = .ok ({ into with
      width := p.width, height := p.height, focal := p.focal, principal := p.principal, aspect := p.aspect,
      skew := p.skew,
      radial := ⟨p.radial.isSet, (p.radial.value.1, p.radial.value.2.1, into.radial.value.2.2)⟩ }, rest) ∧
    load 0 into (archive0 p ++ rest) = .ok ({ into with
      focal := p.focal, principal := p.principal, aspect := p.aspect, skew := p.skew,
      radial := ⟨p.radial.isSet, (p.radial.value.1, p.radial.value.2.1, into.radial.value.2.2)⟩ }, rest) := by
  obtain ⟨w, h, mt, f, ⟨ps, px, py⟩, a, s, ⟨rs, r1, r2, r3, r4⟩, tg, po, ori, la, lo, al⟩ := p
  refine ⟨rfl, rfl, ?_, ?_⟩
  · cases ps <;> cases rs <;> rfl
  · cases ps <;> cases rs <;> rfl

end

/-- C54. For every model and every choice of the kinds of parameters to optimise, the constant parameters are exactly
those whose kind was not chosen, each once. -/
theorem C54_constant_parameters (t : ModelType) (mask : Nat) :
    (constantSubset t mask).Nodup ∧
    (∀ i, i ∈ constantSubset t mask ↔ ∃ k, (kinds t)[i]? = some k ∧ mask.testBit k.bit = false) ∧
    (∀ (K : Type) (l : Lens K), (kinds t).length = (layout t l).length) := by
  rw [constantSubset_eq]
  refine ⟨subsetBits_nodup t _ _ _ _ _ _, ?_, fun K l => by cases t <;> rfl⟩
  have hbit : ∀ k : Kind, bitOf (mask.testBit 0) (mask.testBit 1) (mask.testBit 2) (mask.testBit 3) (mask.testBit 4)
      (mask.testBit 5) k = mask.testBit k.bit := by
    intro k
    cases k <;> rfl
  have hlen : (kinds t).length ≤ 10 := by cases t <;> decide
  intro i
  by_cases hi : i < 10
  · rw [subsetBits_mem t _ _ _ _ _ _ i hi]
    simp only [Option.map_eq_some_iff, hbit]
  · constructor
    · intro h
      exact absurd (subsetBits_lt t _ _ _ _ _ _ i h) hi
    · rintro ⟨k, hk, _⟩
      have := (List.getElem?_eq_some_iff.1 hk).1
      omega

/-- Optimising the focal length and the radial distortion of a fisheye camera. -/
example : constantSubset .fisheye (2 ^ 0 + 2 ^ 4) = [1, 2, 3, 4] := by decide

/-- A prior with a focal length only, applied to a pinhole camera. -/
def focalPrior : IntrinsicsPrior ℚ :=
  { (IntrinsicsPrior.default : IntrinsicsPrior ℚ) with width := 640, height := 480, focal := ⟨true, 700⟩ }

example : setFromPriors focalPrior ⟨.pinhole, layout .pinhole ⟨1, 1, 0, 5, 6, 7, 8, 0, 0, 0, 0⟩⟩ =
    .ok ⟨.pinhole, [700, 1, 0, 320, 240, 7, 8]⟩ := by decide +kernel

example : ¬ BadFocal .pinhole focalPrior := by
  rintro (⟨_, h⟩ | ⟨h, _⟩)
  · exact absurd h (by decide +kernel)
  · exact absurd h (by decide)

/-- A negative image size gives a negative focal length and stops the program. -/
example : BadFocal .fisheye { (IntrinsicsPrior.default : IntrinsicsPrior ℚ) with width := -2, height := -3 } :=
  Or.inr ⟨rfl, ⟨by decide, by decide⟩, by decide +kernel⟩

example : load 4 (IntrinsicsPrior.default : IntrinsicsPrior ℚ) (save focalPrior ++ [.int 9]) =
    .ok (focalPrior, [.int 9]) := by decide +kernel

end Theia
