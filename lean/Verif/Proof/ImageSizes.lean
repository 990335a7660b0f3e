import Verif.Proof.Reconstruction
import Verif.Spec.ImageSizes

/-!
# Strecha datasets and the sizes of images
-/

namespace Theia
namespace ImageSizes

open ProjectionMatrix Reconstruction

variable {F P : Type}

/-! ## Names -/

theorem beforeCamera_append (l : List Char) (h : ¬ ".camera".toList <:+: l) : beforeCamera (l ++ ".camera".toList) = l := by
  induction l with
  | nil => simp [beforeCamera]
  | cons c cs ih =>
    have hcs : ¬ ".camera".toList <:+: cs := fun hi => h (hi.trans (List.suffix_cons c cs).isInfix)
    rw [List.cons_append, beforeCamera, if_neg, ih hcs]
    intro hp
    rw [List.isPrefixOf_iff_prefix, ← List.cons_append] at hp
    rcases Nat.lt_or_ge (c :: cs).length 7 with hlen | hlen
    · obtain ⟨t, ht⟩ := hp
      have hget := congrArg (fun l => l[(c :: cs).length]?) ht
      simp only [List.getElem?_append_right (Nat.le_refl _), Nat.sub_self] at hget
      have hlen' : cs.length < 6 := by rw [List.length_cons] at hlen; omega
      rw [List.getElem?_append_left (by simpa using hlen)] at hget
      simp only [List.length_cons] at hget
      generalize cs.length = n at hget hlen'
      interval_cases n <;> simp at hget
    · exact h (List.prefix_of_prefix_length_le hp (List.prefix_append _ _) (by simpa using hlen)).isInfix

/-! ## Reading a Strecha dataset -/

/-- What reading a list of files does to a scene. -/
structure Post (base : String → Option String) (ofM : M3 ℝ → V3 ℝ) (files : List (String × Option CameraFile))
    (s s' : Scene F P) : Prop where
  inv : s'.recon.Inv
  next : s'.recon.nextViewId = s.recon.nextViewId + files.length
  tracks : s'.recon.tracks = s.recon.tracks
  oldView : ∀ v < s.recon.nextViewId, s'.recon.view v = s.recon.view v ∧ s'.recon.groupOf v = s.recon.groupOf v ∧
    s'.size v = s.size v ∧ s'.orientation v = s.orientation v ∧ s'.position v = s.position v
  newView : ∀ (k : Nat) (path : String) (contents : Option CameraFile), files[k]? = some (path, contents) →
    ∃ c name V, contents = some c ∧ base path = some name ∧ s'.recon.view (s.recon.nextViewId + k) = some V ∧
      V.name = imageName name ∧ V.estimated = true ∧ s'.recon.groupOf (s.recon.nextViewId + k) = some 0 ∧
      s'.size (s.recon.nextViewId + k) = (c.width, c.height) ∧
      s'.orientation (s.recon.nextViewId + k) = ofM c.rotation.transpose ∧ s'.position (s.recon.nextViewId + k) = c.position
  heap : ∀ v V, s'.recon.view v = some V → s'.recon.groupOf v = some 0 → ∀ path c,
    files.getLast? = some (path, some c) → ofCalibration c.calibration = .ok (s'.heap V.intrinsics)
  oldHeap : ∀ v V, s.recon.view v = some V → s.recon.groupOf v ≠ some 0 → s'.heap V.intrinsics = s.heap V.intrinsics

theorem addCamera_post {base : String → Option String} {ofM : M3 ℝ → V3 ℝ} {path : String} {contents : Option CameraFile}
    {s s' : Scene F P} (hi : s.recon.Inv) (h : addCamera base ofM path contents s = .ok s') :
    Post base ofM [(path, contents)] s s' := by
  unfold addCamera at h
  cases contents with
  | none => cases h
  | some c =>
    simp only at h
    cases hb : base path with
    | none => rw [hb] at h; cases h
    | some name =>
      simp only [hb] at h
      obtain ⟨⟨o, r⟩, hadd, h⟩ := Outcome.bind_eq_ok.1 h
      have hinv := inv_addViewToGroup hi hadd
      by_cases hn : imageName name ∈ s.recon.names.keys ∨ imageName name = ""
      · rw [addViewToGroup_fail hn] at hadd
        cases hadd
        cases h
      · simp only [not_or] at hn
        obtain ⟨intr, hp1, hp2, heq⟩ := addViewToGroup_spec hi (g := 0) hn.1 hn.2
        rw [heq] at hadd
        cases hadd
        simp only [Reconstruction.view, AMap.get_insert_self] at h
        obtain ⟨i, hcal, h⟩ := Outcome.bind_eq_ok.1 h
        obtain ⟨r, hset, h⟩ := Outcome.bind_eq_ok.1 h
        have hinv' := inv_setViewEstimated hinv hset
        simp only [setViewEstimated, AMap.get_insert_self] at hset
        cases hset
        cases h
        have hfv : s.recon.views.get s.recon.nextViewId = none :=
          AMap.get_eq_none_iff.2 (fun h => Nat.lt_irrefl _ (hi.freshV _ h))
        refine ⟨hinv', rfl, rfl, ?_, ?_, ?_, ?_⟩
        · intro v hv
          have hne : v ≠ s.recon.nextViewId := Nat.ne_of_lt hv
          simp [Reconstruction.view, groupOf, AMap.get_insert_ne _ _ hne, hne]
        · intro k p o hk
          cases k with
          | zero =>
            cases hk
            exact ⟨c, name, ⟨imageName name, true, intr, .empty⟩, rfl, hb, by simp [Reconstruction.view, AMap.get_insert_self], rfl,
              rfl, by simp [groupOf, AMap.get_insert_self], by simp, by simp, by simp⟩
          | succ k => simp at hk
        · intro v V hV hg p c' hl
          cases hl
          have hVi : V.intrinsics = intr := by
            by_cases hv : v = s.recon.nextViewId
            · subst hv
              simp only [Reconstruction.view, AMap.get_insert_self, Option.some.injEq] at hV
              rw [← hV]
            · simp only [Reconstruction.view, AMap.get_insert_ne _ _ hv] at hV
              simp only [groupOf, AMap.get_insert_ne _ _ hv] at hg
              exact hp1 v V hg hV
          simp only [hVi, if_true]
          exact hcal
        · intro v V hV hg
          have hne : V.intrinsics ≠ intr := by
            intro he
            rcases hp2 with ⟨_, h2⟩ | ⟨w, W, hw, hW, hWi⟩
            · have := hi.ptrFresh v V hV
              omega
            · have hk : v ∈ s.recon.viewGroup.keys := (hi.grpDom v).2 (AMap.mem_keys_iff.2 ⟨V, hV⟩)
              obtain ⟨g, hgv⟩ := AMap.mem_keys_iff.1 hk
              have := (hi.ptr v w V W g 0 hV hW hgv hw).1 (he.trans hWi.symm)
              subst this
              exact hg hgv
          simp only [if_neg hne]

theorem addCameras_post {base : String → Option String} {ofM : M3 ℝ → V3 ℝ} (files : List (String × Option CameraFile)) :
    ∀ (s s' : Scene F P), s.recon.Inv → addCameras base ofM files s = .ok s' → Post base ofM files s s' := by
  induction files with
  | nil =>
    intro s s' hi h
    rw [addCameras] at h
    cases h
    exact ⟨hi, rfl, rfl, fun _ _ => ⟨rfl, rfl, rfl, rfl, rfl⟩, by simp, by simp, fun _ _ _ _ => rfl⟩
  | cons f fs ih =>
    intro s s' hi h
    rw [addCameras] at h
    obtain ⟨s1, h1, h⟩ := Outcome.bind_eq_ok.1 h
    have p1 := addCamera_post hi h1
    have p2 := ih s1 s' p1.inv h
    have hn1 : s1.recon.nextViewId = s.recon.nextViewId + 1 := p1.next
    refine ⟨p2.inv, ?_, p2.tracks.trans p1.tracks, ?_, ?_, ?_, ?_⟩
    · rw [p2.next, hn1, List.length_cons]
      omega
    · intro v hv
      obtain ⟨a1, a2, a3, a4, a5⟩ := p1.oldView v hv
      obtain ⟨b1, b2, b3, b4, b5⟩ := p2.oldView v (by rw [hn1]; exact Nat.lt_succ_of_lt hv)
      exact ⟨b1.trans a1, b2.trans a2, b3.trans a3, b4.trans a4, b5.trans a5⟩
    · intro k path contents hk
      cases k with
      | zero =>
        simp only [List.getElem?_cons_zero, Option.some.injEq] at hk
        subst hk
        obtain ⟨c, name, V, q1, q2, q3, q4, q5, q6, q7, q8, q9⟩ := p1.newView 0 path contents rfl
        obtain ⟨b1, b2, b3, b4, b5⟩ := p2.oldView (s.recon.nextViewId + 0) (by rw [hn1]; exact Nat.lt_succ_self _)
        exact ⟨c, name, V, q1, q2, b1.trans q3, q4, q5, b2.trans q6, b3.trans q7, b4.trans q8, b5.trans q9⟩
      | succ k =>
        simp only [List.getElem?_cons_succ] at hk
        have := p2.newView k path contents hk
        rw [hn1, Nat.add_assoc, Nat.add_comm 1 k] at this
        exact this
    · intro v V hV hg path c hl
      cases hfs : fs with
      | nil =>
        subst hfs
        rw [addCameras] at h
        cases h
        exact p1.heap v V hV hg path c hl
      | cons g gs =>
        rw [hfs, List.getLast?_cons_cons] at hl
        rw [← hfs] at hl
        exact p2.heap v V hV hg path c hl
    · intro v V hV hg
      have hv : v < s.recon.nextViewId := hi.freshV v (AMap.mem_keys_iff.2 ⟨V, hV⟩)
      obtain ⟨a1, a2, _⟩ := p1.oldView v hv
      rw [p2.oldHeap v V (a1.trans hV) (by rw [a2]; exact hg), p1.oldHeap v V hV hg]

/-- Reading cannot fail if the files are complete and the names new. -/
theorem addCameras_ok {base : String → Option String} {ofM : M3 ℝ → V3 ℝ} (files : List (String × Option CameraFile)) :
    ∀ (s : Scene F P), s.recon.Inv →
      (∀ f ∈ files, ∃ c name, f.2 = some c ∧ base f.1 = some name ∧ imageName name ≠ "" ∧ c.calibration.r3.z ≠ 0 ∧
        c.calibration.r1.x ≠ 0 ∧ ∀ v V, s.recon.view v = some V → V.name ≠ imageName name) →
      files.Pairwise (fun f g => ∀ n m, base f.1 = some n → base g.1 = some m → imageName n ≠ imageName m) →
      ∃ s', addCameras base ofM files s = .ok s' := by
  induction files with
  | nil => intro s _ _ _; exact ⟨s, by rw [addCameras]⟩
  | cons f fs ih =>
    intro s hi hf hp
    obtain ⟨c, name, hc, hb, hne, h3, h1, hnew⟩ := hf f List.mem_cons_self
    have hnk : imageName name ∉ s.recon.names.keys := by
      intro hk
      obtain ⟨v, hv⟩ := AMap.mem_keys_iff.1 hk
      obtain ⟨V, hV, hVn⟩ := (hi.name _ _).1 hv
      exact hnew v V hV hVn
    obtain ⟨intr, _, _, heq⟩ := addViewToGroup_spec hi (g := 0) hnk hne
    have hone : ∃ s1, addCamera base ofM f.1 f.2 s = .ok s1 := by
      unfold addCamera
      simp only [hc, hb, heq, Outcome.ok_bind, Reconstruction.view, AMap.get_insert_self, ofCalibration, if_neg h3, if_neg h1,
        setViewEstimated]
      exact ⟨_, rfl⟩
    obtain ⟨s1, hs1⟩ := hone
    have p1 := addCamera_post hi hs1
    obtain ⟨s2, hs2⟩ := ih s1 p1.inv (by
      intro g hg
      obtain ⟨c', n', q1, q2, q3, q4, q5, q6⟩ := hf g (List.mem_cons_of_mem _ hg)
      refine ⟨c', n', q1, q2, q3, q4, q5, ?_⟩
      intro v V hV
      rcases Nat.lt_or_ge v s.recon.nextViewId with hv | hv
      · rw [(p1.oldView v hv).1] at hV
        exact q6 v V hV
      · have hlt : v < s1.recon.nextViewId := p1.inv.freshV v (AMap.mem_keys_iff.2 ⟨V, hV⟩)
        rw [p1.next] at hlt
        have hv' : v = s.recon.nextViewId + 0 := Nat.le_antisymm (Nat.lt_succ_iff.1 hlt) hv
        subst hv'
        obtain ⟨_, nm, W, _, w2, w3, w4, _⟩ := p1.newView 0 f.1 f.2 rfl
        rw [w3] at hV
        cases hV
        rw [w4]
        exact (List.pairwise_cons.1 hp).1 g hg nm n' w2 q2) (List.pairwise_cons.1 hp).2
    exact ⟨s2, by rw [addCameras, hs1]; exact hs2⟩

/-! ## Sizes -/

/-- What the second loop does. -/
structure Sized (load : String → Outcome (Int × Int)) (directory : String) (vs : List ViewId) (s s' : Scene F P) : Prop where
  recon : s'.recon = s.recon
  orientation : s'.orientation = s.orientation
  position : s'.position = s.position
  size : ∀ v ∈ vs, ∃ V image, s.recon.view v = some V ∧ load (withSlash directory ++ V.name) = .ok image ∧ 0 < image.1 ∧
    s'.size v = image
  others : ∀ v, v ∉ vs → s'.size v = s.size v
  heap : ∀ q, (s'.heap q = s.heap q ∧ ∀ v ∈ vs, ∀ V, s.recon.view v = some V → V.intrinsics ≠ q) ∨
    ∃ v ∈ vs, ∃ V image, s.recon.view v = some V ∧ V.intrinsics = q ∧ load (withSlash directory ++ V.name) = .ok image ∧
      s'.heap q = { s.heap q with px := image.1 / 2, py := image.2 / 2 }

theorem setSizes_spec {load : String → Outcome (Int × Int)} {directory : String} (vs : List ViewId) :
    ∀ (s s' : Scene F P), setSizes load directory vs s = .ok s' → Sized load directory vs s s' := by
  induction vs with
  | nil =>
    intro s s' h
    rw [setSizes] at h
    cases h
    exact ⟨rfl, rfl, rfl, by simp, fun _ _ => rfl, fun q => Or.inl ⟨rfl, by simp⟩⟩
  | cons v vs ih =>
    intro s s' h
    rw [setSizes] at h
    cases hV : s.recon.view v with
    | none => rw [hV] at h; cases h
    | some V =>
      simp only [hV] at h
      obtain ⟨image, hl, h⟩ := Outcome.bind_eq_ok.1 h
      split at h
      · cases h
      rename_i hpos
      have hs := ih _ _ h
      have hrec : s'.recon = s.recon := hs.recon
      refine ⟨hrec, hs.orientation, hs.position, ?_, ?_, ?_⟩
      · intro w hw
        by_cases hin : w ∈ vs
        · exact hs.size w hin
        · have hwv : w = v := (List.mem_cons.1 hw).resolve_right hin
          subst hwv
          refine ⟨V, image, hV, hl, by omega, ?_⟩
          rw [hs.others w hin]
          simp
      · intro w hw
        rw [List.mem_cons, not_or] at hw
        rw [hs.others w hw.2]
        simp [hw.1]
      · intro q
        rcases hs.heap q with ⟨h1, h2⟩ | ⟨w, hw, W, im, w1, w2, w3, w4⟩
        · by_cases hq : q = V.intrinsics
          · refine Or.inr ⟨v, List.mem_cons_self, V, image, hV, hq.symm, hl, ?_⟩
            rw [h1]
            simp only [if_pos hq]
          · refine Or.inl ⟨by rw [h1]; simp only [if_neg hq], ?_⟩
            intro w hw W hW
            rcases List.mem_cons.1 hw with rfl | hw
            · rw [hV] at hW
              cases hW
              exact fun h => hq h.symm
            · exact h2 w hw W hW
        · refine Or.inr ⟨w, List.mem_cons_of_mem _ hw, W, im, w1, w2, w3, ?_⟩
          rw [w4]
          simp only
          split <;> rfl

theorem setSizes_ok {load : String → Outcome (Int × Int)} {directory : String} (vs : List ViewId) :
    ∀ (s : Scene F P), (∀ v ∈ vs, ∃ V image, s.recon.view v = some V ∧ load (withSlash directory ++ V.name) = .ok image ∧
      0 < image.1) → ∃ s', setSizes load directory vs s = .ok s' := by
  induction vs with
  | nil => intro s _; exact ⟨s, by rw [setSizes]⟩
  | cons v vs ih =>
    intro s h
    obtain ⟨V, image, hV, hl, hpos⟩ := h v List.mem_cons_self
    rw [setSizes]
    simp only [hV, hl, Outcome.ok_bind, if_neg (Int.not_le.2 hpos)]
    exact ih _ (fun w hw => h w (List.mem_cons_of_mem _ hw))

theorem allExist_spec {exists_ : String → Bool} {directory : String} {r : Reconstruction F P} (vs : List ViewId)
    (hv : ∀ v ∈ vs, ∃ V, r.view v = some V) :
    ∃ b, allExist exists_ directory r vs = .ok b ∧
      (b = true ↔ ∀ v ∈ vs, ∀ V, r.view v = some V → exists_ (withSlash directory ++ V.name) = true) := by
  induction vs with
  | nil => exact ⟨true, by rw [allExist], by simp⟩
  | cons v vs ih =>
    obtain ⟨V, hV⟩ := hv v List.mem_cons_self
    obtain ⟨b, hb, hiff⟩ := ih (fun w hw => hv w (List.mem_cons_of_mem _ hw))
    rw [allExist]
    simp only [hV]
    by_cases he : exists_ (withSlash directory ++ V.name) = true
    · rw [if_pos he]
      refine ⟨b, hb, hiff.trans ⟨fun h w hw W hW => ?_, fun h w hw => h w (List.mem_cons_of_mem _ hw)⟩⟩
      rcases List.mem_cons.1 hw with rfl | hw
      · rw [hV] at hW; cases hW; exact he
      · exact h w hw W hW
    · rw [if_neg he]
      exact ⟨false, rfl, ⟨fun h => (by cases h), fun h => absurd (h v List.mem_cons_self V hV) he⟩⟩

theorem imagePath_iff {directory name path : String} :
    Spec.ImageSizes.ImagePath directory name path ↔ path = withSlash directory ++ name := by
  unfold Spec.ImageSizes.ImagePath withSlash
  by_cases h : directory.toList.getLast? = some '/'
  · simp [h]
  · simp [h]

end ImageSizes
end Theia
