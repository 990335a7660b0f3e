import Verif.Model.IntrinsicsGroups
import Verif.Proof.CameraPriors
import Verif.Proof.Reconstruction

/-!
# Helper lemmas on setting intrinsics by group
-/

namespace Theia
namespace IntrinsicsGroups

open CameraPriors

variable {F P K : Type}

/-- Nothing but pointers, contents and sizes differs. -/
structure Frame (s s' : Scene F P K) : Prop where
  groups : s'.recon.groups = s.recon.groups
  viewGroup : s'.recon.viewGroup = s.recon.viewGroup
  prior : s'.prior = s.prior
  tracks : s'.recon.tracks = s.recon.tracks
  names : s'.recon.names = s.recon.names
  next : s'.recon.nextViewId = s.recon.nextViewId ∧ s'.recon.nextTrackId = s.recon.nextTrackId ∧
    s'.recon.nextGroupId = s.recon.nextGroupId
  view : ∀ v, (s'.recon.view v).map (fun V => { V with intrinsics := 0 }) =
    (s.recon.view v).map (fun V => { V with intrinsics := 0 })

theorem Frame.refl (s : Scene F P K) : Frame s s := ⟨rfl, rfl, rfl, rfl, rfl, ⟨rfl, rfl, rfl⟩, fun _ => rfl⟩

theorem Frame.trans {a b c : Scene F P K} (h : Frame a b) (h' : Frame b c) : Frame a c :=
  ⟨h'.groups.trans h.groups, h'.viewGroup.trans h.viewGroup, h'.prior.trans h.prior, h'.tracks.trans h.tracks,
    h'.names.trans h.names, ⟨h'.next.1.trans h.next.1, h'.next.2.1.trans h.next.2.1, h'.next.2.2.trans h.next.2.2⟩,
    fun v => (h'.view v).trans (h.view v)⟩

theorem Frame.isSome {s s' : Scene F P K} (h : Frame s s') (v : ViewId) :
    (∃ V, s'.recon.view v = some V) ↔ ∃ V, s.recon.view v = some V := by
  have := h.view v
  cases h1 : s'.recon.view v <;> cases h2 : s.recon.view v <;> simp_all

theorem Frame.estimated {s s' : Scene F P K} (h : Frame s s') {v : ViewId} {V V' : View F}
    (hV : s.recon.view v = some V) (hV' : s'.recon.view v = some V') : V'.estimated = V.estimated := by
  have := h.view v
  rw [hV, hV'] at this
  simp only [Option.map_some, Option.some.injEq, View.mk.injEq] at this
  exact this.2.1

theorem view_point (s : Scene F P K) (v w : ViewId) (q : Nat) (size : Int × Int) :
    (s.point v q size).recon.view w =
      if w = v then (s.recon.view w).map (fun V => { V with intrinsics := q }) else s.recon.view w := by
  unfold Scene.point Reconstruction.view
  rw [AMap.get_modify]

theorem frame_point (s : Scene F P K) (v : ViewId) (q : Nat) (size : Int × Int) : Frame s (s.point v q size) := by
  refine ⟨rfl, rfl, rfl, rfl, rfl, ⟨rfl, rfl, rfl⟩, ?_⟩
  intro w
  rw [view_point]
  by_cases h : w = v
  · rw [if_pos h]
    cases s.recon.view w <;> rfl
  · rw [if_neg h]

theorem representative_spec (r : Reconstruction F P) (vs : List ViewId) (acc : Option ViewId)
    (hacc : ∀ a, acc = some a → ∃ V, r.view a = some V) :
    (∀ rep, representative r vs acc = some rep → (rep ∈ vs ∨ acc = some rep) ∧ ∃ V, r.view rep = some V ∧
      ((∃ w ∈ vs, ∃ W, r.view w = some W ∧ W.estimated = true) → V.estimated = true)) ∧
    (representative r vs acc = none → acc = none ∧ ∀ v ∈ vs, r.view v = none) := by
  induction vs generalizing acc with
  | nil =>
    refine ⟨?_, ?_⟩
    · intro rep h
      obtain ⟨V, hV⟩ := hacc rep h
      refine ⟨Or.inr h, V, hV, ?_⟩
      rintro ⟨w, hw, _⟩
      cases hw
    · intro h
      exact ⟨h, by simp⟩
  | cons v vs ih =>
    cases hv : r.view v with
    | none =>
      have := ih acc hacc
      unfold representative
      simp only [hv]
      refine ⟨?_, ?_⟩
      · intro rep h
        obtain ⟨h1, V, hV, h2⟩ := this.1 rep h
        refine ⟨h1.imp (fun h => List.mem_cons_of_mem _ h) id, V, hV, ?_⟩
        rintro ⟨w, hw, W, hW, he⟩
        rcases List.mem_cons.1 hw with rfl | hw
        · rw [hv] at hW
          cases hW
        · exact h2 ⟨w, hw, W, hW, he⟩
      · intro h
        obtain ⟨h1, h2⟩ := this.2 h
        refine ⟨h1, ?_⟩
        intro w hw
        rcases List.mem_cons.1 hw with rfl | hw
        · exact hv
        · exact h2 w hw
    | some V =>
      unfold representative
      simp only [hv]
      cases he : V.estimated with
      | true =>
        simp only [if_true]
        refine ⟨?_, by intro h; cases h⟩
        rintro rep h
        obtain rfl : v = rep := by simpa using h
        exact ⟨Or.inl (by simp), V, hv, fun _ => he⟩
      | false =>
        simp only [Bool.false_eq_true, if_false]
        have := ih (some v) (by rintro a h; cases h; exact ⟨V, hv⟩)
        refine ⟨?_, ?_⟩
        · intro rep h
          obtain ⟨h1, V', hV', h2⟩ := this.1 rep h
          refine ⟨Or.inl ?_, V', hV', ?_⟩
          · rcases h1 with h1 | h1
            · exact List.mem_cons_of_mem _ h1
            · cases h1
              simp
          · rintro ⟨w, hw, W, hW, hwe⟩
            rcases List.mem_cons.1 hw with rfl | hw
            · rw [hv] at hW
              cases hW
              rw [he] at hwe
              cases hwe
            · exact h2 ⟨w, hw, W, hW, hwe⟩
        · intro h
          exact absurd (this.2 h).1 (by simp)

theorem shareLoop_spec (rep : ViewId) (q : Nat) (size : Int × Int) (vs : List ViewId) (s : Scene F P K) :
    Frame s (shareLoop rep q size vs s) ∧ (shareLoop rep q size vs s).heap = s.heap ∧
    (shareLoop rep q size vs s).recon.nextIntrinsics = s.recon.nextIntrinsics ∧
    (∀ v, (shareLoop rep q size vs s).recon.view v =
      if v ∈ vs ∧ v ≠ rep then (s.recon.view v).map (fun V => { V with intrinsics := q }) else s.recon.view v) ∧
    (∀ v V, s.recon.view v = some V → (shareLoop rep q size vs s).size v = if v ∈ vs ∧ v ≠ rep then size else s.size v) := by
  induction vs generalizing s with
  | nil =>
    refine ⟨Frame.refl s, rfl, rfl, ?_, ?_⟩
    · intro v
      simp [shareLoop]
    · intro v V _
      simp [shareLoop]
  | cons w vs ih =>
    unfold shareLoop
    cases hw : s.recon.view w with
    | none =>
      simp only
      obtain ⟨h1, h2, h3, h4, h5⟩ := ih s
      refine ⟨h1, h2, h3, ?_, ?_⟩
      · intro v
        rw [h4]
        by_cases hv : v = w
        · subst hv
          simp [hw]
        · simp [hv]
      · intro v V hV
        rw [h5 v V hV]
        by_cases hv : v = w
        · subst hv
          rw [hw] at hV
          cases hV
        · simp [hv]
    | some W =>
      simp only
      by_cases hr : rep = w
      · rw [if_pos hr]
        obtain ⟨h1, h2, h3, h4, h5⟩ := ih s
        refine ⟨h1, h2, h3, ?_, ?_⟩
        · intro v
          rw [h4]
          by_cases hv : v = w
          · subst hv
            simp [hr]
          · simp [hv]
        · intro v V hV
          rw [h5 v V hV]
          by_cases hv : v = w
          · subst hv
            simp [hr]
          · simp [hv]
      · rw [if_neg hr]
        obtain ⟨h1, h2, h3, h4, h5⟩ := ih (s.point w q size)
        refine ⟨(frame_point s w q size).trans h1, h2, h3, ?_, ?_⟩
        · intro v
          rw [h4, view_point]
          by_cases hv : v = w
          · subst hv
            have hne : v ≠ rep := fun h => hr h.symm
            simp only [if_true, hne, ne_eq, not_false_eq_true, and_true, List.mem_cons, true_or]
            split
            · rw [Option.map_map]
              rfl
            · rfl
          · simp [hv]
        · intro v V hV
          have hV' : ∃ V', (s.point w q size).recon.view v = some V' := ((frame_point s w q size).isSome v).2 ⟨V, hV⟩
          obtain ⟨V', hV'⟩ := hV'
          rw [h5 v V' hV']
          by_cases hv : v = w
          · subst hv
            have hne : v ≠ rep := fun h => hr h.symm
            simp [hne, Scene.point]
          · simp [hv, Scene.point]

/-- The invariant of the loop over groups. -/
structure Good (s : Scene F P K) : Prop where
  mem : ∀ v g, v ∈ s.recon.viewsInGroup g ↔ s.recon.groupOf v = some g
  dom : ∀ v, (∃ g, s.recon.groupOf v = some g) ↔ ∃ V, s.recon.view v = some V
  sep : ∀ v w V W, s.recon.view v = some V → s.recon.view w = some W →
    (V.intrinsics = W.intrinsics ↔ s.recon.groupOf v = s.recon.groupOf w)
  fresh : ∀ v V, s.recon.view v = some V → V.intrinsics < s.recon.nextIntrinsics
  heap : ∀ i, i < s.recon.nextIntrinsics → ∃ m, s.heap i = some m

theorem groupOf_frame {s s' : Scene F P K} (h : Frame s s') (v : ViewId) : s'.recon.groupOf v = s.recon.groupOf v := by
  unfold Reconstruction.groupOf
  rw [h.viewGroup]

theorem viewsInGroup_frame {s s' : Scene F P K} (h : Frame s s') (g : GroupId) :
    s'.recon.viewsInGroup g = s.recon.viewsInGroup g := by
  unfold Reconstruction.viewsInGroup
  rw [h.groups]

section
variable [Field K] [LinearOrder K]

/-- What setting one camera does to the scene. -/
theorem setCamera_spec {s : Scene F P K} (hs : Good s) {v : ViewId} {V : View F} (hV : s.recon.view v = some V) :
    (∀ q s1, setCamera s v V = .ok (q, s1) →
      ∃ c c', s.camera v = some c ∧ Camera.setFromPriors (s.prior v) c = .ok c' ∧
        Frame s s1 ∧ s1.heap q = some c'.intrinsics ∧ s1.size v = (c'.width, c'.height) ∧
        (q = V.intrinsics ∧ s1.recon.nextIntrinsics = s.recon.nextIntrinsics ∨
          q = s.recon.nextIntrinsics ∧ s1.recon.nextIntrinsics = s.recon.nextIntrinsics + 1) ∧
        (∀ i, i ≠ q → s1.heap i = s.heap i) ∧
        (∀ w, s1.recon.view w = if w = v then some { V with intrinsics := q } else s.recon.view w) ∧
        (∀ w, w ≠ v → s1.size w = s.size w)) ∧
    (∀ c c', s.camera v = some c → Camera.setFromPriors (s.prior v) c = .ok c' → ∃ q s1, setCamera s v V = .ok (q, s1)) := by
  obtain ⟨m, hm⟩ := hs.heap _ (hs.fresh v V hV)
  have hcam : s.camera v = some ⟨m, (s.size v).1, (s.size v).2⟩ := by
    unfold Scene.camera
    rw [hV]
    simp only [hm]
  constructor
  · intro q s1 h
    refine ⟨⟨m, (s.size v).1, (s.size v).2⟩, ?_⟩
    unfold setCamera at h
    simp only [hm] at h
    obtain ⟨t, ht, h⟩ := Outcome.bind_eq_ok.1 h
    have hcset : Camera.setFromPriors (s.prior v) ⟨m, (s.size v).1, (s.size v).2⟩ =
        (if m.type ≠ t then create t else .ok m) >>= fun m => setFromPriors (s.prior v) m >>= fun m =>
          .ok ⟨m, (s.prior v).width, (s.prior v).height⟩ := by
      unfold Camera.setFromPriors Camera.modelFor
      rw [ht]
      rfl
    by_cases htt : m.type ≠ t
    · rw [if_pos htt] at h hcset
      obtain ⟨m1, hm1, h⟩ := Outcome.bind_eq_ok.1 h
      obtain ⟨m2, hm2, h⟩ := Outcome.bind_eq_ok.1 h
      simp only [Outcome.ok.injEq, Prod.mk.injEq] at h
      obtain ⟨rfl, rfl⟩ := h
      refine ⟨⟨m2, (s.prior v).width, (s.prior v).height⟩, hcam, ?_, ?_, ?_, ?_, Or.inr ⟨rfl, rfl⟩, ?_, ?_, ?_⟩
      · rw [hcset, hm1]
        simp only [Outcome.ok_bind, hm2]
      · refine Frame.trans ?_ (frame_point _ _ _ _)
        exact ⟨rfl, rfl, rfl, rfl, rfl, ⟨rfl, rfl, rfl⟩, fun _ => rfl⟩
      · simp [Scene.point]
      · simp [Scene.point]
      · intro i hi
        simp [Scene.point, hi]
      · intro w
        rw [view_point]
        by_cases hw : w = v
        · subst hw
          rw [if_pos rfl, if_pos rfl]
          show (s.recon.view w).map _ = _
          rw [hV]
          rfl
        · rw [if_neg hw, if_neg hw]
          rfl
      · intro w hw
        simp [Scene.point, hw]
    · rw [if_neg htt] at h hcset
      obtain ⟨m2, hm2, h⟩ := Outcome.bind_eq_ok.1 h
      simp only [Outcome.ok.injEq, Prod.mk.injEq] at h
      obtain ⟨rfl, rfl⟩ := h
      refine ⟨⟨m2, (s.prior v).width, (s.prior v).height⟩, hcam, ?_, ?_, ?_, ?_, Or.inl ⟨rfl, rfl⟩, ?_, ?_, ?_⟩
      · rw [hcset]
        simp only [Outcome.ok_bind, hm2]
      · refine Frame.trans ?_ (frame_point _ _ _ _)
        exact ⟨rfl, rfl, rfl, rfl, rfl, ⟨rfl, rfl, rfl⟩, fun _ => rfl⟩
      · simp [Scene.point]
      · simp [Scene.point]
      · intro i hi
        simp [Scene.point, hi]
      · intro w
        rw [view_point]
        by_cases hw : w = v
        · subst hw
          rw [if_pos rfl, if_pos rfl]
          show (s.recon.view w).map _ = _
          rw [hV]
          rfl
        · rw [if_neg hw, if_neg hw]
      · intro w hw
        simp [Scene.point, hw]
  · intro c c' hc hset
    rw [hcam] at hc
    cases hc
    unfold Camera.setFromPriors at hset
    obtain ⟨t, ht, hset⟩ := Outcome.bind_eq_ok.1 hset
    obtain ⟨m1, hm1, hset⟩ := Outcome.bind_eq_ok.1 hset
    obtain ⟨m2, hm2, hset⟩ := Outcome.bind_eq_ok.1 hset
    unfold Camera.modelFor at hm1
    unfold setCamera
    simp only [hm, ht, Outcome.ok_bind]
    by_cases htt : m.type ≠ t
    · rw [if_pos htt] at hm1 ⊢
      rw [hm1]
      simp only [Outcome.ok_bind, hm2]
      exact ⟨_, _, rfl⟩
    · rw [if_neg htt] at hm1 ⊢
      cases hm1
      rw [hm2]
      exact ⟨_, _, rfl⟩

/-- What one group step does. -/
theorem setGroup_spec {s : Scene F P K} (hs : Good s) {g : GroupId} {vs : List ViewId}
    (hvs : ∀ v, v ∈ vs ↔ v ∈ s.recon.viewsInGroup g) :
    (∀ s', setGroup vs s = .ok s' →
      Good s' ∧ Frame s s' ∧
      (∃ rep V c c', rep ∈ s.recon.viewsInGroup g ∧ s.recon.view rep = some V ∧
        ((∃ w ∈ s.recon.viewsInGroup g, ∃ W, s.recon.view w = some W ∧ W.estimated = true) → V.estimated = true) ∧
        s.camera rep = some c ∧ Camera.setFromPriors (s.prior rep) c = .ok c' ∧
        ∀ v ∈ s.recon.viewsInGroup g, s'.camera v = some c') ∧
      (∀ v, v ∉ s.recon.viewsInGroup g → s'.camera v = s.camera v)) ∧
    ((∃ v, v ∈ s.recon.viewsInGroup g) → (∀ v c, v ∈ s.recon.viewsInGroup g → s.camera v = some c →
      ∃ c', Camera.setFromPriors (s.prior v) c = .ok c') → ∃ s', setGroup vs s = .ok s') := by
  have hrs := representative_spec s.recon vs none (by intro a h; cases h)
  constructor
  · intro s' h
    unfold setGroup at h
    cases hrep : representative s.recon vs none with
    | none => rw [hrep] at h; cases h
    | some rep =>
      obtain ⟨hrmem, V, hV, hest⟩ := hrs.1 rep hrep
      have hrmem : rep ∈ vs := by
        rcases hrmem with h | h
        · exact h
        · cases h
      simp only [hrep, hV] at h
      obtain ⟨⟨q, s1⟩, h1, h⟩ := Outcome.bind_eq_ok.1 h
      simp only [Outcome.ok.injEq] at h
      obtain ⟨c, c', hc, hset, hf1, hq, hsz, hnext, hheap, hview, hsize⟩ := (setCamera_spec hs hV).1 q s1 h1
      obtain ⟨hf2, g2, g3, g4, g5⟩ := shareLoop_spec rep q (s1.size rep) vs s1
      rw [h] at hf2 g2 g3 g4 g5
      have hf : Frame s s' := hf1.trans hf2
      have hgv : s.recon.groupOf rep = some g := (hs.mem rep g).1 ((hvs rep).1 hrmem)
      -- the pointer of every view afterwards
      have hptr : ∀ v W, s'.recon.view v = some W →
          ∃ W0, s.recon.view v = some W0 ∧ W.intrinsics = if v ∈ vs then q else W0.intrinsics := by
        intro v W hW
        obtain ⟨W0, hW0⟩ := (hf.isSome v).1 ⟨W, hW⟩
        refine ⟨W0, hW0, ?_⟩
        rw [g4, hview] at hW
        by_cases hv : v = rep
        · subst hv
          rw [if_neg (by simp), if_pos rfl] at hW
          cases hW
          rw [if_pos hrmem]
        · rw [if_neg hv, hW0] at hW
          by_cases hv2 : v ∈ vs
          · rw [if_pos ⟨hv2, hv⟩] at hW
            cases hW
            rw [if_pos hv2]
          · rw [if_neg (fun h => hv2 h.1)] at hW
            cases hW
            rw [if_neg hv2]
      have hmemg : ∀ v, v ∈ vs ↔ s.recon.groupOf v = some g := fun v => (hvs v).trans (hs.mem v g)
      have hqfresh : q < s'.recon.nextIntrinsics ∧ s.recon.nextIntrinsics ≤ s'.recon.nextIntrinsics := by
        rw [g3]
        rcases hnext with ⟨h1, h2⟩ | ⟨h1, h2⟩
        · rw [h2, h1]
          exact ⟨hs.fresh rep V hV, le_refl _⟩
        · rw [h2, h1]
          omega
      -- views outside the group do not point to `q`
      have hout : ∀ v W, s.recon.view v = some W → v ∉ vs → W.intrinsics ≠ q := by
        intro v W hW hv hcon
        rcases hnext with ⟨h1, h2⟩ | ⟨h1, h2⟩
        · rw [h1] at hcon
          rw [hs.sep v rep W V hW hV, hgv] at hcon
          exact hv ((hmemg v).2 hcon)
        · have := hs.fresh v W hW
          omega
      have hheap' : ∀ i, i ≠ q → s'.heap i = s.heap i := by
        intro i hi
        rw [g2, hheap i hi]
      refine ⟨?_, hf, ?_, ?_⟩
      · constructor
        · intro v g'
          rw [viewsInGroup_frame hf, groupOf_frame hf]
          exact hs.mem v g'
        · intro v
          rw [groupOf_frame hf, hf.isSome v]
          exact hs.dom v
        · intro v w W W' hW hW'
          obtain ⟨V0, hV0, hp0⟩ := hptr v W hW
          obtain ⟨V1, hV1, hp1⟩ := hptr w W' hW'
          rw [hp0, hp1, groupOf_frame hf, groupOf_frame hf]
          by_cases hv : v ∈ vs
          · by_cases hw : w ∈ vs
            · rw [if_pos hv, if_pos hw, (hmemg v).1 hv, (hmemg w).1 hw]
              simp
            · rw [if_pos hv, if_neg hw]
              constructor
              · intro hcon
                exact absurd hcon.symm (hout w V1 hV1 hw)
              · intro hcon
                rw [(hmemg v).1 hv] at hcon
                exact absurd ((hmemg w).2 hcon.symm) hw
          · by_cases hw : w ∈ vs
            · rw [if_neg hv, if_pos hw]
              constructor
              · intro hcon
                exact absurd hcon (hout v V0 hV0 hv)
              · intro hcon
                rw [(hmemg w).1 hw] at hcon
                exact absurd ((hmemg v).2 hcon) hv
            · rw [if_neg hv, if_neg hw]
              exact hs.sep v w V0 V1 hV0 hV1
        · intro v W hW
          obtain ⟨V0, hV0, hp0⟩ := hptr v W hW
          rw [hp0]
          by_cases hv : v ∈ vs
          · rw [if_pos hv]
            exact hqfresh.1
          · rw [if_neg hv]
            exact lt_of_lt_of_le (hs.fresh v V0 hV0) hqfresh.2
        · intro i hi
          by_cases hiq : i = q
          · subst hiq
            rw [g2]
            exact ⟨_, hq⟩
          · rw [hheap' i hiq]
            apply hs.heap
            rw [g3] at hi
            rcases hnext with ⟨h1, h2⟩ | ⟨h1, h2⟩
            · omega
            · omega
      · refine ⟨rep, V, c, c', (hvs rep).1 hrmem, hV, ?_, hc, hset, ?_⟩
        · rintro ⟨w, hw, hW⟩
          exact hest ⟨w, (hvs w).2 hw, hW⟩
        · intro v hv
          have hv' := (hvs v).2 hv
          obtain ⟨V0, hV0⟩ := (hs.dom v).1 ⟨g, (hs.mem v g).1 hv⟩
          obtain ⟨W, hW⟩ := (hf.isSome v).2 ⟨V0, hV0⟩
          obtain ⟨_, _, hp⟩ := hptr v W hW
          rw [if_pos hv'] at hp
          have hsize' : s'.size v = (c'.width, c'.height) := by
            obtain ⟨V1, hV1⟩ := (hf1.isSome v).2 ⟨V0, hV0⟩
            rw [g5 v V1 hV1]
            by_cases hvr : v = rep
            · subst hvr
              rw [if_neg (by simp), hsz]
            · rw [if_pos ⟨hv', hvr⟩, hsz]
          unfold Scene.camera
          rw [hW]
          simp only [hp, g2, hq, hsize']
      · intro v hv
        have hv' : v ∉ vs := fun h => hv ((hvs v).1 h)
        have hvr : v ≠ rep := fun h => hv' (h ▸ hrmem)
        have hview' : s'.recon.view v = s.recon.view v := by
          rw [g4, if_neg (fun h => hv' h.1), hview, if_neg hvr]
        unfold Scene.camera
        rw [hview']
        cases hvv : s.recon.view v with
        | none => rfl
        | some W =>
          simp only
          rw [hheap' _ (hout v W hvv hv')]
          obtain ⟨V1, hV1⟩ := (hf1.isSome v).2 ⟨W, hvv⟩
          rw [g5 v V1 hV1, if_neg (fun h => hv' h.1), hsize v hvr]
  · rintro ⟨v0, hv0⟩ hgood
    unfold setGroup
    cases hrep : representative s.recon vs none with
    | none =>
      exfalso
      obtain ⟨V0, hV0⟩ := (hs.dom v0).1 ⟨g, (hs.mem v0 g).1 hv0⟩
      have := (hrs.2 hrep).2 v0 ((hvs v0).2 hv0)
      rw [hV0] at this
      cases this
    | some rep =>
      obtain ⟨hrmem, V, hV, _⟩ := hrs.1 rep hrep
      have hrmem : rep ∈ vs := by
        rcases hrmem with h | h
        · exact h
        · cases h
      simp only [hV]
      obtain ⟨m, hm⟩ := hs.heap _ (hs.fresh rep V hV)
      have hcam : s.camera rep = some ⟨m, (s.size rep).1, (s.size rep).2⟩ := by
        unfold Scene.camera
        rw [hV]
        simp only [hm]
      obtain ⟨c', hc'⟩ := hgood rep _ ((hvs rep).1 hrmem) hcam
      obtain ⟨q, s1, h⟩ := (setCamera_spec hs hV).2 _ _ hcam hc'
      rw [h]
      exact ⟨_, rfl⟩

theorem setGroups_spec {order : List Nat → List Nat} (horder : ∀ l, (order l).Perm l) (gs : List GroupId)
    (hnd : gs.Nodup) {s : Scene F P K} (hs : Good s) :
    (∀ s', setGroups order gs s = .ok s' →
      Good s' ∧ Frame s s' ∧
      (∀ g ∈ gs, ∃ rep V c c', rep ∈ s.recon.viewsInGroup g ∧ s.recon.view rep = some V ∧
        ((∃ w ∈ s.recon.viewsInGroup g, ∃ W, s.recon.view w = some W ∧ W.estimated = true) → V.estimated = true) ∧
        s.camera rep = some c ∧ Camera.setFromPriors (s.prior rep) c = .ok c' ∧
        ∀ v ∈ s.recon.viewsInGroup g, s'.camera v = some c') ∧
      (∀ v, (∀ g ∈ gs, v ∉ s.recon.viewsInGroup g) → s'.camera v = s.camera v)) ∧
    ((∀ g ∈ gs, ∃ v, v ∈ s.recon.viewsInGroup g) →
      (∀ g ∈ gs, ∀ v ∈ s.recon.viewsInGroup g, ∀ c, s.camera v = some c →
        ∃ c', Camera.setFromPriors (s.prior v) c = .ok c') → ∃ s', setGroups order gs s = .ok s') := by
  induction gs generalizing s with
  | nil =>
    refine ⟨?_, ?_⟩
    · intro s' h
      cases h
      exact ⟨hs, Frame.refl _, by simp, fun v _ => rfl⟩
    · intro _ _
      exact ⟨s, rfl⟩
  | cons g gs ih =>
    have hvs : ∀ v, v ∈ order (s.recon.viewsInGroup g) ↔ v ∈ s.recon.viewsInGroup g := fun v => (horder _).mem_iff
    obtain ⟨hg, hnd'⟩ := List.nodup_cons.1 hnd
    -- membership in two groups is impossible
    have hdisj : ∀ v, v ∈ s.recon.viewsInGroup g → ∀ g' ∈ gs, v ∉ s.recon.viewsInGroup g' := by
      intro v hv g' hg' hv'
      rw [hs.mem] at hv hv'
      rw [hv] at hv'
      cases hv'
      exact hg hg'
    constructor
    · intro s' h
      unfold setGroups at h
      obtain ⟨s1, h1, h⟩ := Outcome.bind_eq_ok.1 h
      obtain ⟨hs1, hf1, ⟨rep, V, c, c', k1, k2, k3, k4, k5, k6⟩, k7⟩ := (setGroup_spec hs hvs).1 s1 h1
      obtain ⟨hs', hf', hall, hout⟩ := (ih hnd' hs1).1 s' h
      refine ⟨hs', hf1.trans hf', ?_, ?_⟩
      · intro g' hg'
        rcases List.mem_cons.1 hg' with rfl | hg'
        · refine ⟨rep, V, c, c', k1, k2, k3, k4, k5, ?_⟩
          intro v hv
          rw [hout v (by intro g'' hg''; rw [viewsInGroup_frame hf1]; exact hdisj v hv g'' hg'')]
          exact k6 v hv
        · obtain ⟨rep', V', d, d', l1, l2, l3, l4, l5, l6⟩ := hall g' hg'
          rw [viewsInGroup_frame hf1] at l1 l3 l6
          have hnot : rep' ∉ s.recon.viewsInGroup g := fun hcon => hdisj rep' hcon g' hg' l1
          obtain ⟨V0, hV0⟩ := (hf1.isSome rep').1 ⟨V', l2⟩
          have he := hf1.estimated hV0 l2
          refine ⟨rep', V0, d, d', l1, hV0, ?_, ?_, ?_, l6⟩
          · rintro ⟨w, hw, W, hW, hwe⟩
            obtain ⟨W1, hW1⟩ := (hf1.isSome w).2 ⟨W, hW⟩
            rw [← he]
            exact l3 ⟨w, hw, W1, hW1, by rw [hf1.estimated hW hW1]; exact hwe⟩
          · rw [← k7 rep' hnot]
            exact l4
          · rw [← hf1.prior]
            exact l5
      · intro v hv
        rw [hout v (by intro g'' hg''; rw [viewsInGroup_frame hf1]; exact hv g'' (by simp [hg'']))]
        exact k7 v (hv g (by simp))
    · intro hne hgood
      obtain ⟨s1, h1⟩ := (setGroup_spec hs hvs).2 (hne g (by simp)) (fun v c hv hc => hgood g (by simp) v hv c hc)
      obtain ⟨hs1, hf1, _, k7⟩ := (setGroup_spec hs hvs).1 s1 h1
      unfold setGroups
      rw [h1]
      simp only [Outcome.ok_bind]
      apply (ih hnd' hs1).2
      · intro g' hg'
        rw [viewsInGroup_frame hf1]
        exact hne g' (by simp [hg'])
      · intro g' hg' v hv c hc
        rw [viewsInGroup_frame hf1] at hv
        rw [k7 v (fun hcon => hdisj v hcon g' hg' hv)] at hc
        rw [hf1.prior]
        exact hgood g' (by simp [hg']) v hv c hc

end
end IntrinsicsGroups
end Theia
