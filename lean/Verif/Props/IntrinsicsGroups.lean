import Verif.Proof.IntrinsicsGroups
import Verif.Props.Reconstruction
import Verif.Props.CameraPriors

/-!
# C55: setting the intrinsics of all cameras from the priors
-/

namespace Theia

open CameraPriors IntrinsicsGroups Reconstruction

variable {F P K : Type} [Field K] [LinearOrder K]

/-- The intrinsics pointers of a scene refer to objects. -/
def Spec.Allocated (s : Scene F P K) : Prop := ∀ i, i < s.recon.nextIntrinsics → ∃ m, s.heap i = some m

omit [Field K] [LinearOrder K] in
theorem IntrinsicsGroups.good_of_reachable {s : Scene F P K} (h : s.recon.Reachable) (ha : Spec.Allocated s) : Good s := by
  have hp := C03_groups_partition_views s.recon h
  exact ⟨fun v g => (hp.1 v g).symm, hp.2.1, fun v w V W hV hW => C03_same_group_iff_shared_intrinsics s.recon h v w V W hV hW,
    fun v V hV => (inv_of_reachable h).ptrFresh v V hV, ha⟩

/-- C55. After the call all views of a group have the same camera intrinsics and image size: those obtained by applying
the prior of one view of the group to its camera. That view is an estimated one if the group has any. Two views share an
intrinsics object exactly if they are in the same group. Everything else in the reconstruction is as before. For every
reachable reconstruction and every iteration order. -/
theorem C55_group_intrinsics (order : List Nat → List Nat) (horder : ∀ l, (order l).Perm l) (s s' : Scene F P K)
    (hr : s.recon.Reachable) (ha : Spec.Allocated s) (h : setAll order s = .ok s') :
    (∀ g ∈ s.recon.groupIds, ∃ rep V c c', rep ∈ s.recon.viewsInGroup g ∧ s.recon.view rep = some V ∧
      ((∃ w ∈ s.recon.viewsInGroup g, ∃ W, s.recon.view w = some W ∧ W.estimated = true) → V.estimated = true) ∧
      s.camera rep = some c ∧ Camera.setFromPriors (s.prior rep) c = .ok c' ∧
      ∀ v ∈ s.recon.viewsInGroup g, s'.camera v = some c') ∧
    (∀ v w V W, s'.recon.view v = some V → s'.recon.view w = some W →
      (V.intrinsics = W.intrinsics ↔ s.recon.groupOf v = s.recon.groupOf w)) ∧
    (∀ v, (s'.recon.view v).map (fun V => (V.name, V.estimated, V.features)) =
      (s.recon.view v).map (fun V => (V.name, V.estimated, V.features))) ∧
    s'.recon.tracks = s.recon.tracks ∧ s'.recon.groups = s.recon.groups ∧ s'.recon.viewGroup = s.recon.viewGroup ∧
    s'.recon.names = s.recon.names ∧ s'.prior = s.prior := by
  have hg := good_of_reachable hr ha
  have hp := horder s.recon.groupIds
  obtain ⟨h1, h2, h3, _⟩ := (setGroups_spec horder _ (hp.nodup_iff.2 (C03_groups_partition_views s.recon hr).2.2.2.2) hg).1 s' h
  refine ⟨?_, ?_, ?_, h2.tracks, h2.groups, h2.viewGroup, h2.names, h2.prior⟩
  · intro g hgm
    exact h3 g (hp.mem_iff.2 hgm)
  · intro v w V W hV hW
    rw [h1.sep v w V W hV hW, groupOf_frame h2, groupOf_frame h2]
  · intro v
    have := h2.view v
    cases ha : s'.recon.view v <;> cases hb : s.recon.view v <;> simp_all

/-- C55. The call returns normally if every prior names a known model and gives no focal length that is not positive. -/
theorem C55_returns (order : List Nat → List Nat) (horder : ∀ l, (order l).Perm l) (s : Scene F P K)
    (hr : s.recon.Reachable) (ha : Spec.Allocated s)
    (hcam : ∀ i m, s.heap i = some m → m.type ≠ .invalid ∧ ∃ l, m.params = Spec.layout m.type l)
    (hprior : ∀ v V, s.recon.view v = some V →
      ∃ t, t ≠ .invalid ∧ stringToType (s.prior v).modelType = .ok t ∧ ¬ Spec.BadFocal t (s.prior v)) :
    ∃ s', setAll order s = .ok s' := by
  have hg := good_of_reachable hr ha
  have hp := horder s.recon.groupIds
  have hpart := C03_groups_partition_views s.recon hr
  apply (setGroups_spec horder _ (hp.nodup_iff.2 hpart.2.2.2.2) hg).2
  · intro g hgm
    exact List.exists_mem_of_ne_nil _ ((hpart.2.2.1 g).1 (hp.mem_iff.1 hgm))
  · intro g _ v hv c hc
    unfold Scene.camera at hc
    cases hV : s.recon.view v with
    | none => rw [hV] at hc; cases hc
    | some V =>
      simp only [hV] at hc
      cases hm : s.heap V.intrinsics with
      | none => rw [hm] at hc; cases hc
      | some m =>
        simp only [hm, Option.some.injEq] at hc
        subst hc
        obtain ⟨hmt, l, hl⟩ := hcam _ _ hm
        obtain ⟨t, ht, hts, hbad⟩ := hprior v V hV
        have hcr : ∃ l, (create t : Outcome (Intrinsics K)) = .ok ⟨t, Spec.layout t l⟩ := by
          cases t
          · exact absurd rfl ht
          · exact ⟨⟨1, 1, 0, 0, 0, 0, 0, 0, 0, 0, 0⟩, rfl⟩
          · exact ⟨⟨1, 1, 0, 0, 0, 0, 0, 0, 0, 0, 0⟩, rfl⟩
          · exact ⟨⟨1, 1, 0, 0, 0, 0, 0, 0, 0, 0, 0⟩, rfl⟩
          · exact ⟨⟨1, 1, 0, 0, 0, 3 / 4, 0, 0, 0, 0, 0⟩, rfl⟩
          · exact ⟨⟨1, 1, 0, 0, 0, 0, 0, 0, 0, 0, 0⟩, rfl⟩
        unfold Camera.setFromPriors Camera.modelFor
        rw [hts]
        simp only [Outcome.ok_bind]
        by_cases htt : m.type = t
        · rw [if_neg (by simpa using htt)]
          obtain ⟨mt, mp⟩ := m
          simp only at htt hl hmt
          subst htt
          subst hl
          simp only [Outcome.ok_bind, (C47_apply _ ht _ l).2 hbad]
          exact ⟨_, rfl⟩
        · rw [if_pos htt]
          obtain ⟨l', hl'⟩ := hcr
          rw [hl']
          simp only [Outcome.ok_bind, (C47_apply t ht _ l').2 hbad]
          exact ⟨_, rfl⟩

/-- Three views, the first two in one group; the second is estimated with a focal length of 500, its prior has none. -/
def groupScene : Scene Nat Unit ℚ where
  recon := { (Reconstruction.empty : Reconstruction Nat Unit) with
    nextViewId := 3,
    names := ⟨[("a", 0), ("b", 1), ("c", 2)]⟩
    views := ⟨[(0, ⟨"a", false, 0, .empty⟩), (1, ⟨"b", true, 0, .empty⟩), (2, ⟨"c", false, 2, .empty⟩)]⟩
    viewGroup := ⟨[(0, 7), (1, 7), (2, 8)]⟩
    groups := ⟨[(7, [0, 1]), (8, [2])]⟩
    nextIntrinsics := 3 }
  heap := fun i => if i < 3 then some ⟨.pinhole, [500, 1, 0, 0, 0, 1, 2]⟩ else none
  size := fun _ => (0, 0)
  prior := fun v => { (IntrinsicsPrior.default : IntrinsicsPrior ℚ) with
    width := 10 * (v + 1), height := 5, modelType := if v = 2 then "FOV" else "PINHOLE" }

def groupOps : List (Op Nat Unit) :=
  [.addViewToGroup "a" 7, .addViewToGroup "b" 7, .addViewToGroup "c" 8, .setViewEstimated 1 true]

/-- The cameras of the three views after the call. -/
def groupShow : Outcome (List (Option (Camera ℚ))) :=
  match setAll id groupScene with
  | .ok s => .ok [s.camera 0, s.camera 1, s.camera 2]
  | .abort => .abort
  | .ub => .ub

/-- The first two views get the camera from the prior of the estimated view. Its estimated focal length 500 is lost; the
distortion stays. The third gets a new camera of another model. -/
example : groupShow = .ok [some ⟨⟨.pinhole, [24, 1, 0, 10, 5 / 2, 1, 2]⟩, 20, 5⟩,
    some ⟨⟨.pinhole, [24, 1, 0, 10, 5 / 2, 1, 2]⟩, 20, 5⟩,
    some ⟨⟨.fov, [36, 1, 15, 5 / 2, 3 / 4]⟩, 30, 5⟩] := by decide +kernel

example : groupScene.recon.Reachable := ⟨groupOps, _, rfl⟩

example : Spec.Allocated groupScene := by
  intro i hi
  exact ⟨_, if_pos hi⟩

end Theia
