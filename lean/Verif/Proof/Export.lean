import Verif.Proof.BundlerLoad
import Verif.Proof.EstimatedPart
import Verif.Spec.Export
import Mathlib.Tactic.Ring
import Mathlib.Tactic.FieldSimp
import Mathlib.Tactic.LinearCombination

/-!
# Lemmas on the NVM, COLMAP and PLY files
-/

namespace Theia
namespace Export

open Spec Reconstruction
open Bundler (Cam Point Scene Loaded hnormalized nameOf featOf posOf Fresh HasTracks)

set_option linter.unusedSectionVars false

variable {K : Type} [Field K] [DecidableEq K]

theorem nvmFeatures_get (ts : List TrackId) : ∀ (i : Nat) (m : AMap TrackId Nat), ts.Nodup →
    ∀ t, (nvmFeatures ts i m).get t = if t ∈ ts then some (i + ts.idxOf t) else m.get t := by
  induction ts with
  | nil => intro i m _ t; simp [nvmFeatures]
  | cons a ts ih =>
    intro i m hnd t
    rw [List.nodup_cons] at hnd
    unfold nvmFeatures
    rw [ih _ _ hnd.2]
    by_cases hta : t = a
    · subst hta
      rw [if_neg hnd.1, if_pos List.mem_cons_self, AMap.get_insert_self]
      simp
    · rw [AMap.get_insert_ne _ _ hta, List.idxOf_cons_ne _ (fun h => hta h.symm)]
      simp only [List.mem_cons, hta, false_or]
      split
      · congr 1; omega
      · rfl

/-- The tracks of a view. -/
def tracksOf (r : Reconstruction (K × K) (Point K)) (v : ViewId) : List TrackId :=
  match r.view v with
  | some V => V.trackIds
  | none => []

/-- The record of a camera. -/
def camRec (quat : M3 K → Quat K) (s : Scene K) (v : ViewId) : NvmCam K :=
  ⟨nameOf s.recon v, (s.cam v).focal, quat (s.cam v).rot, (s.cam v).pos, (s.cam v).k1⟩

theorem nvmViews_ok (quat : M3 K → Quat K) (s : Scene K) (o : Orders) (hF : ∀ v l, (o.feats v l).Perm l) (vs : List ViewId) :
    ∀ (index : AMap ViewId Nat) (features : AMap ViewId (AMap TrackId Nat)), vs.Nodup → index.WF → (∀ v ∈ vs, v ∉ index.keys) →
    (∀ v ∈ vs, (∃ V, s.recon.view v = some V) ∧ (s.cam v).pinhole = true ∧ (tracksOf s.recon v).Nodup) →
    ∃ index' features', nvmViews quat s o vs index features = .ok (vs.map (camRec quat s), index', features') ∧
      (∀ v, index'.get v = if v ∈ vs then some (index.size + vs.idxOf v) else index.get v) ∧
      (∀ v, v ∉ vs → features'.get v = features.get v) ∧
      ∀ v ∈ vs, ∀ t ∈ tracksOf s.recon v, (features'.get v).bind (·.get t) = some ((o.feats v (tracksOf s.recon v)).idxOf t) := by
  induction vs with
  | nil =>
    intro index features _ _ _ _
    exact ⟨index, features, rfl, by simp, by simp, by simp⟩
  | cons v vs ih =>
    intro index features hnd hwf hnew hv
    rw [List.nodup_cons] at hnd
    obtain ⟨⟨V, hV⟩, hp, hts⟩ := hv v List.mem_cons_self
    have hkeys : (index.insert v index.size).keys = index.keys ++ [v] := by
      rw [AMap.keys_insert, if_neg (hnew v List.mem_cons_self)]
    have htr : tracksOf s.recon v = V.trackIds := by unfold tracksOf; rw [hV]
    rw [htr] at hts
    set F : AMap ViewId (AMap TrackId Nat) :=
      if V.trackIds = [] then features else features.insert v (nvmFeatures (o.feats v V.trackIds) 0 .empty) with hFdef
    obtain ⟨index', features', he, h1, h2, h3⟩ := ih (index.insert v index.size) F hnd.2 (AMap.wf_insert hwf _ _)
      (by
        intro w hw
        rw [hkeys]
        simp only [List.mem_append, List.mem_singleton, not_or]
        exact ⟨hnew w (List.mem_cons_of_mem _ hw), fun h => hnd.1 (h ▸ hw)⟩)
      (fun w hw => hv w (List.mem_cons_of_mem _ hw))
    have hsize : (index.insert v index.size).size = index.size + 1 := by
      rw [AMap.size_eq_length_keys, hkeys, List.length_append, ← AMap.size_eq_length_keys]
      rfl
    refine ⟨index', features', ?_, ?_, ?_, ?_⟩
    · unfold nvmViews
      rw [hV]
      simp only [hp, if_true]
      rw [he]
      simp [camRec, nameOf, hV]
    · intro w
      rw [h1, hsize]
      by_cases hw : w = v
      · subst hw
        rw [if_neg hnd.1, if_pos List.mem_cons_self, AMap.get_insert_self]
        simp
      · rw [AMap.get_insert_ne _ _ hw, List.idxOf_cons_ne _ (fun h => hw h.symm)]
        simp only [List.mem_cons, hw, false_or]
        split
        · congr 1; omega
        · rfl
    · intro w hw
      simp only [List.mem_cons, not_or] at hw
      rw [h2 w hw.2, hFdef]
      split
      · rfl
      · exact AMap.get_insert_ne _ _ hw.1
    · intro w hw t ht
      rcases List.mem_cons.1 hw with rfl | hw
      · rw [h2 w hnd.1, hFdef]
        rw [htr] at ht ⊢
        rw [if_neg (List.ne_nil_of_mem ht), AMap.get_insert_self]
        show (nvmFeatures _ 0 .empty).get t = _
        rw [nvmFeatures_get _ _ _ ((hF w _).nodup_iff.2 hts), if_pos ((hF w _).mem_iff.2 ht), Nat.zero_add]
      · exact h3 w hw t ht

/-- The record of a measurement. -/
def obsRec (s : Scene K) (o : Orders) (idx : ViewId → Nat) (t : TrackId) (v : ViewId) : NvmObs K :=
  ⟨idx v, (o.feats v (tracksOf s.recon v)).idxOf t, (featOf s.recon v t).1 - (s.cam v).px, (featOf s.recon v t).2 - (s.cam v).py⟩

theorem nvmObs_ok (s : Scene K) (o : Orders) (index : AMap ViewId Nat) (features : AMap ViewId (AMap TrackId Nat))
    (idx : ViewId → Nat) (t : TrackId) (vs : List ViewId)
    (h : ∀ v ∈ vs, index.get v = some (idx v) ∧
      (features.get v).bind (·.get t) = some ((o.feats v (tracksOf s.recon v)).idxOf t) ∧
      ∃ V f, s.recon.view v = some V ∧ V.getFeature t = some f) :
    nvmObs s index features t vs = .ok (vs.map (obsRec s o idx t)) := by
  induction vs with
  | nil => rfl
  | cons v vs ih =>
    obtain ⟨h1, h2, V, f, hV, hf⟩ := h v List.mem_cons_self
    unfold nvmObs
    rw [hV]
    simp only [hf, h1, h2]
    rw [ih fun w hw => h w (List.mem_cons_of_mem _ hw)]
    simp [obsRec, featOf, hV, hf]

/-- The record of a point. -/
def pointRec (s : Scene K) (o : Orders) (idx : ViewId → Nat) (t : TrackId) : NvmPoint K :=
  match s.recon.track t with
  | some T => ⟨posOf T, T.payload.color, T.views.length, (o.obs t T.views).map (obsRec s o idx t)⟩
  | none => ⟨⟨0, 0, 0⟩, (0, 0, 0), 0, []⟩

theorem hnormalized_ok {T : Track (Point K)} (h : T.payload.w ≠ 0) : hnormalized T.payload = .ok (posOf T) := by
  unfold hnormalized
  rw [if_neg h]
  rfl

theorem posOf_smul {T : Track (Point K)} (h : T.payload.w ≠ 0) : (posOf T).smul T.payload.w = T.payload.point := by
  unfold posOf V3.smul
  ext <;> simp only <;> field_simp

theorem nvmPoints_ok (s : Scene K) (o : Orders) (index : AMap ViewId Nat) (features : AMap ViewId (AMap TrackId Nat))
    (idx : ViewId → Nat) (ts : List TrackId)
    (h : ∀ t ∈ ts, ∃ T, s.recon.track t = some T ∧ T.payload.w ≠ 0 ∧ ∀ v ∈ o.obs t T.views, index.get v = some (idx v) ∧
      (features.get v).bind (·.get t) = some ((o.feats v (tracksOf s.recon v)).idxOf t) ∧
      ∃ V f, s.recon.view v = some V ∧ V.getFeature t = some f) :
    nvmPoints s o index features ts = .ok (ts.map (pointRec s o idx)) := by
  induction ts with
  | nil => rfl
  | cons t ts ih =>
    obtain ⟨T, hT, hw, hobs⟩ := h t List.mem_cons_self
    unfold nvmPoints
    rw [hT]
    simp only [hnormalized_ok hw, nvmObs_ok s o index features idx t _ hobs, Outcome.ok_bind]
    rw [ih fun u hu => h u (List.mem_cons_of_mem _ hu)]
    simp [pointRec, hT]

theorem feature_of_track {r : Reconstruction (K × K) (Point K)} (hi : r.Inv) {t : TrackId} {T : Track (Point K)} {v : ViewId}
    (ht : r.track t = some T) (hv : v ∈ T.views) : ∃ V f, r.view v = some V ∧ V.getFeature t = some f := by
  obtain ⟨V, hV, hf⟩ := (hi.sym v t).2 ⟨T, ht, hv⟩
  obtain ⟨f, hf⟩ := AMap.mem_keys_iff.1 hf
  exact ⟨V, f, hV, hf⟩

theorem track_of_feature {r : Reconstruction (K × K) (Point K)} (hi : r.Inv) {t : TrackId} {v : ViewId} {V : View (K × K)} {f : K × K}
    (hv : r.view v = some V) (hf : V.getFeature t = some f) : ∃ T, r.track t = some T ∧ v ∈ T.views :=
  (hi.sym v t).1 ⟨V, hv, AMap.mem_keys_iff.2 ⟨f, hf⟩⟩

theorem mem_trackIds_iff {V : View (K × K)} {t : TrackId} : t ∈ V.trackIds ↔ ∃ f, V.getFeature t = some f := AMap.mem_keys_iff

theorem tracksOf_nodup {r : Reconstruction (K × K) (Point K)} (hi : r.Inv) (v : ViewId) : (tracksOf r v).Nodup := by
  unfold tracksOf
  cases h : r.view v with
  | none => exact List.nodup_nil
  | some V => exact hi.wfFeat v V h

theorem writeNvm_ok (quat : M3 K → Quat K) (s : Scene K) (o : Orders) (hV : ∀ l, (o.views l).Perm l) (hT : ∀ l, (o.tracks l).Perm l)
    (hO : ∀ t l, (o.obs t l).Perm l) (hF : ∀ v l, (o.feats v l).Perm l) (hr : s.recon.Reachable)
    (hp : ∀ v V, s.recon.view v = some V → (s.cam v).pinhole = true) (hw : ∀ t T, s.recon.track t = some T → T.payload.w ≠ 0) :
    writeNvm quat s o = .ok ⟨s.recon.viewIds.length, (o.views s.recon.viewIds).map (camRec quat s), s.recon.trackIds.length,
      (o.tracks s.recon.trackIds).map (pointRec s o fun v => (o.views s.recon.viewIds).idxOf v)⟩ := by
  have hi := inv_of_reachable hr
  have hm : ∀ v, v ∈ o.views s.recon.viewIds ↔ ∃ V, s.recon.view v = some V := by
    intro v; rw [(hV _).mem_iff]; exact AMap.mem_keys_iff
  obtain ⟨index, features, he, h1, -, h3⟩ := nvmViews_ok quat s o hF (o.views s.recon.viewIds) .empty .empty
    ((hV _).nodup_iff.2 hi.wfViews) AMap.wf_empty (by intro v _; simp [AMap.keys, AMap.empty]) (by
      intro v hv
      obtain ⟨V, hv⟩ := (hm v).1 hv
      exact ⟨⟨V, hv⟩, hp v V hv, tracksOf_nodup hi v⟩)
  unfold writeNvm
  rw [he]
  simp only [Outcome.ok_bind]
  rw [nvmPoints_ok s o index features (fun v => (o.views s.recon.viewIds).idxOf v)]
  · rfl
  · intro t ht
    rw [(hT _).mem_iff] at ht
    obtain ⟨T, ht⟩ := AMap.mem_keys_iff.1 ht
    refine ⟨T, ht, hw t T ht, fun v hv => ?_⟩
    rw [(hO t _).mem_iff] at hv
    obtain ⟨V, f, hv', hf⟩ := feature_of_track hi ht hv
    have hvm := (hm v).2 ⟨V, hv'⟩
    refine ⟨?_, h3 v hvm t ?_, V, f, hv', hf⟩
    · rw [h1, if_pos hvm]; simp [AMap.size, AMap.empty]
    · unfold tracksOf; rw [hv']; exact mem_trackIds_iff.2 ⟨f, hf⟩

/-! ## Importing -/

theorem rotationOf_eq {m : M3 K} {q : Quat K} (h : QuatOf m q) : rotationOf q = m := by
  obtain ⟨h1, rfl⟩ := h
  have hn : q.w * q.w + q.x * q.x + q.y * q.y + q.z * q.z = 1 := by linear_combination h1
  unfold rotationOf
  simp only [hn, one_ne_zero, if_false, div_one, M3.mk.injEq, V3.mk.injEq]
  refine ⟨⟨?_, ?_, ?_⟩, ⟨?_, ?_, ?_⟩, ?_, ?_, ?_⟩
  · linear_combination hn
  · ring
  · ring
  · ring
  · linear_combination hn
  · ring
  · ring
  · ring
  · linear_combination hn

theorem nvmCamera_eq {default c : Cam K} {n : NvmCam K} (hp : c.pinhole = true) (hq : QuatOf c.rot n.quat) (hr : c.rot.IsRotation)
    (hf : n.focal = c.focal) (hpos : n.pos = c.pos) :
    nvmCamera default n = { c with k1 := default.k1, k2 := default.k2, px := default.px, py := default.py } := by
  unfold nvmCamera
  rw [rotationOf_eq hq, hf, hpos, ← hp]
  have : (c.rot.transpose.mulVec (c.rot.mulVec c.pos).neg).neg = c.pos := by
    rw [M3.mulVec_neg, hr.transpose_mulVec]
    simp [V3.neg]
  rw [this]

/-- All views are estimated. -/
def AllEst {F P : Type} (r : Reconstruction F P) : Prop := ∀ v V, r.view v = some V → V.estimated = true

theorem importViews_spec (base : String → String) (default : Cam K) (cs : List (NvmCam K)) :
    ∀ (s : Loaded K) (ns : List String), Fresh s.recon ns → AllEst s.recon → (∀ c ∈ cs, base c.name ≠ "") →
    (ns ++ cs.map fun c => base c.name).Nodup →
    ∃ s', importViews base default cs s = .ok s' ∧ Fresh s'.recon (ns ++ cs.map fun c => base c.name) ∧ AllEst s'.recon ∧
      (∀ i, i < ns.length → s'.cams.get i = s.cams.get i) ∧
      ∀ (i : Nat) (c : NvmCam K), cs[i]? = some c → s'.cams.get (ns.length + i) = some (nvmCamera default c) := by
  induction cs with
  | nil =>
    intro s ns h ha _ _
    exact ⟨s, rfl, by simpa using h, ha, fun _ _ => rfl, by simp⟩
  | cons c cs ih =>
    intro s ns h ha hne hnd
    have hn : base c.name ∉ ns := by
      intro hc
      rw [List.nodup_append] at hnd
      exact hnd.2.2 _ hc _ (List.mem_map.2 ⟨c, List.mem_cons_self, rfl⟩) rfl
    obtain ⟨r1, he1, hf1⟩ := h.snoc hn (hne c List.mem_cons_self)
    obtain ⟨V, hV, hVn, hVf⟩ := hf1.view ns.length (base c.name) (by simp)
    have hset : r1.setViewEstimated ns.length true = .ok { r1 with views := r1.views.insert ns.length { V with estimated := true } } := by
      unfold setViewEstimated
      rw [show r1.views.get ns.length = some V from hV]
    set r2 : Reconstruction (K × K) (Point K) := { r1 with views := r1.views.insert ns.length { V with estimated := true } } with hr2
    have hv2 : ∀ w : Nat, r2.view w = if w = ns.length then some { V with estimated := true } else r1.view w := by
      intro w
      show (r1.views.insert ns.length _).get w = _
      rw [AMap.get_insert]
      rfl
    have hf2 : Fresh r2 (ns ++ [base c.name]) := by
      refine ⟨reachable_setViewEstimated hf1.reach hset, hf1.next, hf1.nextT, ?_, hf1.tracks, ?_⟩
      · show (r1.views.insert ns.length _).keys = _
        rw [AMap.keys_insert, if_pos (AMap.mem_keys_iff.2 ⟨V, hV⟩)]
        exact hf1.keys
      · intro i n hi
        rw [hv2]
        split
        · rename_i hin
          subst hin
          rw [show (ns ++ [base c.name])[ns.length]? = some (base c.name) by simp] at hi
          cases hi
          exact ⟨_, rfl, hVn, hVf⟩
        · exact hf1.view i n hi
    have ha2 : AllEst r2 := by
      intro w W hw
      rw [hv2] at hw
      split at hw
      · cases hw; rfl
      · rename_i hne'
        have hvr : r1.view w = s.recon.view w := by
          have hi := inv_of_reachable h.reach
          have h1 : base c.name ∉ s.recon.names.keys := by
            intro hc
            obtain ⟨v, hv⟩ := AMap.mem_keys_iff.1 hc
            obtain ⟨V', hV', hname⟩ := (hi.name _ v).1 hv
            have hvk : v ∈ s.recon.viewIds := AMap.mem_keys_iff.2 ⟨V', hV'⟩
            rw [h.keys, List.mem_range] at hvk
            obtain ⟨V'', hV'', hname', -⟩ := h.view v ns[v] (List.getElem?_eq_getElem hvk)
            have : V'' = V' := Option.some.inj (hV''.symm.trans hV')
            subst this
            rw [hname] at hname'
            exact hn (hname' ▸ List.getElem_mem hvk)
          obtain ⟨intr, -, -, he⟩ := addViewToGroup_spec hi (g := s.recon.nextGroupId) h1 (hne c List.mem_cons_self)
          unfold addView at he1
          rw [he] at he1
          simp only [Outcome.ok_bind, Outcome.ok.injEq, Prod.mk.injEq] at he1
          rw [← he1.2]
          show (s.recon.views.insert s.recon.nextViewId _).get w = _
          rw [AMap.get_insert_ne _ _ (by rw [h.next]; exact hne')]
          rfl
        rw [hvr] at hw
        exact ha w W hw
    obtain ⟨s', he, hf', ha', hc1, hc2⟩ := ih { s with recon := r2, cams := s.cams.insert ns.length (nvmCamera default c) }
      (ns ++ [base c.name]) hf2 ha2 (fun x hx => hne x (List.mem_cons_of_mem _ hx)) (by simpa using hnd)
    refine ⟨s', ?_, by simpa using hf', ha', ?_, ?_⟩
    · unfold importViews
      rw [he1]
      simp only [Outcome.ok_bind, hset]
      exact he
    · intro i hi
      rw [hc1 i (by simp; omega)]
      exact AMap.get_insert_ne _ _ (Nat.ne_of_lt hi)
    · intro i d hd
      cases i with
      | zero =>
        simp only [List.getElem?_cons_zero, Option.some.injEq] at hd
        subst hd
        rw [Nat.add_zero, hc1 _ (by simp)]
        exact AMap.get_insert_self _ _ _
      | succ i =>
        have := hc2 i d (by simpa using hd)
        rw [List.length_append, List.length_singleton] at this
        rw [← this, Nat.add_assoc, Nat.add_comm 1 i]

/-- The track added for a point. -/
def newTrack (p : NvmPoint K) : List (ViewId × (K × K)) × Point K :=
  (p.obs.map fun m => (m.view, (m.x, m.y)), ⟨p.pos, 1, (p.color.1 % 256, p.color.2.1 % 256, p.color.2.2 % 256)⟩)

theorem importPoints_spec (r0 : Reconstruction (K × K) (Point K)) (ps : List (NvmPoint K)) :
    ∀ (s : Loaded K) A, HasTracks r0 s.recon A →
    (∀ p ∈ ps, 2 ≤ p.obs.length ∧ (p.obs.map (·.view)).Nodup ∧ ∀ m ∈ p.obs, ∃ V, r0.view m.view = some V) →
    ∃ s', importPoints ps s = .ok s' ∧ s'.cams = s.cams ∧ HasTracks r0 s'.recon (A ++ ps.map newTrack) := by
  induction ps with
  | nil =>
    intro s A h _
    exact ⟨s, rfl, rfl, by simpa using h⟩
  | cons p ps ih =>
    intro s A h hps
    obtain ⟨h2, hnd, hk⟩ := hps p List.mem_cons_self
    obtain ⟨r1, r2, he1, he2, hA⟩ := h.snoc ⟨⟨0, 0, 0⟩, 1, (0, 0, 0)⟩ (newTrack p).2 (newTrack p).1 (by simpa [newTrack] using h2)
      (by simpa [newTrack, Function.comp_def] using hnd) (by
        intro x hx
        obtain ⟨m, hm, rfl⟩ := List.mem_map.1 hx
        exact hk m hm)
    obtain ⟨s', he, hc, hs'⟩ := ih { s with recon := r2 } _ hA (fun q hq => hps q (List.mem_cons_of_mem _ hq))
    refine ⟨s', ?_, hc, by simpa using hs'⟩
    unfold importPoints
    have hne : p.obs ≠ [] := by rintro h; rw [h] at h2; simp at h2
    have he1' : s.recon.addTrack ⟨⟨0, 0, 0⟩, 1, (0, 0, 0)⟩ (p.obs.map fun m => (m.view, (m.x, m.y))) = .ok (some A.length, r1) := he1
    have he2' : r1.setTrackEstimated A.length true ⟨p.pos, 1, (p.color.1 % 256, p.color.2.1 % 256, p.color.2.2 % 256)⟩ = .ok r2 := he2
    rw [if_neg hne, he1']
    simp only [Outcome.ok_bind, he2']
    exact he

/-! ## COLMAP -/

theorem colmapFeatures_ok (V : View (K × K)) (ts : List TrackId) (h : ∀ t ∈ ts, ∃ f, V.getFeature t = some f) :
    colmapFeatures V ts = .ok (ts.map fun t => (((V.getFeature t).getD (0, 0)).1, ((V.getFeature t).getD (0, 0)).2, t)) := by
  induction ts with
  | nil => rfl
  | cons t ts ih =>
    obtain ⟨f, hf⟩ := h t List.mem_cons_self
    unfold colmapFeatures
    simp only [hf]
    rw [ih fun u hu => h u (List.mem_cons_of_mem _ hu)]
    simp [hf]

/-- The record of an image. -/
def imageRec (quat : M3 K → Quat K) (s : Scene K) (o : Orders) (v : ViewId) : ColmapImage K :=
  ⟨v, quat (s.cam v).rot, ((s.cam v).rot.mulVec (s.cam v).pos).neg, (s.recon.groupOf v).getD 0, nameOf s.recon v,
    (o.feats v (tracksOf s.recon v)).map fun t => ((featOf s.recon v t).1, (featOf s.recon v t).2, t)⟩

theorem colmapImages_ok (quat : M3 K → Quat K) (s : Scene K) (o : Orders) (hF : ∀ v l, (o.feats v l).Perm l) (vs : List ViewId)
    (h : ∀ v ∈ vs, (∃ V, s.recon.view v = some V) ∧ ∃ g, s.recon.groupOf v = some g) :
    colmapImages quat s o vs = .ok (vs.map (imageRec quat s o)) := by
  induction vs with
  | nil => rfl
  | cons v vs ih =>
    obtain ⟨⟨V, hV⟩, g, hg⟩ := h v List.mem_cons_self
    unfold colmapImages
    simp only [hV, hg]
    rw [colmapFeatures_ok V _ (by intro t ht; rw [(hF v _).mem_iff] at ht; exact mem_trackIds_iff.1 ht),
      ih fun w hw => h w (List.mem_cons_of_mem _ hw)]
    simp [imageRec, hg, nameOf, hV, tracksOf, featOf]

theorem colmapTrack_ok (s : Scene K) (o : Orders) (t : TrackId) (vs : List ViewId) (h : ∀ v ∈ vs, ∃ V, s.recon.view v = some V) :
    colmapTrack s o t vs = .ok (vs.map fun v => (v, (o.feats v (tracksOf s.recon v)).idxOf t)) := by
  induction vs with
  | nil => rfl
  | cons v vs ih =>
    obtain ⟨V, hV⟩ := h v List.mem_cons_self
    unfold colmapTrack
    rw [hV]
    simp only
    rw [ih fun w hw => h w (List.mem_cons_of_mem _ hw)]
    simp [tracksOf, hV]

/-- The record of a point. -/
def colmapRec (s : Scene K) (o : Orders) (t : TrackId) : ColmapPoint K :=
  match s.recon.track t with
  | some T => ⟨t, posOf T, T.payload.color, (o.obs t T.views).map fun v => (v, (o.feats v (tracksOf s.recon v)).idxOf t)⟩
  | none => ⟨t, ⟨0, 0, 0⟩, (0, 0, 0), []⟩

theorem colmapPoints_ok (s : Scene K) (o : Orders) (ts : List TrackId)
    (h : ∀ t ∈ ts, ∃ T, s.recon.track t = some T ∧ T.payload.w ≠ 0 ∧ ∀ v ∈ o.obs t T.views, ∃ V, s.recon.view v = some V) :
    colmapPoints s o ts = .ok (ts.map (colmapRec s o)) := by
  induction ts with
  | nil => rfl
  | cons t ts ih =>
    obtain ⟨T, hT, hw, hv⟩ := h t List.mem_cons_self
    unfold colmapPoints
    rw [hT]
    simp only [hnormalized_ok hw, colmapTrack_ok s o t _ hv, Outcome.ok_bind]
    rw [ih fun u hu => h u (List.mem_cons_of_mem _ hu)]
    simp [colmapRec, hT]

theorem colmapCameras_spec (size : ViewId → Nat × Nat) (s : Scene K) (o : Orders) (gs : List GroupId)
    (h : ∀ g ∈ gs, ∃ v, v ∈ o.members g (s.recon.viewsInGroup g)) (hv : ∀ g ∈ gs, ∀ v ∈ o.members g (s.recon.viewsInGroup g),
      ∃ V, s.recon.view v = some V) :
    (colmapCameras size s o gs = .ok none ∧ ∃ g ∈ gs, ∃ v ∈ o.members g (s.recon.viewsInGroup g), (s.cam v).pinhole = false) ∨
    ∃ l, colmapCameras size s o gs = .ok (some l) ∧ l.map (·.id) = gs ∧ ∀ c ∈ l, ∃ v ∈ o.members c.id (s.recon.viewsInGroup c.id),
      (s.cam v).pinhole = true ∧ (c.width, c.height) = size v ∧ c.focal = (s.cam v).focal ∧ c.px = (s.cam v).px ∧
      c.py = (s.cam v).py ∧ c.k1 = (s.cam v).k1 := by
  induction gs with
  | nil => exact Or.inr ⟨[], rfl, rfl, by simp⟩
  | cons g gs ih =>
    obtain ⟨v0, hv0⟩ := h g List.mem_cons_self
    have hvg := hv g List.mem_cons_self
    unfold colmapCameras
    cases hm : o.members g (s.recon.viewsInGroup g) with
    | nil => rw [hm] at hv0; cases hv0
    | cons v rest =>
      have hvm : v ∈ o.members g (s.recon.viewsInGroup g) := by rw [hm]; exact List.mem_cons_self
      obtain ⟨V, hV⟩ := hvg v hvm
      simp only [hV, reduceCtorEq, if_false]
      cases hp : (s.cam v).pinhole with
      | false =>
        refine Or.inl ⟨by simp, g, List.mem_cons_self, v, ?_, hp⟩
        exact hvm
      | true =>
        simp only [if_true]
        rcases ih (fun x hx => h x (List.mem_cons_of_mem _ hx)) (fun x hx => hv x (List.mem_cons_of_mem _ hx)) with ⟨he, g', hg', w, hw, hn⟩ | ⟨l, he, hids, hl⟩
        · refine Or.inl ⟨by rw [he]; rfl, g', List.mem_cons_of_mem _ hg', w, hw, hn⟩
        · refine Or.inr ⟨_, by rw [he]; rfl, by simp [hids], ?_⟩
          intro c hc
          rcases List.mem_cons.1 hc with rfl | hc
          · exact ⟨v, hvm, hp, rfl, rfl, rfl, rfl, rfl⟩
          · exact hl c hc

/-! ## PLY -/

/-- Not to be written. -/
def plyWeak (min : Int) (r : Reconstruction (K × K) (Point K)) (t : TrackId) : Bool :=
  match r.track t with
  | some T => decide (T.estimated = false ∨ (T.views.length : Int) < min)
  | none => false

omit [Field K] [DecidableEq K] in
theorem plyFilter_spec (min : Int) (ts : List TrackId) : ∀ {r : Reconstruction (K × K) (Point K)}, r.Reachable → ts.Nodup →
    (∀ t ∈ ts, ∃ T, r.track t = some T) →
    ∃ r', plyFilter min ts r = .ok r' ∧ EstimatedPart.Drops r r' fun t => decide (t ∈ ts) && plyWeak min r t := by
  induction ts with
  | nil =>
    intro r h _ _
    exact ⟨r, rfl, by simpa using EstimatedPart.Drops.refl h⟩
  | cons t ts ih =>
    intro r h hnd hts
    rw [List.nodup_cons] at hnd
    obtain ⟨T, hT⟩ := hts t List.mem_cons_self
    unfold plyFilter
    rw [hT]
    by_cases hw : T.estimated = false ∨ (T.views.length : Int) < min
    · obtain ⟨r1, he1, hr1⟩ := EstimatedPart.drops_removeTrack h hT
      obtain ⟨r', he, hr⟩ := ih hr1.reach hnd.2 (by
        intro u hu
        rw [hr1.track]
        have : u ≠ t := fun hc => hnd.1 (hc ▸ hu)
        simpa [this] using hts u (List.mem_cons_of_mem _ hu))
      refine ⟨r', by simp only [if_pos hw, he1, he], ?_⟩
      have := hr1.trans hr
      convert this using 2 with x
      by_cases hs : x = t
      · subst hs; simp only [plyWeak, hT]; simp [hw]
      · have : plyWeak min r1 x = plyWeak min r x := by
          unfold plyWeak
          rw [hr1.track]
          simp [hs]
        simp [hs, this]
    · obtain ⟨r', he, hr⟩ := ih h hnd.2 (fun u hu => hts u (List.mem_cons_of_mem _ hu))
      refine ⟨r', by simp only [if_neg hw, he], ?_⟩
      convert hr using 2 with x
      by_cases hs : x = t
      · subst hs; simp only [plyWeak, hT]; simp [hw]
      · simp [hs]

/-- The vertex of a track. -/
def plyVertex (r : Reconstruction (K × K) (Point K)) (t : TrackId) : V3 K × (Nat × Nat × Nat) :=
  match r.track t with
  | some T => (posOf T, T.payload.color)
  | none => (⟨0, 0, 0⟩, (0, 0, 0))

theorem plyTracks_ok (r : Reconstruction (K × K) (Point K)) (ts : List TrackId)
    (h : ∀ t ∈ ts, ∃ T, r.track t = some T ∧ T.payload.w ≠ 0) : plyTracks r ts = .ok (ts.map (plyVertex r)) := by
  induction ts with
  | nil => rfl
  | cons t ts ih =>
    obtain ⟨T, hT, hw⟩ := h t List.mem_cons_self
    unfold plyTracks
    rw [hT]
    simp only [hnormalized_ok hw, Outcome.ok_bind]
    rw [ih fun u hu => h u (List.mem_cons_of_mem _ hu)]
    simp [plyVertex, hT]

/-- Estimated in the reconstruction. -/
def isEst (r : Reconstruction (K × K) (Point K)) (v : ViewId) : Bool :=
  match r.view v with
  | some V => V.estimated
  | none => false

theorem plyCameras_ok (s : Scene K) (vs : List ViewId) (h : ∀ v ∈ vs, ∃ V, s.recon.view v = some V) :
    plyCameras s vs = .ok ((vs.filter (isEst s.recon)).map fun v => ((s.cam v).pos, (0, 255, 0))) := by
  induction vs with
  | nil => rfl
  | cons v vs ih =>
    obtain ⟨V, hV⟩ := h v List.mem_cons_self
    have hrest := ih fun w hw => h w (List.mem_cons_of_mem _ hw)
    unfold plyCameras
    rw [hV]
    simp only
    cases he : V.estimated with
    | true =>
      have : isEst s.recon v = true := by unfold isEst; rw [hV]; exact he
      rw [List.filter_cons_of_pos this, hrest]
      rfl
    | false =>
      have : isEst s.recon v = false := by unfold isEst; rw [hV]; exact he
      rw [List.filter_cons_of_neg (by simp [this]), hrest]
      rfl

end Export
end Theia
