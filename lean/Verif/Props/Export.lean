import Verif.Proof.Export
import Verif.Props.Bundler

/-!
# C45: NVM, COLMAP and PLY files
-/

namespace Theia

open Spec Reconstruction Export
open Bundler (Cam Point Scene Loaded nameOf featOf posOf Fresh HasTracks)

set_option linter.unusedSectionVars false

variable {K : Type} [Field K] [DecidableEq K]

theorem Export.listsViews {F P : Type} {r : Reconstruction F P} (hr : r.Reachable) {l : List ViewId} (h : l.Perm r.viewIds) :
    ListsViews r l :=
  ⟨h.nodup_iff.2 (inv_of_reachable hr).wfViews, fun _ => h.mem_iff.trans AMap.mem_keys_iff⟩

theorem Export.listsTracks {F P : Type} {r : Reconstruction F P} (hr : r.Reachable) {l : List TrackId} (h : l.Perm r.trackIds) :
    ListsTracks r l :=
  ⟨h.nodup_iff.2 (inv_of_reachable hr).wfTracks, fun _ => h.mem_iff.trans AMap.mem_keys_iff⟩

/-- C45. The NVM file written for a reconstruction of pinhole cameras describes it: the counts are right, there is one record for
each view and each track, and each observation refers to the record of its view and to a feature no other observation refers to. -/
theorem C45_nvm (quat : M3 K → Quat K) (s : Scene K) (o : Export.Orders)
    (hquat : ∀ v V, s.recon.view v = some V → (s.cam v).rot.IsRotation → QuatOf (s.cam v).rot (quat (s.cam v).rot))
    (hV : ∀ l, (o.views l).Perm l) (hT : ∀ l, (o.tracks l).Perm l) (hO : ∀ t l, (o.obs t l).Perm l)
    (hF : ∀ v l, (o.feats v l).Perm l) (hr : s.recon.Reachable)
    (hcam : ∀ v V, s.recon.view v = some V → (s.cam v).pinhole = true ∧ (s.cam v).rot.IsRotation)
    (hw : ∀ t T, s.recon.track t = some T → T.payload.w ≠ 0) :
    ∃ f, writeNvm quat s o = .ok f ∧ IsNvmOf s (o.views s.recon.viewIds) (o.tracks s.recon.trackIds) f := by
  have hi := inv_of_reachable hr
  have hlv := listsViews hr (hV s.recon.viewIds)
  have hlt := listsTracks hr (hT s.recon.trackIds)
  refine ⟨_, writeNvm_ok quat s o hV hT hO hF hr (fun v V h => (hcam v V h).1) hw, hlv, hlt, ?_, ?_, ?_, ?_, ?_⟩
  · exact ⟨(hV _).length_eq.symm, by simp⟩
  · exact ⟨(hT _).length_eq.symm, by simp⟩
  · intro i v V c hiv hv hc
    simp only [List.getElem?_map, hiv, Option.map_some, Option.some.injEq] at hc
    subst hc
    exact ⟨by simp [camRec, nameOf, hv], rfl, hquat _ _ hv (hcam v V hv).2, rfl, rfl⟩
  · intro j t T p hjt ht hp
    simp only [List.getElem?_map, hjt, Option.map_some, Option.some.injEq] at hp
    subst hp
    simp only [pointRec, ht]
    refine ⟨posOf_smul (hw t T ht), trivial, trivial, by rw [List.length_map, (hO t _).length_eq], ?_⟩
    intro v hv
    obtain ⟨V, g, hV', hg⟩ := feature_of_track hi ht hv
    refine ⟨V, g, hV', hg, _, List.mem_map.2 ⟨v, (hO t _).mem_iff.2 hv, rfl⟩, ?_, ?_, ?_, ?_⟩
    · have hm := (hlv.2 v).2 ⟨V, hV'⟩
      show (o.views s.recon.viewIds)[(o.views s.recon.viewIds).idxOf v]? = some v
      rw [List.getElem?_eq_getElem (List.idxOf_lt_length_iff.2 hm), List.getElem_idxOf]
    · simp [obsRec, featOf, hV', hg]
    · simp [obsRec, featOf, hV', hg]
    · have : tracksOf s.recon v = V.trackIds := by unfold tracksOf; rw [hV']
      show (o.feats v (tracksOf s.recon v)).idxOf t < _
      rw [this, ← (hF v V.trackIds).length_eq]
      exact List.idxOf_lt_length_iff.2 ((hF v _).mem_iff.2 (mem_trackIds_iff.2 ⟨g, hg⟩))
  · intro j k p q m n hp hq hm hn hview hfeat
    have key : ∀ (j : Nat) (p : NvmPoint K), ((o.tracks s.recon.trackIds).map (pointRec s o fun v => (o.views s.recon.viewIds).idxOf v))[j]? = some p →
        ∀ m ∈ p.obs, ∃ t v, (o.tracks s.recon.trackIds)[j]? = some t ∧ v ∈ o.views s.recon.viewIds ∧
          m = obsRec s o (fun v => (o.views s.recon.viewIds).idxOf v) t v ∧ t ∈ o.feats v (tracksOf s.recon v) := by
      intro j p hp m hm
      rw [List.getElem?_map] at hp
      cases hj : (o.tracks s.recon.trackIds)[j]? with
      | none => rw [hj] at hp; cases hp
      | some t =>
        rw [hj, Option.map_some, Option.some.injEq] at hp
        subst hp
        obtain ⟨T, ht⟩ := (hlt.2 t).1 (List.mem_of_getElem? hj)
        simp only [pointRec, ht, List.mem_map] at hm
        obtain ⟨v, hv, rfl⟩ := hm
        rw [(hO t _).mem_iff] at hv
        obtain ⟨V, g, hV', hg⟩ := feature_of_track hi ht hv
        refine ⟨t, v, rfl, (hlv.2 v).2 ⟨V, hV'⟩, rfl, ?_⟩
        rw [(hF v _).mem_iff]
        unfold tracksOf
        rw [hV']
        exact mem_trackIds_iff.2 ⟨g, hg⟩
    obtain ⟨t, v, hjt, hv, rfl, ht⟩ := key j p hp m hm
    obtain ⟨u, w, hku, hw', rfl, hu⟩ := key k q hq n hn
    have hvw : v = w := (List.idxOf_inj hv).1 hview
    subst hvw
    have htu : t = u := (List.idxOf_inj ht).1 hfeat
    subst htu
    refine ⟨?_, rfl⟩
    have hj := (List.getElem?_eq_some_iff.1 hjt)
    have hk := (List.getElem?_eq_some_iff.1 hku)
    obtain ⟨hj1, hj2⟩ := hj
    obtain ⟨hk1, hk2⟩ := hk
    exact (hlt.1.getElem_inj_iff (hi := hj1) (hj := hk1)).1 (hj2.trans hk2.symm)

/-- C45. Writing a reconstruction to an NVM file and importing the file into a new reconstruction gives a copy of its structure. -/
theorem C45_nvm_round_trip_partial (quat : M3 K → Quat K) (base : String → String)
    (default : Cam K) (s : Scene K) (o : Export.Orders)
    (hquat : ∀ v V, s.recon.view v = some V → (s.cam v).rot.IsRotation → QuatOf (s.cam v).rot (quat (s.cam v).rot))
    (hV : ∀ l, (o.views l).Perm l) (hT : ∀ l, (o.tracks l).Perm l) (hO : ∀ t l, (o.obs t l).Perm l)
    (hF : ∀ v l, (o.feats v l).Perm l) (hr : s.recon.Reachable)
    (hcam : ∀ v V, s.recon.view v = some V → (s.cam v).pinhole = true ∧ (s.cam v).rot.IsRotation ∧ base V.name ≠ "")
    (hname : ∀ v w V W, s.recon.view v = some V → s.recon.view w = some W → base V.name = base W.name → v = w)
    (htr : ∀ t T, s.recon.track t = some T → T.payload.w ≠ 0 ∧ 2 ≤ T.views.length ∧ T.payload.color.1 < 256 ∧
      T.payload.color.2.1 < 256 ∧ T.payload.color.2.2 < 256)
    (hnv : 2 ≤ s.recon.numViews) (hnt : 1 ≤ s.recon.numTracks) :
    ∃ f s', writeNvm quat s o = .ok f ∧ importNvm base default f ⟨Reconstruction.empty, .empty, .empty⟩ = .ok s' ∧
      s'.recon.Reachable ∧ ∃ num tnum, IsNvmCopy base default s s' num tnum := by
  have hi := inv_of_reachable hr
  have hlv := listsViews hr (hV s.recon.viewIds)
  have hlt := listsTracks hr (hT s.recon.trackIds)
  have hwrite := writeNvm_ok quat s o hV hT hO hF hr (fun v V h => (hcam v V h).1) (fun t T h => (htr t T h).1)
  set ids := o.views s.recon.viewIds with hids
  set tids := o.tracks s.recon.trackIds with htids
  have hidx : ∀ v V, s.recon.view v = some V → ids.idxOf v < ids.length :=
    fun v V h => List.idxOf_lt_length_iff.2 ((hlv.2 v).2 ⟨V, h⟩)
  have hget : ∀ v V, s.recon.view v = some V → ids[ids.idxOf v]? = some v := by
    intro v V h
    rw [List.getElem?_eq_getElem (hidx v V h), List.getElem_idxOf]
  have hgetT : ∀ t T, s.recon.track t = some T → tids[tids.idxOf t]? = some t := by
    intro t T h
    rw [List.getElem?_eq_getElem (List.idxOf_lt_length_iff.2 ((hlt.2 t).2 ⟨T, h⟩)), List.getElem_idxOf]
  have hinj : ∀ v w V W, s.recon.view v = some V → s.recon.view w = some W → ids.idxOf v = ids.idxOf w → v = w :=
    fun v w V W hv _ h => (List.idxOf_inj ((hlv.2 v).2 ⟨V, hv⟩)).1 h
  have hempty : Fresh (Reconstruction.empty : Reconstruction (K × K) (Point K)) [] :=
    ⟨⟨[], [], rfl⟩, rfl, rfl, rfl, fun _ => rfl, fun i n hn => by simp at hn⟩
  obtain ⟨s1, he1, hf1, ha1, -, hc1⟩ := importViews_spec base default (ids.map (camRec quat s)) ⟨Reconstruction.empty, .empty, .empty⟩ []
    hempty (fun v V h => by cases h) (by
      intro c hc
      obtain ⟨v, hv, rfl⟩ := List.mem_map.1 hc
      obtain ⟨V, hv⟩ := (hlv.2 v).1 hv
      simpa [camRec, nameOf, hv] using (hcam v V hv).2.2) (by
      rw [List.nil_append, List.map_map]
      refine hlv.1.map_on ?_
      intro v hv w hw h
      obtain ⟨V, hv⟩ := (hlv.2 v).1 hv
      obtain ⟨W, hw⟩ := (hlv.2 w).1 hw
      simp only [Function.comp, camRec, nameOf, hv, hw] at h
      exact hname v w V W hv hw h)
  simp only [List.nil_append, List.length_nil, Nat.zero_add, List.map_map] at hf1 hc1
  have hview1 : ∀ i, (∃ V, s1.recon.view i = some V) ↔ i < ids.length := by
    intro i
    have : i ∈ s1.recon.viewIds ↔ i < ids.length := by rw [hf1.keys]; simp
    rw [← this]
    exact AMap.mem_keys_iff.symm
  have h01 : HasTracks s1.recon s1.recon [] := by
    refine ⟨hf1.reach, hf1.nextT, fun t => by rw [hf1.tracks]; rfl, fun v hv => hv, fun v V0 hV0 => ⟨V0, hV0, rfl, rfl, fun t f => ?_⟩⟩
    obtain ⟨n, hn⟩ : ∃ n, (ids.map ((fun c => base c.name) ∘ camRec quat s))[v]? = some n := by
      have hlt' := (hview1 v).1 ⟨V0, hV0⟩
      exact ⟨_, List.getElem?_eq_getElem (by simpa using hlt')⟩
    obtain ⟨V, hV', -, hfe⟩ := hf1.view v n hn
    rw [hV0] at hV'
    cases hV'
    simp [View.getFeature, hfe, AMap.get, AMap.empty]
  have hpts : ∀ p ∈ tids.map (pointRec s o fun v => ids.idxOf v), ∃ t T, tids[tids.idxOf t]? = some t ∧ s.recon.track t = some T ∧
      p = pointRec s o (fun v => ids.idxOf v) t := by
    intro p hp
    obtain ⟨t, ht, rfl⟩ := List.mem_map.1 hp
    obtain ⟨T, ht⟩ := (hlt.2 t).1 ht
    exact ⟨t, T, hgetT t T ht, ht, rfl⟩
  obtain ⟨s2, he2, hc2, hA⟩ := importPoints_spec s1.recon (tids.map (pointRec s o fun v => ids.idxOf v)) s1 [] h01 (by
    intro p hp
    obtain ⟨t, T, -, ht, rfl⟩ := hpts p hp
    simp only [pointRec, ht]
    refine ⟨?_, ?_, ?_⟩
    · rw [List.length_map, (hO t _).length_eq]; exact (htr t T ht).2.1
    · rw [List.map_map]
      refine List.Nodup.map_on ?_ ((hO t _).nodup_iff.2 (hi.ndTrack t T ht))
      intro v hv w hw h
      rw [(hO t _).mem_iff] at hv hw
      obtain ⟨V, -, hv', -⟩ := feature_of_track hi ht hv
      obtain ⟨W, -, hw', -⟩ := feature_of_track hi ht hw
      exact hinj v w V W hv' hw' h
    · intro m hm
      obtain ⟨v, hv, rfl⟩ := List.mem_map.1 hm
      rw [(hO t _).mem_iff] at hv
      obtain ⟨V, -, hv', -⟩ := feature_of_track hi ht hv
      exact (hview1 _).2 (hidx v V hv'))
  rw [List.nil_append, List.map_map] at hA
  refine ⟨_, s2, hwrite, ?_, hA.reach, fun v => ids.idxOf v, fun t => tids.idxOf t, ?_⟩
  · have hnv' : 2 ≤ s.recon.viewIds.length := by
      exact (AMap.size_eq_length_keys s.recon.views) ▸ hnv
    have hnt' : 1 ≤ s.recon.trackIds.length := by
      exact (AMap.size_eq_length_keys s.recon.tracks) ▸ hnt
    unfold importNvm
    rw [if_neg (by simp only; omega), if_neg (by simp [hids, (hV s.recon.viewIds).length_eq]), if_neg (by simp only; omega), if_neg, he1]
    · simp only [Outcome.ok_bind]
      exact he2
    · push Not
      refine ⟨by simp [htids, (hT s.recon.trackIds).length_eq], ?_⟩
      intro p hp
      obtain ⟨t, T, -, ht, rfl⟩ := hpts p hp
      simp only [pointRec, ht]
      rw [List.length_map, (hO t _).length_eq]
  · have hAt : ∀ t T, s.recon.track t = some T → (tids.map (Export.newTrack ∘ pointRec s o fun v => ids.idxOf v))[tids.idxOf t]? =
        some ((o.obs t T.views).map (fun v => (ids.idxOf v, ((featOf s.recon v t).1 - (s.cam v).px, (featOf s.recon v t).2 - (s.cam v).py))),
          ⟨posOf T, 1, T.payload.color⟩) := by
      intro t T ht
      obtain ⟨-, -, c1, c2, c3⟩ := htr t T ht
      rw [List.getElem?_map, hgetT t T ht]
      simp only [Option.map_some, Function.comp, Export.newTrack, pointRec, ht, List.map_map, Option.some.injEq, Prod.mk.injEq]
      refine ⟨?_, ?_⟩
      · apply List.map_congr_left
        intro v _
        rfl
      · rw [Nat.mod_eq_of_lt c1, Nat.mod_eq_of_lt c2, Nat.mod_eq_of_lt c3]
    have hview2 : ∀ w, (∃ W, s2.recon.view w = some W) ↔ w < ids.length := by
      intro w
      rw [← hview1]
      constructor
      · rintro ⟨W, hW⟩
        cases h : s1.recon.view w with
        | none => rw [hA.viewNone w h] at hW; cases hW
        | some V => exact ⟨V, rfl⟩
      · rintro ⟨V, hV'⟩
        obtain ⟨W, hW, -⟩ := hA.view w V hV'
        exact ⟨W, hW⟩
    refine ⟨?_, ?_, ?_, ?_, ?_, ?_⟩
    · intro v w hv hw h
      cases h1 : s.recon.view v with
      | none => exact absurd h1 hv
      | some V =>
        cases h2 : s.recon.view w with
        | none => exact absurd h2 hw
        | some W => exact hinj v w V W h1 h2 h
    · intro w
      rw [hview2]
      constructor
      · intro hw
        obtain ⟨V, hv⟩ := (hlv.2 ids[w]).1 (List.getElem_mem hw)
        exact ⟨ids[w], by rw [hv]; simp, hlv.1.idxOf_getElem w hw⟩
      · rintro ⟨v, hv, rfl⟩
        cases h1 : s.recon.view v with
        | none => exact absurd h1 hv
        | some V => exact hidx v V h1
    · intro v V hv
      have hn : (ids.map ((fun c => base c.name) ∘ camRec quat s))[ids.idxOf v]? = some (base V.name) := by
        rw [List.getElem?_map, hget v V hv]
        simp [camRec, nameOf, hv]
      obtain ⟨V1, hV1, hn1, -⟩ := hf1.view _ _ hn
      obtain ⟨V2, hV2, hn2, he, hfe⟩ := hA.view _ _ hV1
      refine ⟨V2, hV2, hn2.trans hn1, he.trans (ha1 _ _ hV1), ?_, ?_⟩
      · rw [hc2, hc1 (ids.idxOf v) (camRec quat s v) (by rw [List.getElem?_map, hget v V hv]; rfl)]
        obtain ⟨hp, hrot, -⟩ := hcam v V hv
        rw [nvmCamera_eq hp (n := camRec quat s v) (hquat _ _ hv hrot) hrot rfl rfl]
      · intro t T ht f'
        rw [hfe, hAt t T ht]
        constructor
        · rintro ⟨a, ha, hm⟩
          cases ha
          obtain ⟨w, hw, heq⟩ := List.mem_map.1 hm
          rw [(hO t _).mem_iff] at hw
          obtain ⟨W, g, hw', hg⟩ := feature_of_track hi ht hw
          simp only [Prod.mk.injEq] at heq
          have := hinj w v W V hw' hv heq.1
          subst this
          rw [hv] at hw'
          cases hw'
          refine ⟨g, hg, ?_⟩
          rw [← heq.2]
          simp [featOf, hv, hg]
        · rintro ⟨g, hg, rfl⟩
          obtain ⟨T1, ht1, hvT⟩ := track_of_feature hi hv hg
          rw [ht] at ht1
          cases ht1
          refine ⟨_, rfl, List.mem_map.2 ⟨v, (hO t _).mem_iff.2 hvT, ?_⟩⟩
          simp [featOf, hv, hg]
    · intro t u ht hu h
      cases h1 : s.recon.track t with
      | none => exact absurd h1 ht
      | some T => exact (List.idxOf_inj ((hlt.2 t).2 ⟨T, h1⟩)).1 h
    · intro u
      rw [hA.track]
      constructor
      · rintro ⟨U, hU⟩
        cases hg : tids[u]? with
        | none => rw [List.getElem?_map, hg] at hU; cases hU
        | some t =>
          obtain ⟨hlt', hgt⟩ := List.getElem?_eq_some_iff.1 hg
          obtain ⟨T, ht⟩ := (hlt.2 t).1 (List.mem_of_getElem? hg)
          refine ⟨t, by rw [ht]; simp, ?_⟩
          subst hgt
          exact hlt.1.idxOf_getElem u hlt'
      · rintro ⟨t, ht, rfl⟩
        cases h1 : s.recon.track t with
        | none => exact absurd h1 ht
        | some T => rw [hAt t T h1]; exact ⟨_, rfl⟩
    · intro t T ht
      refine ⟨⟨true, ⟨posOf T, 1, T.payload.color⟩, (o.obs t T.views).map fun v => ids.idxOf v⟩, ?_, rfl, rfl, ?_, rfl, ?_⟩
      · rw [hA.track, hAt t T ht]
        simp [Function.comp_def]
      · exact posOf_smul (htr t T ht).1
      · intro w
        simp only [List.mem_map, (hO t _).mem_iff]


/-- The conversion to quaternions the theorems assume exists. -/
theorem Export.exists_quat : ∃ quat : M3 ℝ → Quat ℝ, ∀ m : M3 ℝ, m.IsRotation → QuatOf m (quat m) := by
  classical
  have key : ∀ m : M3 ℝ, m.IsRotation → ∃ q, QuatOf m q := by
    intro m hm
    obtain ⟨w, hw⟩ : ∃ w, AngleAxis.toM w = m := by
      obtain ⟨ofM, h⟩ := AngleAxis.exists_isLog
      exact ⟨ofM m, (h m hm).1⟩
    subst hw
    rcases lt_or_eq_of_le (AngleAxis.dot_self_nonneg w) with h | h
    · set th := Real.sqrt (w.dot w) with hth
      set u := w.smul th⁻¹ with hu
      have hun : u.dot u = 1 := AngleAxis.unit_axis h
      have hc : Real.cos th = 2 * Real.cos (th / 2) ^ 2 - 1 := by rw [← Real.cos_two_mul]; congr 1; ring
      have hs : Real.sin th = 2 * Real.sin (th / 2) * Real.cos (th / 2) := by rw [← Real.sin_two_mul]; congr 1; ring
      have hsc := Real.sin_sq_add_cos_sq (th / 2)
      refine ⟨⟨Real.cos (th / 2), Real.sin (th / 2) * u.x, Real.sin (th / 2) * u.y, Real.sin (th / 2) * u.z⟩, ?_, ?_⟩
      · unfold V3.dot at hun
        simp only
        linear_combination Real.sin (th / 2) ^ 2 * hun + hsc
      · show AngleAxis.rodriguesMatrix u (Real.cos th) (Real.sin th) = _
        rw [hc, hs]
        unfold V3.dot at hun
        generalize Real.cos (th / 2) = c at *
        generalize Real.sin (th / 2) = d at *
        unfold AngleAxis.rodriguesMatrix
        simp only [M3.mk.injEq, V3.mk.injEq]
        refine ⟨⟨?_, ?_, ?_⟩, ⟨?_, ?_, ?_⟩, ?_, ?_, ?_⟩
        · linear_combination (-2 * u.x * u.x + 2) * hsc + 2 * d ^ 2 * hun
        · linear_combination (-2 * u.x * u.y) * hsc
        · linear_combination (-2 * u.x * u.z) * hsc
        · linear_combination (-2 * u.x * u.y) * hsc
        · linear_combination (-2 * u.y * u.y + 2) * hsc + 2 * d ^ 2 * hun
        · linear_combination (-2 * u.y * u.z) * hsc
        · linear_combination (-2 * u.x * u.z) * hsc
        · linear_combination (-2 * u.y * u.z) * hsc
        · linear_combination (-2 * u.z * u.z + 2) * hsc + 2 * d ^ 2 * hun
    · rw [AngleAxis.eq_zero_of_dot h.symm, AngleAxis.toM_zero]
      refine ⟨⟨1, 0, 0, 0⟩, by norm_num, ?_⟩
      simp [M3.one]
  refine ⟨fun m => if h : m.IsRotation then (key m h).choose else ⟨1, 0, 0, 0⟩, fun m hm => ?_⟩
  simp only [dif_pos hm]
  exact (key m hm).choose_spec

/-- C45. If all estimated views are pinhole cameras, the COLMAP files are written and describe the estimated part: camera, image and
point identifiers refer to the right records, and the entries of a point name the right feature of each image. -/
theorem C45_colmap (quat : M3 K → Quat K) (size : ViewId → Nat × Nat)
    (s : Scene K) (oc o : Export.Orders)
    (hquat : ∀ v, ViewEstimated s.recon v → (s.cam v).rot.IsRotation → QuatOf (s.cam v).rot (quat (s.cam v).rot))
    (hcV : ∀ l, (oc.views l).Perm l) (hcT : ∀ l, (oc.tracks l).Perm l)
    (hV : ∀ l, (o.views l).Perm l) (hT : ∀ l, (o.tracks l).Perm l) (hO : ∀ t l, (o.obs t l).Perm l)
    (hF : ∀ v l, (o.feats v l).Perm l) (hG : ∀ l, (o.groups l).Perm l) (hM : ∀ g l, (o.members g l).Perm l)
    (hr : s.recon.Reachable) (hcam : ∀ v, ViewEstimated s.recon v → (s.cam v).pinhole = true ∧ (s.cam v).rot.IsRotation)
    (hw : ∀ t T, s.recon.track t = some T → T.estimated = true → T.payload.w ≠ 0) :
    ∃ e f, IsEstimatedPart s.recon e ∧ writeColmap quat size s oc o = .ok (some f) ∧ IsColmapOf e s.cam size f := by
  obtain ⟨e, hcreate, hre, he⟩ := C60_estimated_part oc.views oc.tracks hcV hcT s.recon hr
  have hi := inv_of_reachable hre
  have hcame : ∀ v V, e.view v = some V → (s.cam v).pinhole = true ∧ (s.cam v).rot.IsRotation := fun v V hv => hcam v (he.views v V hv)
  have hwe : ∀ t T, e.track t = some T → T.payload.w ≠ 0 := by
    intro t T ht
    have hk := he.tracks t T ht
    obtain ⟨T0, hT0, hest0, -⟩ := id hk
    obtain ⟨T', hT', -, hpay, -⟩ := he.track t T0 hT0 hk
    rw [ht] at hT'
    cases hT'
    rw [hpay]
    exact hw t T0 hT0 hest0
  have hlv := listsViews hre (hV e.viewIds)
  have hlt := listsTracks hre (hT e.trackIds)
  have hgr : ∀ v V, e.view v = some V → ∃ g, e.groupOf v = some g := by
    intro v V hv
    exact AMap.mem_keys_iff.1 ((hi.grpDom v).2 (AMap.mem_keys_iff.2 ⟨V, hv⟩))
  have hgv : ∀ v g, e.groupOf v = some g → ∃ V, e.view v = some V := by
    intro v g hg
    exact AMap.mem_keys_iff.1 ((hi.grpDom v).1 (AMap.mem_keys_iff.2 ⟨g, hg⟩))
  have hmem : ∀ g v, v ∈ o.members g (e.viewsInGroup g) ↔ e.groupOf v = some g := by
    intro g v
    rw [(hM g _).mem_iff]
    unfold viewsInGroup
    show _ ↔ e.viewGroup.get v = some g
    rw [hi.grp]
    cases h : e.groups.get g with
    | none => simp
    | some l => simp
  have hgs : ∀ g, g ∈ o.groups e.groupIds ↔ ∃ v V, e.view v = some V ∧ e.groupOf v = some g := by
    intro g
    rw [(hG _).mem_iff]
    constructor
    · intro h
      obtain ⟨l, hl⟩ := AMap.mem_keys_iff.1 h
      obtain ⟨v, hv⟩ := List.exists_mem_of_ne_nil l (hi.neGroup g l hl)
      have hg : e.groupOf v = some g := (hi.grp v g).2 ⟨l, hl, hv⟩
      obtain ⟨V, hV'⟩ := hgv v g hg
      exact ⟨v, V, hV', hg⟩
    · rintro ⟨v, V, -, hg⟩
      obtain ⟨l, hl, -⟩ := (hi.grp v g).1 hg
      exact AMap.mem_keys_iff.2 ⟨l, hl⟩
  rcases colmapCameras_spec size { s with recon := e } o (o.groups e.groupIds) (by
      intro g hg
      obtain ⟨v, V, -, hg⟩ := (hgs g).1 hg
      exact ⟨v, (hmem g v).2 hg⟩) (by
      intro g _ v hv
      exact hgv v g ((hmem g v).1 hv)) with ⟨-, g, -, v, hv, hn⟩ | ⟨l, hcams, hlid, hl⟩
  · obtain ⟨V, hV'⟩ := hgv v g ((hmem g v).1 hv)
    rw [(hcame v V hV').1] at hn
    cases hn
  have himages := colmapImages_ok quat { s with recon := e } o hF (o.views e.viewIds) (by
    intro v hv
    obtain ⟨V, hv⟩ := (hlv.2 v).1 hv
    exact ⟨⟨V, hv⟩, hgr v V hv⟩)
  have hpoints := colmapPoints_ok { s with recon := e } o (o.tracks e.trackIds) (by
    intro t ht
    obtain ⟨T, ht⟩ := (hlt.2 t).1 ht
    refine ⟨T, ht, hwe t T ht, fun v hv => ?_⟩
    rw [(hO t _).mem_iff] at hv
    obtain ⟨V, -, hV', -⟩ := feature_of_track hi ht hv
    exact ⟨V, hV'⟩)
  refine ⟨e, ⟨l, (o.views e.viewIds).map (imageRec quat { s with recon := e } o), (o.tracks e.trackIds).map (colmapRec { s with recon := e } o)⟩, he, ?_, ?_⟩
  · unfold writeColmap
    rw [hcreate]
    simp only [Outcome.ok_bind, hcams, himages, hpoints]
  · have hmapI : ((o.views e.viewIds).map (imageRec quat { s with recon := e } o)).map (·.id) = o.views e.viewIds := by
      rw [List.map_map]
      exact List.map_id _
    have hrecid : ∀ t, (colmapRec { s with recon := e } o t).id = t := by
      intro t
      unfold colmapRec
      simp only
      cases e.track t <;> rfl
    have hmapP : ((o.tracks e.trackIds).map (colmapRec { s with recon := e } o)).map (·.id) = o.tracks e.trackIds := by
      rw [List.map_map]
      have : ((fun p : ColmapPoint K => p.id) ∘ colmapRec { s with recon := e } o) = id := by
        funext t
        exact hrecid t
      rw [this, List.map_id]
    refine ⟨?_, ?_, ?_, ?_, ?_, ?_⟩
    · rw [hlid]
      exact ⟨(hG _).nodup_iff.2 hi.wfGroups, hgs⟩
    · intro c hc
      obtain ⟨v, hv, -, h1, h2, h3, h4, h5⟩ := hl c hc
      have hg := (hmem c.id v).1 hv
      obtain ⟨V, hV'⟩ := hgv v _ hg
      exact ⟨v, V, hV', hg, h1, h2, h3, h4, h5⟩
    · show ListsViews e _
      rw [hmapI]
      exact hlv
    · intro i hi' V hV'
      obtain ⟨v, hv, rfl⟩ := List.mem_map.1 hi'
      have hV'' : e.view v = some V := hV'
      obtain ⟨g, hg⟩ := hgr v V hV''
      have htr : tracksOf e v = V.trackIds := by unfold tracksOf; rw [hV'']
      refine ⟨by simp [imageRec, nameOf, hV''], by simp [imageRec, hg], hquat _ (he.views v V hV'') (hcame v V hV'').2, ?_, ?_, ?_⟩
      · intro X
        simp only [imageRec, M3.mulVec_sub]
        ext <;> simp [V3.add, V3.sub, V3.neg] <;> ring
      · simp only [imageRec, List.map_map]
        have : ((fun x : K × K × TrackId => x.2.2) ∘ fun t => ((featOf e v t).1, (featOf e v t).2, t)) = id := rfl
        rw [this, List.map_id]
        exact (hF v _).nodup_iff.2 (tracksOf_nodup hi v)
      · intro x y t
        simp only [imageRec, List.mem_map, (hF v _).mem_iff, htr, Prod.mk.injEq]
        constructor
        · rintro ⟨u, hu, h1, h2, rfl⟩
          obtain ⟨f, hf⟩ := mem_trackIds_iff.1 hu
          simp only [featOf, hV'', hf, Option.getD_some] at h1 h2
          rw [hf, ← h1, ← h2]
        · intro hf
          exact ⟨t, mem_trackIds_iff.2 ⟨_, hf⟩, by simp [featOf, hV'', hf], by simp [featOf, hV'', hf], rfl⟩
    · show ListsTracks e _
      rw [hmapP]
      exact hlt
    · intro p hp T hT'
      obtain ⟨t, ht, rfl⟩ := List.mem_map.1 hp
      rw [hrecid] at hT'
      have hrec : colmapRec { s with recon := e } o t = ⟨t, posOf T, T.payload.color,
          (o.obs t T.views).map fun v => (v, (o.feats v (tracksOf e v)).idxOf t)⟩ := by
        unfold colmapRec
        simp only [hT']
      rw [hrec]
      have hfst : ((o.obs t T.views).map fun v => (v, (o.feats v (tracksOf e v)).idxOf t)).map (·.1) = o.obs t T.views := by
        rw [List.map_map]
        exact List.map_id _
      refine ⟨posOf_smul (hwe t T hT'), rfl, ?_, ?_, ?_⟩
      · rw [hfst]
        exact (hO t _).nodup_iff.2 (hi.ndTrack t T hT')
      · intro v
        rw [hfst]
        exact (hO t _).mem_iff
      · intro m hm
        obtain ⟨v, hv, rfl⟩ := List.mem_map.1 hm
        rw [(hO t _).mem_iff] at hv
        obtain ⟨V, f, hV', hf⟩ := feature_of_track hi hT' hv
        refine ⟨_, List.mem_map.2 ⟨v, (hlv.2 v).2 ⟨V, hV'⟩, rfl⟩, rfl, (featOf e v t).1, (featOf e v t).2, ?_⟩
        have hin : t ∈ o.feats v (tracksOf e v) := by
          rw [(hF v _).mem_iff]
          unfold tracksOf
          rw [hV']
          exact mem_trackIds_iff.2 ⟨f, hf⟩
        simp only [imageRec, List.getElem?_map]
        rw [List.getElem?_eq_getElem (List.idxOf_lt_length_iff.2 hin), List.getElem_idxOf]
        rfl

/-- C45. If the views of some group of the estimated part are not pinhole cameras, no COLMAP files are promised: the call returns
false. -/
theorem C45_colmap_refuses (quat : M3 K → Quat K) (size : ViewId → Nat × Nat)
    (s : Scene K) (oc o : Export.Orders) (hcV : ∀ l, (oc.views l).Perm l) (hcT : ∀ l, (oc.tracks l).Perm l)
    (hG : ∀ l, (o.groups l).Perm l) (hM : ∀ g l, (o.members g l).Perm l) (hr : s.recon.Reachable) (g : GroupId)
    (hg : ∃ v, ViewEstimated s.recon v ∧ s.recon.groupOf v = some g)
    (hbad : ∀ v, ViewEstimated s.recon v → s.recon.groupOf v = some g → (s.cam v).pinhole = false) :
    writeColmap quat size s oc o = .ok none := by
  obtain ⟨e, hcreate, hre, he⟩ := C60_estimated_part oc.views oc.tracks hcV hcT s.recon hr
  have hi := inv_of_reachable hre
  have hgv : ∀ v g, e.groupOf v = some g → ∃ V, e.view v = some V := by
    intro v g hg
    exact AMap.mem_keys_iff.1 ((hi.grpDom v).1 (AMap.mem_keys_iff.2 ⟨g, hg⟩))
  have hmem : ∀ g v, v ∈ o.members g (e.viewsInGroup g) ↔ e.groupOf v = some g := by
    intro g v
    rw [(hM g _).mem_iff]
    unfold viewsInGroup
    show _ ↔ e.viewGroup.get v = some g
    rw [hi.grp]
    cases h : e.groups.get g with
    | none => simp
    | some l => simp
  obtain ⟨v0, hv0, hg0⟩ := hg
  have hge : e.groupOf v0 = some g := (he.groups v0 g).2 ⟨hg0, hv0⟩
  obtain ⟨l0, hl0, -⟩ := (hi.grp v0 g).1 hge
  have hgin : g ∈ o.groups e.groupIds := (hG _).mem_iff.2 (AMap.mem_keys_iff.2 ⟨l0, hl0⟩)
  rcases colmapCameras_spec size { s with recon := e } o (o.groups e.groupIds) (by
      intro g hg
      rw [(hG _).mem_iff] at hg
      obtain ⟨l, hl⟩ := AMap.mem_keys_iff.1 hg
      obtain ⟨v, hv⟩ := List.exists_mem_of_ne_nil l (hi.neGroup g l hl)
      exact ⟨v, (hmem g v).2 ((hi.grp v g).2 ⟨l, hl, hv⟩)⟩) (by
      intro g _ v hv
      exact hgv v g ((hmem g v).1 hv)) with ⟨hnone, -⟩ | ⟨l, -, hlid, hl⟩
  · unfold writeColmap
    rw [hcreate]
    simp only [Outcome.ok_bind, hnone]
  · rw [← hlid] at hgin
    obtain ⟨c, hc, rfl⟩ := List.mem_map.1 hgin
    obtain ⟨v, hv, hp, -⟩ := hl c hc
    obtain ⟨h1, h2⟩ := (he.groups v c.id).1 ((hmem c.id v).1 hv)
    have hb : (s.cam v).pinhole = false := hbad v h2 h1
    have hp' : (s.cam v).pinhole = true := hp
    rw [hb] at hp'
    cases hp'

/-- C45. The PLY file has one vertex for each estimated track with enough observations and one for each estimated view, and the
number of vertices in the header is right. -/
theorem C45_ply (s : Scene K) (min : Int) (o1 o : Export.Orders) (h1 : ∀ l, (o1.tracks l).Perm l) (hV : ∀ l, (o.views l).Perm l)
    (hT : ∀ l, (o.tracks l).Perm l) (hr : s.recon.Reachable)
    (hw : ∀ t T, s.recon.track t = some T → T.estimated = true → T.payload.w ≠ 0) :
    ∃ f tids ids, writePly s min o1 o = .ok f ∧ IsPlyOf s min tids ids f := by
  have hl1 := listsTracks hr (h1 s.recon.trackIds)
  obtain ⟨r, hf, hd⟩ := plyFilter_spec min (o1.tracks s.recon.trackIds) hr hl1.1 (fun t ht => (hl1.2 t).1 ht)
  have htrack : ∀ t T, r.track t = some T ↔ s.recon.track t = some T ∧ T.estimated = true ∧ min ≤ T.views.length := by
    intro t T
    rw [hd.track]
    cases h : s.recon.track t with
    | none => simp
    | some T' =>
      have hin : t ∈ o1.tracks s.recon.trackIds := (hl1.2 t).2 ⟨T', h⟩
      simp only [hin, decide_true, Bool.true_and, plyWeak, h]
      by_cases hb : T'.estimated = false ∨ (T'.views.length : Int) < min
      · simp only [hb, decide_true, if_true, reduceCtorEq, false_iff, Option.some.injEq, not_and]
        rintro rfl he
        rcases hb with hb | hb
        · rw [he] at hb; cases hb
        · exact not_le.2 hb
      · simp only [hb, decide_false, Bool.false_eq_true, if_false, Option.some.injEq]
        push Not at hb
        constructor
        · rintro rfl
          exact ⟨rfl, by simpa using hb.1, hb.2⟩
        · exact fun h => h.1
  have hlt := listsTracks hd.reach (hT r.trackIds)
  have hlv := listsViews hd.reach (hV r.viewIds)
  have hest : ∀ v, isEst r v = true ↔ ∃ V, s.recon.view v = some V ∧ V.estimated = true := by
    intro v
    unfold isEst
    cases h : s.recon.view v with
    | none => rw [hd.viewNone v h]; simp
    | some V =>
      obtain ⟨V', hV', -, he, -⟩ := hd.viewSome v V h
      rw [hV']
      simp [he]
  have hview : ∀ v, (∃ V, s.recon.view v = some V ∧ V.estimated = true) → v ∈ o.views r.viewIds := by
    rintro v ⟨V, hV', -⟩
    obtain ⟨V', hV'', -⟩ := hd.viewSome v V hV'
    exact (hlv.2 v).2 ⟨V', hV''⟩
  have hpt := plyTracks_ok r (o.tracks r.trackIds) (by
    intro t ht
    obtain ⟨T, ht⟩ := (hlt.2 t).1 ht
    obtain ⟨h1, h2, -⟩ := (htrack t T).1 ht
    exact ⟨T, ht, hw t T h1 h2⟩)
  have hcm := plyCameras_ok { s with recon := r } (o.views r.viewIds) (fun v hv => (hlv.2 v).1 hv)
  refine ⟨⟨((o.tracks r.trackIds).map (plyVertex r) ++
      ((o.views r.viewIds).filter (isEst r)).map fun v => ((s.cam v).pos, (0, 255, 0))).length,
    (o.tracks r.trackIds).map (plyVertex r) ++ ((o.views r.viewIds).filter (isEst r)).map fun v => ((s.cam v).pos, (0, 255, 0))⟩,
    o.tracks r.trackIds, (o.views r.viewIds).filter (isEst r), ?_, ?_⟩
  · unfold writePly
    rw [hf]
    simp only [Outcome.ok_bind, hpt, hcm]
  · refine ⟨⟨hlt.1, fun t => ?_⟩, ⟨hlv.1.filter _, fun v => ?_⟩, ⟨rfl, ?_⟩, ?_, ?_⟩
    · rw [hlt.2]
      exact exists_congr fun T => htrack t T
    · rw [List.mem_filter, hest]
      exact ⟨fun h => h.2, fun h => ⟨hview v h, h⟩⟩
    · rw [List.length_append, List.length_map, List.length_map]
    · intro j t T x hj ht hx
      have hjl := (List.getElem?_eq_some_iff.1 hj).1
      simp only at hx
      rw [List.getElem?_append_left (by simpa using hjl), List.getElem?_map, hj, Option.map_some, Option.some.injEq] at hx
      subst hx
      obtain ⟨T', ht'⟩ := (hlt.2 t).1 (List.mem_of_getElem? hj)
      obtain ⟨h2, h3, -⟩ := (htrack t T').1 ht'
      rw [ht] at h2
      cases h2
      simp only [plyVertex, ht']
      exact ⟨posOf_smul (hw t T ht h3), trivial⟩
    · intro j v x hj hx
      simp only at hx
      rw [List.getElem?_append_right (by simp), List.length_map, Nat.add_sub_cancel_left, List.getElem?_map] at hx
      have hj' : ((o.views r.viewIds).filter (isEst r))[j]? = some v := hj
      rw [hj', Option.map_some, Option.some.injEq] at hx
      exact hx.symm


/-! ## Examples and counterexamples -/

def exportId : Export.Orders := ⟨id, id, fun _ => id, fun _ => id, id, fun _ => id⟩

def exportRev : Export.Orders :=
  ⟨List.reverse, List.reverse, fun _ => List.reverse, fun _ => List.reverse, List.reverse, fun _ => List.reverse⟩

/-- The rotation of `exportCam` is about the third axis, with half angle `arctan (3 / 4)`. -/
def exportCam : Cam ℚ := ⟨true, 500, 1 / 10, 1 / 20, 320, 240, ⟨⟨7 / 25, -24 / 25, 0⟩, ⟨24 / 25, 7 / 25, 0⟩, ⟨0, 0, 1⟩⟩, ⟨1, 2, 3⟩⟩

def exportQuat : M3 ℚ → Quat ℚ := fun m => if m = exportCam.rot then ⟨4 / 5, 0, 0, 3 / 5⟩ else ⟨1, 0, 0, 0⟩

def exportNew : Cam ℚ := ⟨true, 1, 0, 0, 0, 0, M3.one, ⟨0, 0, 0⟩⟩

def exportScene : Scene ℚ := ⟨bundlerRecon bundlerOps, fun _ => exportCam, fun _ => none⟩

/-- The scene meets the hypotheses of `C45_nvm`, `C45_nvm_round_trip_partial`, `C45_colmap` and `C45_ply`. -/
example : exportScene.recon.Reachable ∧ QuatOf exportCam.rot (exportQuat exportCam.rot) ∧ exportCam.rot.IsRotation ∧
    2 ≤ exportScene.recon.numViews ∧ 1 ≤ exportScene.recon.numTracks ∧
    (∀ x ∈ exportScene.recon.views.entries, ∀ y ∈ exportScene.recon.views.entries, bundlerBase x.2.name ≠ "" ∧
      (bundlerBase x.2.name = bundlerBase y.2.name → x.1 = y.1)) ∧
    (∀ x ∈ exportScene.recon.tracks.entries, x.2.payload.w ≠ 0 ∧ 2 ≤ x.2.views.length ∧ x.2.payload.color.1 < 256 ∧
      x.2.payload.color.2.1 < 256 ∧ x.2.payload.color.2.2 < 256) := by
  refine ⟨bundlerRecon_reachable bundlerOps, ?_, ?_, ?_, ?_, ?_, ?_⟩
  · constructor <;> decide +kernel
  · refine ⟨?_, ?_, ?_⟩ <;> decide +kernel
  all_goals decide +kernel

/-- A group of fisheye cameras meets the hypotheses of `C45_colmap_refuses`. -/
example : writeColmap exportQuat (fun _ => (640, 480)) { exportScene with cam := fun _ => { exportCam with pinhole := false } }
    exportId exportRev = .ok none := by decide +kernel

def exportNvm (s : Scene ℚ) : NvmFile ℚ :=
  match writeNvm exportQuat s exportRev with
  | .ok f => f
  | _ => ⟨0, [], 0, []⟩

def exportLoaded (s : Scene ℚ) : Loaded ℚ :=
  match importNvm bundlerBase exportNew (exportNvm s) bundlerNew with
  | .ok s' => s'
  | _ => bundlerNew

/-- C45. A view and a track that are not estimated are estimated after writing and importing an NVM file. -/
theorem C45_nvm_estimated_counterexample :
    exportScene.recon.Reachable ∧ EstimatedPart.numEstimatedViews exportScene.recon = 2 ∧ (∃ x ∈ exportScene.recon.tracks.entries, x.2.estimated = false) ∧
      ∃ f s', writeNvm exportQuat exportScene exportRev = .ok f ∧ importNvm bundlerBase exportNew f bundlerNew = .ok s' ∧
        EstimatedPart.numEstimatedViews s'.recon = 3 ∧ ∀ x ∈ s'.recon.tracks.entries, x.2.estimated = true :=
  ⟨bundlerRecon_reachable bundlerOps, by decide +kernel, by decide +kernel, exportNvm exportScene, exportLoaded exportScene, by decide +kernel, by decide +kernel,
    by decide +kernel, by decide +kernel⟩

/-- C45. The radial distortion is written to the NVM file, and lost when it is imported. -/
theorem C45_nvm_distortion_counterexample :
    exportScene.recon.Reachable ∧ (∀ v, (exportScene.cam v).k1 = 1 / 10) ∧
      ∃ f s', writeNvm exportQuat exportScene exportRev = .ok f ∧ (∀ c ∈ f.cams, c.k1 = 1 / 10) ∧
        importNvm bundlerBase exportNew f bundlerNew = .ok s' ∧ ∀ x ∈ s'.cams.entries, x.2.k1 = 0 :=
  ⟨bundlerRecon_reachable bundlerOps, fun _ => rfl, exportNvm exportScene, exportLoaded exportScene, by decide +kernel, by decide +kernel,
    by decide +kernel, by decide +kernel⟩

/-- C45. A reconstruction without tracks, or with a single view, or with a track of one view, is written as an NVM file that cannot be
imported. -/
theorem C45_nvm_import_aborts_counterexample :
    ∀ ops ∈ ([[.addView "a", .addView "b"], [.addView "a"],
        [.addView "a", .addView "b", .addTrack ⟨⟨0, 0, 0⟩, 1, (0, 0, 0)⟩ [(0, (1, 2)), (1, (3, 4))], .removeView 0, .addView "c"]] :
        List (List (Reconstruction.Op (ℚ × ℚ) (Point ℚ)))),
      ∃ s : Scene ℚ, s.recon = bundlerRecon ops ∧ s.recon.Reachable ∧
        ∃ f, writeNvm exportQuat s exportRev = .ok f ∧ importNvm bundlerBase exportNew f bundlerNew = .abort := by
  intro ops hops
  refine ⟨⟨bundlerRecon ops, fun _ => exportCam, fun _ => none⟩, rfl, bundlerRecon_reachable ops,
    exportNvm ⟨bundlerRecon ops, fun _ => exportCam, fun _ => none⟩, ?_⟩
  simp only [List.mem_cons, List.mem_nil_iff, or_false] at hops
  rcases hops with rfl | rfl | rfl <;> constructor <;> decide +kernel

/-- C45. A camera of another model aborts the program, instead of being refused. -/
theorem C45_nvm_other_model_counterexample :
    exportScene.recon.Reachable ∧
      writeNvm exportQuat { exportScene with cam := fun _ => { exportCam with pinhole := false } } exportRev = .abort :=
  ⟨bundlerRecon_reachable bundlerOps, by decide +kernel⟩

def exportColmap (s : Scene ℚ) : ColmapFiles ℚ :=
  match writeColmap exportQuat (fun _ => (640, 480)) s exportId exportRev with
  | .ok (some f) => f
  | _ => ⟨[], [], []⟩

/-- C45. The COLMAP cameras have the first coefficient of the distortion in place of the second. -/
theorem C45_colmap_distortion_counterexample :
    exportScene.recon.Reachable ∧ (∀ v, (exportScene.cam v).k2 = 1 / 20) ∧
      ∃ f, writeColmap exportQuat (fun _ => (640, 480)) exportScene exportId exportRev = .ok (some f) ∧ f.cameras ≠ [] ∧
        ∀ c ∈ f.cameras, c.k2 = 1 / 10 :=
  ⟨bundlerRecon_reachable bundlerOps, fun _ => rfl, exportColmap exportScene, by decide +kernel, by decide +kernel, by decide +kernel⟩

/-- Two views of one group with different cameras. -/
def exportShared : List (Reconstruction.Op (ℚ × ℚ) (Point ℚ)) :=
  [.addViewToGroup "a" 3, .addViewToGroup "b" 3, .setViewEstimated 0 true, .setViewEstimated 1 true]

/-- C45. If only one camera of a group is a pinhole camera, the result depends on the order of the group. -/
theorem C45_colmap_mixed_group_counterexample :
    let s : Scene ℚ := ⟨bundlerRecon exportShared, fun v => if v = 0 then exportCam else { exportCam with pinhole := false }, fun _ => none⟩
    s.recon.Reachable ∧ writeColmap exportQuat (fun _ => (640, 480)) s exportId exportId ≠ .ok none ∧
      writeColmap exportQuat (fun _ => (640, 480)) s exportId exportRev = .ok none :=
  ⟨bundlerRecon_reachable exportShared, by decide +kernel, by decide +kernel⟩

end Theia
