import Mathlib.Data.List.Nodup
import Verif.Proof.Reconstruction
import Verif.Spec.EstimateTrack

/-! # Lemmas on the track estimator -/

namespace Theia
namespace TrackEstimator

open Spec

variable {F P : Type}

theorem decide_estimated (geo : Geometry F P) (o : Options) (obs : List (ViewId × F)) (p : P) :
    ((decide' geo o obs p).1 = .estimated ↔ Estimable geo o obs p) ∧
    ((decide' geo o obs p).2.1 = true ↔ Estimable geo o obs p) ∧
    (Estimable geo o obs p → (decide' geo o obs p).2.2 = finalPoint geo o obs p) := by
  unfold decide' Estimable finalPoint
  by_cases h1 : obs.length < 2
  · have : ¬ 2 ≤ obs.length := by omega
    simp [h1, this]
  · by_cases h2 : geo.angleOk obs = true
    · by_cases h3 : (geo.triangulate obs p).1 = true
      · cases hb : o.bundleAdjustment
        · by_cases h5 : geo.acceptable obs (geo.triangulate obs p).2 = true
          · simp [h1, h2, h3, h5]; omega
          · simp [h1, h2, h3, h5]
        · by_cases h4 : (geo.bundle obs (geo.triangulate obs p).2).1 = true
          · by_cases h5 : geo.acceptable obs (geo.bundle obs (geo.triangulate obs p).2).2 = true
            · simp [h1, h2, h3, h4, h5]; omega
            · simp [h1, h2, h3, h4, h5]
          · simp [h1, h2, h3, h4]
      · simp [h1, h2, h3]
    · simp [h1, h2]

theorem observations_ok (r : Reconstruction F P) (t : TrackId) (vs : List ViewId)
    (h : ∀ v ∈ vs, ∀ V, r.view v = some V → ∃ f, V.getFeature t = some f) :
    observations r t vs = .ok (usedObservations r t vs) := by
  induction vs with
  | nil => rfl
  | cons v vs ih =>
    have ih := ih (fun w hw => h w (by simp [hw]))
    unfold observations
    cases hv : r.view v with
    | none =>
      simp only [ih, usedObservations, List.filterMap_cons, hv, Option.bind_none]
    | some V =>
      obtain ⟨f, hf⟩ := h v (by simp) V hv
      cases he : V.estimated with
      | false =>
        simp only [ih, usedObservations, List.filterMap_cons, hv, Option.bind_some, he,
          Bool.false_eq_true, if_false]
      | true =>
        simp only [ih, usedObservations, List.filterMap_cons, hv, Option.bind_some, he, if_true, hf,
          Option.map_some]

theorem observations_congr {r r' : Reconstruction F P} (h : r'.views = r.views) (t : TrackId)
    (vs : List ViewId) : observations r' t vs = observations r t vs := by
  induction vs with
  | nil => rfl
  | cons v vs ih =>
    unfold observations
    simp only [ih, Reconstruction.view, h]

theorem usedObservations_congr {r r' : Reconstruction F P} (h : r'.views = r.views) (t : TrackId)
    (vs : List ViewId) : usedObservations r' t vs = usedObservations r t vs := by
  simp only [usedObservations, Reconstruction.view, h]

/-- What becomes of a track. -/
def after (geo : Geometry F P) (o : Options) (r : Reconstruction F P) (t : TrackId) (T : Track P) :
    Track P :=
  let d := decide' geo o (usedObservations r t T.views) T.payload
  { T with estimated := d.2.1, payload := d.2.2 }

theorem runCalls_spec (geo : Geometry F P) (o : Options) (calls : List TrackId) (hn : calls.Nodup)
    (r : Reconstruction F P)
    (h : ∀ t ∈ calls, ∃ T, r.track t = some T ∧ T.estimated = false ∧
      observations r t T.views = .ok (usedObservations r t T.views)) :
    ∃ rs r', runCalls geo o calls r = .ok (rs, r') ∧ rs.map (·.1) = calls ∧
      (∀ x ∈ rs, ∃ T, r.track x.1 = some T ∧
        x.2 = (decide' geo o (usedObservations r x.1 T.views) T.payload).1) ∧
      r' = { r with tracks := r'.tracks } ∧
      (∀ t, r'.track t = if t ∈ calls then (r.track t).map (after geo o r t) else r.track t) ∧
      r'.tracks.keys = r.tracks.keys := by
  induction calls generalizing r with
  | nil => exact ⟨[], r, rfl, rfl, by simp, rfl, by simp, rfl⟩
  | cons t ts ih =>
    rw [List.nodup_cons] at hn
    obtain ⟨T, hT, he, ho⟩ := h t (by simp)
    have hstep : estimateTrack geo o r t =
        .ok ((decide' geo o (usedObservations r t T.views) T.payload).1,
          { r with tracks := r.tracks.insert t (after geo o r t T) }) := by
      unfold estimateTrack
      simp only [hT, he, Bool.false_eq_true, if_false, ho]
      rfl
    have hget : ∀ t', ({ r with tracks := r.tracks.insert t (after geo o r t T) } :
        Reconstruction F P).track t' = if t' = t then some (after geo o r t T) else r.track t' := by
      intro t'
      simp only [Reconstruction.track, AMap.get_insert]
    have hne : ∀ t' ∈ ts, t' ≠ t := by rintro t' h' rfl; exact hn.1 h'
    obtain ⟨rs, r', e, h1, h2, h3, h4, h5⟩ := ih hn.2 { r with tracks := r.tracks.insert t (after geo o r t T) } (by
      intro t' ht'
      obtain ⟨T', hT', he', ho'⟩ := h t' (by simp [ht'])
      refine ⟨T', by rw [hget, if_neg (hne t' ht')]; exact hT', he', ?_⟩
      exact (observations_congr (r := r)
        (r' := { r with tracks := r.tracks.insert t (after geo o r t T) }) rfl t' T'.views).trans ho')
    refine ⟨(t, (decide' geo o (usedObservations r t T.views) T.payload).1) :: rs, r', ?_, ?_, ?_, ?_, ?_, ?_⟩
    · unfold runCalls
      simp only [hstep, e]
    · simp [h1]
    · intro x hx
      rcases List.mem_cons.1 hx with rfl | hx
      · exact ⟨T, hT, rfl⟩
      · obtain ⟨T', hT', hx2⟩ := h2 x hx
        have hxt : x.1 ∈ ts := by rw [← h1]; exact List.mem_map_of_mem hx
        rw [hget, if_neg (hne _ hxt)] at hT'
        refine ⟨T', hT', ?_⟩
        exact hx2
    · rw [h3]
    · intro t'
      rw [h4]
      by_cases htt : t' = t
      · subst htt
        rw [if_neg hn.1, hget, if_pos rfl, if_pos (by simp), hT]
        rfl
      · rw [hget, if_neg htt]
        by_cases ht' : t' ∈ ts
        · rw [if_pos ht', if_pos (by simp [ht'])]
          rfl
        · rw [if_neg ht', if_neg (by simp [ht', htt])]
    · rw [h5]
      have hmem : t ∈ r.tracks.keys := AMap.mem_keys_iff.2 ⟨T, hT⟩
      simp only [AMap.keys_insert, if_pos hmem]

theorem toEstimate_spec (r : Reconstruction F P) (ids : List TrackId)
    (h : ∀ t ∈ ids, ∃ T, r.track t = some T) :
    toEstimate r ids = .ok (ids.filter (fun t => (r.track t).any (fun T => !T.estimated))) := by
  induction ids with
  | nil => rfl
  | cons t ts ih =>
    obtain ⟨T, hT⟩ := h t (by simp)
    unfold toEstimate
    simp only [hT, ih (fun t' ht' => h t' (by simp [ht'])), List.filter_cons, Option.any_some]
    cases T.estimated <;> simp

theorem range_map_append (a b c : Nat) (h1 : a ≤ b) (h2 : b ≤ c) :
    (List.range (b - a)).map (a + ·) ++ (List.range (c - b)).map (b + ·) =
      (List.range (c - a)).map (a + ·) := by
  have : c - a = (b - a) + (c - b) := by omega
  rw [this, List.range_add, List.map_append, List.map_map]
  congr 1
  apply List.map_congr_left
  intro x _
  simp only [Function.comp_apply]
  omega

theorem chunkLoop_cover (n step : Nat) (hs : 1 ≤ step) (fuel i : Nat) (hf : n ≤ i + fuel) (hi : i ≤ n) :
    (chunkLoop n step fuel i).flatMap chunkIndices = (List.range (n - i)).map (i + ·) := by
  induction fuel generalizing i with
  | zero =>
    have : n - i = 0 := by omega
    simp [chunkLoop, this]
  | succ fuel ih =>
    unfold chunkLoop
    by_cases hlt : i < n
    · rw [if_pos hlt, List.flatMap_cons]
      by_cases hle : i + step ≤ n
      · rw [ih (i + step) (by omega) hle]
        have : min n (i + step) = i + step := by omega
        simp only [chunkIndices, this]
        exact range_map_append i (i + step) n (by omega) hle
      · have h2 : chunkLoop n step fuel (i + step) = [] := by
          cases fuel with
          | zero => rfl
          | succ f => unfold chunkLoop; rw [if_neg (by omega)]
        have : min n (i + step) = n := by omega
        rw [h2]
        simp only [chunkIndices, this, List.flatMap_nil, List.append_nil]
    · rw [if_neg hlt]
      have : n - i = 0 := by omega
      simp [this]

theorem mapM_range (ts : List TrackId) (schedule : List Nat) (h : ∀ i ∈ schedule, i < ts.length) :
    schedule.mapM (fun i => ts[i]?) = some (schedule.map (fun i => ts.getD i 0)) := by
  induction schedule with
  | nil => rfl
  | cons i is ih =>
    rw [List.mapM_cons, ih (fun j hj => h j (by simp [hj]))]
    have := h i (by simp)
    simp [List.getElem?_eq_getElem this, List.getD_eq_getElem?_getD]

theorem map_getD_range (ts : List TrackId) : (List.range ts.length).map (fun i => ts.getD i 0) = ts := by
  apply List.ext_getElem
  · simp
  · intro i h1 h2
    simp [List.getD_eq_getElem?_getD, List.getElem?_eq_getElem h2]

end TrackEstimator
end Theia
