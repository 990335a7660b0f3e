import Verif.Model.Transform
import Verif.Spec.Transform
import Mathlib.Tactic.FieldSimp
import Mathlib.Tactic.Linarith

/-!
# Lemmas on similarity transformations
-/

namespace Theia

namespace AMap

variable {κ : Type u} {ν : Type v} [DecidableEq κ]

theorem entries_eq_filterMap {m : AMap κ ν} (h : m.WF) :
    m.entries = m.keys.filterMap (fun k => (m.get k).map (fun v => (k, v))) := by
  unfold keys
  rw [List.filterMap_map]
  have : ∀ e ∈ m.entries, ((fun k => (m.get k).map (fun v => (k, v))) ∘ (fun e : κ × ν => e.1)) e = some e := by
    intro e he
    simp only [Function.comp]
    rw [get_of_mem_entries h (k := e.1) (v := e.2) he]
    rfl
  rw [List.filterMap_congr this]
  simp

theorem ext_keys_get {m m' : AMap κ ν} (h : m.WF) (hk : m.keys = m'.keys) (hg : ∀ k, m.get k = m'.get k) :
    m = m' := by
  have h' : m'.WF := by
    unfold WF at h ⊢
    rw [← hk]
    exact h
  have e : m.entries = m'.entries := by
    rw [entries_eq_filterMap h, entries_eq_filterMap h', hk]
    exact List.filterMap_congr fun k _ => by rw [hg]
  cases m
  cases m'
  simp only at e
  rw [e]

end AMap

namespace Transform

variable {K I P : Type} [Field K]

/-- The change of one view. -/
def changeView (rep : Rep K) (r : M3 K) (t : V3 K) (s : K) (v : View rep.A I K) : View rep.A I K :=
  if v.estimated then transformCamera rep r t s v else v

/-- The change of one track. -/
def changeTrack (r : M3 K) (t : V3 K) (s : K) (x : Track K) : Track K :=
  if x.estimated then ⟨true, transformPoint r t s (x.xyz.smul x.w⁻¹), 1⟩ else x

/-- The reconstruction after the transformation. -/
def image (rep : Rep K) (r : M3 K) (t : V3 K) (s : K) (sc : Scene rep.A I K) : Scene rep.A I K :=
  ⟨sc.views.mapVals fun _ => changeView rep r t s, sc.tracks.mapVals fun _ => changeTrack r t s⟩

theorem viewLoop_spec (rep : Rep K) (r : M3 K) (t : V3 K) (s : K) : ∀ (vs : List Nat) (sc : Scene rep.A I K),
    vs.Nodup → (∀ v ∈ vs, v ∈ sc.views.keys) →
    ∃ sc', viewLoop rep r t s vs sc = .ok sc' ∧ sc'.tracks = sc.tracks ∧ sc'.views.keys = sc.views.keys ∧
      ∀ v, sc'.views.get v = (sc.views.get v).map (fun x => if v ∈ vs then changeView rep r t s x else x) := by
  intro vs
  induction vs with
  | nil =>
    intro sc _ _
    exact ⟨sc, rfl, rfl, rfl, by intro v; simp⟩
  | cons v vs ih =>
    intro sc hnd hmem
    rw [List.nodup_cons] at hnd
    obtain ⟨view, hview⟩ := AMap.mem_keys_iff.1 (hmem v (List.mem_cons_self ..))
    unfold viewLoop
    simp only [hview]
    by_cases he : view.estimated
    · simp only [he, if_true]
      have hk : (sc.views.insert v (transformCamera rep r t s view)).keys = sc.views.keys := by
        rw [AMap.keys_insert, if_pos (hmem v (List.mem_cons_self ..))]
      obtain ⟨sc', h1, h2, h3, h4⟩ := ih
        { sc with views := sc.views.insert v (transformCamera rep r t s view) } hnd.2 (by
          intro x hx
          simp only [hk]
          exact hmem x (List.mem_cons_of_mem _ hx))
      refine ⟨sc', h1, h2, by rw [h3]; exact hk, ?_⟩
      intro x
      rw [h4]
      simp only [AMap.get_insert]
      by_cases hx : x = v
      · subst hx
        simp [hnd.1, hview, changeView, he]
      · simp [hx]
    · simp only [he, Bool.false_eq_true, if_false]
      obtain ⟨sc', h1, h2, h3, h4⟩ := ih sc hnd.2 (fun x hx => hmem x (List.mem_cons_of_mem _ hx))
      refine ⟨sc', h1, h2, h3, ?_⟩
      intro x
      rw [h4]
      by_cases hx : x = v
      · subst hx
        simp [hnd.1, hview, changeView, he]
      · simp [hx]

variable [DecidableEq K]

theorem trackLoop_spec (rep : Rep K) (r : M3 K) (t : V3 K) (s : K) : ∀ (ts : List Nat) (sc : Scene rep.A I K),
    ts.Nodup → (∀ x ∈ ts, x ∈ sc.tracks.keys) →
    (∀ x ∈ ts, ∀ y, sc.tracks.get x = some y → y.estimated = true → y.w ≠ 0) →
    ∃ sc', trackLoop rep r t s ts sc = .ok sc' ∧ sc'.views = sc.views ∧ sc'.tracks.keys = sc.tracks.keys ∧
      ∀ v, sc'.tracks.get v = (sc.tracks.get v).map (fun x => if v ∈ ts then changeTrack r t s x else x) := by
  intro ts
  induction ts with
  | nil =>
    intro sc _ _ _
    exact ⟨sc, rfl, rfl, rfl, by intro v; simp⟩
  | cons v vs ih =>
    intro sc hnd hmem hw
    rw [List.nodup_cons] at hnd
    obtain ⟨track, htrack⟩ := AMap.mem_keys_iff.1 (hmem v (List.mem_cons_self ..))
    unfold trackLoop
    simp only [htrack]
    by_cases he : track.estimated
    · simp only [he, if_true]
      rw [if_neg (hw v (List.mem_cons_self ..) track htrack he)]
      have hk : (sc.tracks.insert v ⟨true, transformPoint r t s (track.xyz.smul track.w⁻¹), 1⟩).keys =
          sc.tracks.keys := by
        rw [AMap.keys_insert, if_pos (hmem v (List.mem_cons_self ..))]
      obtain ⟨sc', h1, h2, h3, h4⟩ := ih
        { sc with tracks := sc.tracks.insert v ⟨true, transformPoint r t s (track.xyz.smul track.w⁻¹), 1⟩ } hnd.2 (by
          intro x hx
          simp only [hk]
          exact hmem x (List.mem_cons_of_mem _ hx)) (by
          intro x hx y hy
          simp only [AMap.get_insert] at hy
          have hne : x ≠ v := fun h => hnd.1 (h ▸ hx)
          rw [if_neg hne] at hy
          exact hw x (List.mem_cons_of_mem _ hx) y hy)
      refine ⟨sc', h1, h2, by rw [h3]; exact hk, ?_⟩
      intro x
      rw [h4]
      simp only [AMap.get_insert]
      by_cases hx : x = v
      · subst hx
        simp [hnd.1, htrack, changeTrack, he]
      · simp [hx]
    · simp only [he, Bool.false_eq_true, if_false]
      obtain ⟨sc', h1, h2, h3, h4⟩ := ih sc hnd.2 (fun x hx => hmem x (List.mem_cons_of_mem _ hx))
        (fun x hx => hw x (List.mem_cons_of_mem _ hx))
      refine ⟨sc', h1, h2, h3, ?_⟩
      intro x
      rw [h4]
      by_cases hx : x = v
      · subst hx
        simp [hnd.1, htrack, changeTrack, he]
      · simp [hx]

theorem trackLoop_ub (rep : Rep K) (r : M3 K) (t : V3 K) (s : K) : ∀ (ts : List Nat) (sc : Scene rep.A I K),
    ts.Nodup → (∃ x ∈ ts, ∃ y, sc.tracks.get x = some y ∧ y.estimated = true ∧ y.w = 0) →
    trackLoop rep r t s ts sc = .ub := by
  intro ts
  induction ts with
  | nil => intro sc _ h; obtain ⟨x, hx, _⟩ := h; cases hx
  | cons v vs ih =>
    intro sc hnd h
    rw [List.nodup_cons] at hnd
    obtain ⟨x, hx, y, hy, hye, hyw⟩ := h
    unfold trackLoop
    rcases List.mem_cons.1 hx with rfl | hx
    · simp [hy, hye, hyw]
    · have hne : x ≠ v := fun h => hnd.1 (h ▸ hx)
      split
      · rfl
      · split
        · split
          · rfl
          · refine ih _ hnd.2 ⟨x, hx, y, ?_, hye, hyw⟩
            simp only [AMap.get_insert, if_neg hne]
            exact hy
        · exact ih _ hnd.2 ⟨x, hx, y, hy, hye, hyw⟩

/-- No estimated track is at infinity. -/
def Finite {A : Type} (sc : Scene A I K) : Prop :=
  ∀ t y, sc.tracks.get t = some y → y.estimated = true → y.w ≠ 0

theorem transform_eq (rep : Rep K) (r : M3 K) (t : V3 K) (s : K) (sc : Scene rep.A I K) (hv : sc.views.WF)
    (ht : sc.tracks.WF) (hf : Finite sc) : transform rep r t s sc = .ok (image rep r t s sc) := by
  unfold transform
  obtain ⟨sc1, h1, h2, h3, h4⟩ := viewLoop_spec rep r t s sc.views.keys sc hv (fun _ h => h)
  rw [h1]
  simp only
  obtain ⟨sc2, i1, i2, i3, i4⟩ := trackLoop_spec rep r t s sc1.tracks.keys sc1
    (by rw [h2]; exact ht) (fun _ h => h) (by intro x _ y hy; rw [h2] at hy; exact hf x y hy)
  rw [i1]
  congr 1
  have e1 : sc2.views = (image rep r t s sc).views := by
    rw [i2]
    refine AMap.ext_keys_get ?_ ?_ ?_
    · unfold AMap.WF
      rw [h3]
      exact hv
    · unfold image
      rw [AMap.keys_mapVals, h3]
    · intro k
      unfold image
      rw [AMap.get_mapVals, h4]
      cases hg : sc.views.get k with
      | none => rfl
      | some x =>
        have : k ∈ sc.views.keys := AMap.mem_keys_iff.2 ⟨x, hg⟩
        simp [this]
  have e2 : sc2.tracks = (image rep r t s sc).tracks := by
    refine AMap.ext_keys_get ?_ ?_ ?_
    · unfold AMap.WF
      rw [i3, h2]
      exact ht
    · unfold image
      rw [AMap.keys_mapVals, i3, h2]
    · intro k
      unfold image
      rw [AMap.get_mapVals, i4, h2]
      cases hg : sc.tracks.get k with
      | none => rfl
      | some x =>
        have : k ∈ sc.tracks.keys := AMap.mem_keys_iff.2 ⟨x, hg⟩
        simp [this]
  cases sc2
  simp only at e1 e2
  rw [e1, e2]

theorem finite_of_transform (rep : Rep K) (r : M3 K) (t : V3 K) (s : K) {sc sc' : Scene rep.A I K} (hv : sc.views.WF)
    (ht : sc.tracks.WF) (h : transform rep r t s sc = .ok sc') : Finite sc := by
  intro x y hy hye hyw
  unfold transform at h
  obtain ⟨sc1, h1, h2, h3, h4⟩ := viewLoop_spec rep r t s sc.views.keys sc hv (fun _ h => h)
  rw [h1] at h
  simp only at h
  rw [trackLoop_ub rep r t s sc1.tracks.keys sc1 (by rw [h2]; exact ht)
    ⟨x, by rw [h2]; exact AMap.mem_keys_iff.2 ⟨y, hy⟩, y, by rw [h2]; exact hy, hye, hyw⟩] at h
  cases h

theorem transform_ok (rep : Rep K) (r : M3 K) (t : V3 K) (s : K) {sc sc' : Scene rep.A I K} (hv : sc.views.WF)
    (ht : sc.tracks.WF) (h : transform rep r t s sc = .ok sc') : Finite sc ∧ sc' = image rep r t s sc := by
  have hf := finite_of_transform rep r t s hv ht h
  refine ⟨hf, ?_⟩
  rw [transform_eq rep r t s sc hv ht hf] at h
  exact (Outcome.ok.inj h).symm

omit [DecidableEq K] in
theorem wf_image (rep : Rep K) (r : M3 K) (t : V3 K) (s : K) {sc : Scene rep.A I K} (hv : sc.views.WF)
    (ht : sc.tracks.WF) : (image rep r t s sc).views.WF ∧ (image rep r t s sc).tracks.WF :=
  ⟨AMap.wf_mapVals hv _, AMap.wf_mapVals ht _⟩

omit [DecidableEq K] in
theorem finite_image (rep : Rep K) (r : M3 K) (t : V3 K) (s : K) {sc : Scene rep.A I K} :
    Finite (image rep r t s sc) := by
  intro x y hy hye
  unfold image at hy
  rw [AMap.get_mapVals] at hy
  cases hg : sc.tracks.get x with
  | none => rw [hg] at hy; cases hy
  | some z =>
    rw [hg] at hy
    simp only [Option.map_some, Option.some.injEq] at hy
    subst hy
    unfold changeTrack at hye ⊢
    split
    · exact one_ne_zero
    · rename_i h
      rw [if_neg h] at hye
      exact absurd hye h

omit [DecidableEq K] in
/-- The pixel and the depth of a point in a camera after the transformation. -/
theorem project_change (rep : Rep K) (hrot : ∀ m : M3 K, m.IsRotation → rep.toM (rep.ofM m) = m)
    (hrep : ∀ a, (rep.toM a).IsRotation) (toImage : I → V3 K → P)
    {r : M3 K} (hr : r.IsRotation) (t : V3 K) (s : K) (v : View rep.A I K) (x : Track K)
    (hv : v.estimated = true) (hx : x.estimated = true) (hw : x.w ≠ 0)
    (hinv : ∀ q, toImage v.intrinsics (q.smul (s * x.w⁻¹)) = toImage v.intrinsics q) :
    project rep toImage (changeView rep r t s v) (changeTrack r t s x) =
      ((project rep toImage v x).1, s * (project rep toImage v x).2) := by
  have key : (rep.toM (rep.ofM ((rep.toM v.orientation).mul r.transpose))).mulVec
      ((transformPoint r t s (x.xyz.smul x.w⁻¹)).sub ((transformPoint r t s v.position).smul 1)) =
      ((rep.toM v.orientation).mulVec (x.xyz.sub (v.position.smul x.w))).smul (s * x.w⁻¹) := by
    rw [hrot _ ((hrep _).mul hr.transpose), M3.mulVec_mul, ← M3.mulVec_smul]
    congr 1
    have : (transformPoint r t s (x.xyz.smul x.w⁻¹)).sub ((transformPoint r t s v.position).smul 1) =
        r.mulVec ((x.xyz.sub (v.position.smul x.w)).smul (s * x.w⁻¹)) := by
      unfold transformPoint
      apply V3.ext <;> simp only [M3.mulVec, V3.dot, V3.sub, V3.add, V3.smul] <;> field_simp <;> ring
    rw [this, hr.transpose_mulVec]
  unfold changeView changeTrack
  rw [if_pos hv, if_pos hx]
  unfold project transformCamera
  simp only [key, hinv]
  generalize (rep.toM v.orientation).mulVec (x.xyz.sub (v.position.smul x.w)) = q
  congr 1
  simp only [V3.smul]
  field_simp

end Transform

namespace Normalize

open Transform Spec

variable {K I P : Type} [Field K] [LinearOrder K]

omit [Field K] in
theorem countP_sorted_lt (l : List K) (h : l.Pairwise (· ≤ ·)) (i : Nat) (x : K) (hx : l[i]? = some x) :
    l.countP (fun y => decide (y < x)) ≤ i := by
  have hi : i < l.length := (List.getElem?_eq_some_iff.1 hx).1
  rw [← List.take_append_drop i l, List.countP_append]
  have h0 : (l.drop i).countP (fun y => decide (y < x)) = 0 := by
    rw [List.countP_eq_zero]
    intro y hy
    rw [decide_eq_true_eq, not_lt]
    have hd : l.drop i = x :: l.drop (i + 1) := by
      rw [List.drop_eq_getElem_cons hi]
      rw [(List.getElem?_eq_some_iff.1 hx).2]
    rw [hd] at hy
    rcases List.mem_cons.1 hy with rfl | hy
    · exact le_refl _
    · have hp : (l.drop i).Pairwise (· ≤ ·) := h.sublist (List.drop_sublist ..)
      rw [hd, List.pairwise_cons] at hp
      exact hp.1 y hy
  rw [h0, Nat.add_zero]
  refine le_trans (List.countP_le_length) ?_
  rw [List.length_take]
  omega

omit [Field K] in
theorem countP_sorted_gt (l : List K) (h : l.Pairwise (· ≤ ·)) (i : Nat) (x : K) (hx : l[i]? = some x) :
    l.countP (fun y => decide (x < y)) ≤ l.length - 1 - i := by
  have hi : i < l.length := (List.getElem?_eq_some_iff.1 hx).1
  have hd : l.take (i + 1) = l.take i ++ [x] := by
    rw [List.take_succ_eq_append_getElem hi, (List.getElem?_eq_some_iff.1 hx).2]
  have h0 : (l.take (i + 1)).countP (fun y => decide (x < y)) = 0 := by
    rw [List.countP_eq_zero]
    intro y hy
    rw [decide_eq_true_eq, not_lt]
    have hp : (l.take (i + 1)).Pairwise (· ≤ ·) := h.sublist (List.take_sublist ..)
    rw [hd] at hy hp
    rw [List.pairwise_append] at hp
    rcases List.mem_append.1 hy with hy | hy
    · exact hp.2.2 y hy x (List.mem_singleton.2 rfl)
    · rw [List.mem_singleton.1 hy]
  conv_lhs => rw [← List.take_append_drop (i + 1) l]
  rw [List.countP_append, h0, Nat.zero_add]
  refine le_trans (List.countP_le_length) ?_
  rw [List.length_drop]
  omega

omit [Field K] in
theorem isMedian_of_median {l : List K} {x : K} (h : median l = .ok x) : IsMedian l x := by
  unfold median at h
  split at h
  · cases h
  · rename_i y hy
    obtain rfl := Outcome.ok.inj h
    have : Std.Total (fun a b : K => a ≤ b) := ⟨le_total⟩
    have : IsTrans K (fun a b : K => a ≤ b) := ⟨fun _ _ _ => le_trans⟩
    have hp : (l.insertionSort (· ≤ ·)).Pairwise (· ≤ ·) := List.pairwise_insertionSort _ _
    have hperm : (l.insertionSort (· ≤ ·)).Perm l := List.perm_insertionSort _ _
    refine ⟨hperm.mem_iff.1 (List.mem_of_getElem? hy), ?_, ?_⟩
    · rw [← hperm.countP_eq]
      exact countP_sorted_lt _ hp _ _ hy
    · rw [← hperm.countP_eq]
      have := countP_sorted_gt _ hp _ _ hy
      rw [hperm.length_eq] at this
      exact this

omit [Field K] in
theorem IsMedian.map {l : List K} {x : K} (h : IsMedian l x) {f : K → K} (hf : StrictMono f) :
    IsMedian (l.map f) (f x) := by
  obtain ⟨h1, h2, h3⟩ := h
  refine ⟨List.mem_map_of_mem h1, ?_, ?_⟩
  · rw [List.countP_map, List.length_map]
    simpa only [Function.comp_def, hf.lt_iff_lt] using h2
  · rw [List.countP_map, List.length_map]
    simpa only [Function.comp_def, hf.lt_iff_lt] using h3

omit [Field K] in
theorem isMedianPoint_of {l : List (V3 K)} {c : V3 K} (h : medianPoint l = .ok c) : IsMedianPoint l c := by
  unfold medianPoint at h
  rw [Outcome.bind_eq_ok] at h
  obtain ⟨x, hx, h⟩ := h
  rw [Outcome.bind_eq_ok] at h
  obtain ⟨y, hy, h⟩ := h
  rw [Outcome.bind_eq_ok] at h
  obtain ⟨z, hz, h⟩ := h
  obtain rfl := Outcome.ok.inj h
  exact ⟨isMedian_of_median hx, isMedian_of_median hy, isMedian_of_median hz⟩

theorem IsMedianPoint.affine [IsStrictOrderedRing K] {l : List (V3 K)} {c : V3 K} (h : IsMedianPoint l c) (t : V3 K)
    (s : K) (hs : 0 < s) : IsMedianPoint (l.map fun p => (p.smul s).add t) ((c.smul s).add t) := by
  have mono : ∀ a : K, StrictMono fun x => s * x + a :=
    fun a x y hxy => by
      have := mul_lt_mul_of_pos_left hxy hs
      show s * x + a < s * y + a
      linarith
  obtain ⟨h1, h2, h3⟩ := h
  have h1' := IsMedian.map h1 (mono t.x)
  have h2' := IsMedian.map h2 (mono t.y)
  have h3' := IsMedian.map h3 (mono t.z)
  rw [List.map_map] at h1' h2' h3'
  refine ⟨?_, ?_, ?_⟩
  · rw [List.map_map]; exact h1'
  · rw [List.map_map]; exact h2'
  · rw [List.map_map]; exact h3'

omit [LinearOrder K] in
theorem positions_image (rep : Rep K) (r : M3 K) (t : V3 K) (s : K) (sc : Scene rep.A I K) :
    positions (image rep r t s sc) = (positions sc).map (similarity r t s) := by
  unfold positions image AMap.mapVals
  simp only [List.filter_map, List.map_map]
  have e : (fun e : Nat × View rep.A I K => e.2.estimated) ∘ (fun e : Nat × View rep.A I K =>
      (e.1, changeView rep r t s e.2)) = fun e => e.2.estimated := by
    funext e
    simp only [Function.comp, changeView]
    split <;> rfl
  rw [e]
  refine List.map_congr_left fun e he => ?_
  have := (List.mem_filter.1 he).2
  simp only [Function.comp, changeView, this, if_true]
  rfl

omit [LinearOrder K] in
theorem points_image (rep : Rep K) (r : M3 K) (t : V3 K) (s : K) (sc : Scene rep.A I K) :
    points (image rep r t s sc) = (points sc).map (similarity r t s) := by
  unfold points image AMap.mapVals
  simp only [List.filter_map, List.map_map]
  have e : (fun e : Nat × Track K => e.2.estimated) ∘ (fun e : Nat × Track K => (e.1, changeTrack r t s e.2)) =
      fun e => e.2.estimated := by
    funext e
    simp only [Function.comp, changeTrack]
    split
    · rename_i h; exact h.symm
    · rfl
  rw [e]
  refine List.map_congr_left fun e he => ?_
  have := (List.mem_filter.1 he).2
  simp only [Function.comp, changeTrack, this, if_true, inv_one]
  unfold transformPoint similarity
  apply V3.ext <;> simp [V3.smul]

end Normalize
end Theia
