import Verif.Proof.LinearPositionCoplanar

/-!
# C64: linear estimation of global positions

`ComputeTripletBaselineRatios` (sfm/global_pose_estimation/compute_triplet_baseline_ratios.cc), `FindCommonTracksInViews`
(sfm/find_common_tracks_in_views.cc) and `LinearPositionEstimator` (sfm/global_pose_estimation/linear_position_estimator.cc).

The 4x4 solver (`llt`), `Quaterniond::FromTwoVectors` (`fromTwo`) and the eigensolver (`eig`) are parameters that meet their
mathematical specifications; `order` is the order in which a hash set is iterated.
-/

namespace Theia

open Spec BaselineRatios Triangulation AngleAxis LinearPosition

/-! ## Baseline ratios -/

/-- **C64.** For exact relative poses and image points the ratios of the baselines of a triplet are the true ones, whatever the
other points do, as soon as one point is well seen by every two of the views; otherwise false is returned. -/
theorem C64_baselines {llt : (V4 → V4) → V4 → Option V4} (hl : Cholesky llt) {G : Nat → M3 ℝ} (hG : ∀ v, (G v).IsRotation)
    {c X : Nat → V3 ℝ} {t : Nat × Nat × Nat} {i12 i13 i23 : Info}
    (h12 : ExactPose G c t.1 t.2.1 i12.rotation i12.position) (h13 : ExactPose G c t.1 t.2.2 i13.rotation i13.position)
    (h23 : ExactPose G c t.2.1 t.2.2 i23.rotation i23.position) {p1 p2 p3 : Nat → V2} (tracks : List Nat)
    (hfeat : ∀ k ∈ tracks, ExactFeature G c t.1 (X k) (p1 k) ∧ ExactFeature G c t.2.1 (X k) (p2 k) ∧
      ExactFeature G c t.2.2 (X k) (p3 k)) :
    ((∃ k ∈ tracks, Useful c t (X k)) → compute llt i12 i13 i23 (tracks.map p1) (tracks.map p2) (tracks.map p3) =
      .ok (some ⟨1, dist3 (c t.1) (c t.2.2) / dist3 (c t.1) (c t.2.1), dist3 (c t.2.1) (c t.2.2) / dist3 (c t.1) (c t.2.1)⟩)) ∧
    ((¬ ∃ k ∈ tracks, Useful c t (X k)) →
      compute llt i12 i13 i23 (tracks.map p1) (tracks.map p2) (tracks.map p3) = .ok none) := by
  obtain ⟨n, hn, hz⟩ := ratios_exact hl hG h12 h13 h23 tracks hfeat
  have hc : compute llt i12 i13 i23 (tracks.map p1) (tracks.map p2) (tracks.map p3) =
      fromRatios (List.replicate n (dist3 (c t.1) (c t.2.2) / dist3 (c t.1) (c t.2.1),
        dist3 (c t.2.1) (c t.2.2) / dist3 (c t.1) (c t.2.1))) := by
    unfold compute
    rw [if_neg (by simp), if_neg (by simp), hn]
  rw [hc, fromRatios_replicate]
  constructor
  · rintro ⟨k, hk, hu⟩
    rw [if_neg (fun h => hz.1 h k hk hu)]
  · intro hno
    rw [if_pos (hz.2 (fun k hk hu => hno ⟨k, hk, hu⟩))]

theorem median_spec {l : List ℝ} {x : ℝ} (h : median l = .ok x) : UpperMedian l x := by
  unfold median at h
  have hperm := List.perm_insertionSort (· ≤ ·) l
  have hsort : (l.insertionSort (· ≤ ·)).Pairwise (· ≤ ·) := List.pairwise_insertionSort _ _
  have hlen : (l.insertionSort (· ≤ ·)).length = l.length := hperm.length_eq
  cases hg : (l.insertionSort (· ≤ ·))[l.length / 2]? with
  | none => rw [hg] at h; cases h
  | some y =>
    rw [hg] at h
    obtain rfl : y = x := by simpa using h
    obtain ⟨hlt, he⟩ := List.getElem?_eq_some_iff.1 hg
    refine ⟨hperm.mem_iff.1 (List.mem_of_getElem? hg), ?_, ?_⟩
    · rw [← hperm.countP_eq]
      have hsplit := List.take_append_drop (l.length / 2) (l.insertionSort (· ≤ ·))
      rw [← hsplit, List.countP_append]
      have h0 : ((l.insertionSort (· ≤ ·)).drop (l.length / 2)).countP (fun z => decide (z < y)) = 0 := by
        rw [List.countP_eq_zero]
        intro z hz
        obtain ⟨i, hi, rfl⟩ := List.mem_iff_getElem.1 hz
        rw [List.getElem_drop]
        simp only [decide_eq_true_eq, not_lt]
        rw [← he]
        rcases Nat.eq_zero_or_pos i with rfl | hi0
        · simp
        · exact List.pairwise_iff_getElem.1 hsort _ _ _ _ (by omega)
      rw [h0, Nat.add_zero]
      refine le_trans List.countP_le_length ?_
      rw [List.length_take]
      exact Nat.min_le_left _ _
    · rw [← hperm.countP_eq]
      have hsplit := List.take_append_drop (l.length / 2 + 1) (l.insertionSort (· ≤ ·))
      rw [← hsplit, List.countP_append]
      have h1 : ((l.insertionSort (· ≤ ·)).take (l.length / 2 + 1)).countP (fun z => decide (z ≤ y)) = l.length / 2 + 1 := by
        have hl : ((l.insertionSort (· ≤ ·)).take (l.length / 2 + 1)).length = l.length / 2 + 1 := by
          rw [List.length_take]
          exact Nat.min_eq_left hlt
        refine Eq.trans (List.countP_eq_length.2 ?_) hl
        intro z hz
        obtain ⟨i, hi, rfl⟩ := List.mem_iff_getElem.1 hz
        rw [hl] at hi
        rw [List.getElem_take]
        simp only [decide_eq_true_eq]
        rw [← he]
        rcases Nat.lt_or_ge i (l.length / 2) with hlt' | hge
        · exact List.pairwise_iff_getElem.1 hsort _ _ _ _ hlt'
        · have : i = l.length / 2 := by omega
          subst this
          exact le_rfl
      rw [h1]
      omega

/-- **C64.** Whatever the measurements, the first baseline is one and the others are the medians of the ratios given by the
points whose three depths could be computed; false is returned exactly if there is no such point. -/
theorem C64_median {llt : (V4 → V4) → V4 → Option V4} {i12 i13 i23 : Info} {f1 f2 f3 : List V2} {res : Option (V3 ℝ)}
    (h : compute llt i12 i13 i23 f1 f2 f3 = .ok res) :
    ∃ rs, ratios llt i12 i13 i23 (f1.zip (f2.zip f3)) = .ok rs ∧ (res = none ↔ rs = []) ∧
      ∀ b, res = some b → b.x = 1 ∧ UpperMedian (rs.map Prod.fst) b.y ∧ UpperMedian (rs.map Prod.snd) b.z := by
  unfold compute at h
  split at h
  · cases h
  split at h
  · cases h
  cases hr : ratios llt i12 i13 i23 (f1.zip (f2.zip f3)) with
  | abort => rw [hr] at h; cases h
  | ub => rw [hr] at h; cases h
  | ok rs =>
    rw [hr] at h
    simp only [fromRatios] at h
    refine ⟨rs, rfl, ?_⟩
    split at h
    · rename_i h0
      cases h
      exact ⟨⟨fun _ => List.eq_nil_of_length_eq_zero h0, fun _ => rfl⟩, fun b hb => by cases hb⟩
    · rename_i h0
      split at h
      · rename_i b2 b3 e2 e3
        cases h
        refine ⟨⟨fun hn => (by cases hn), fun hn => absurd (congrArg List.length hn) h0⟩, ?_⟩
        intro b hb
        cases hb
        exact ⟨rfl, median_spec e2, median_spec e3⟩
      · cases h

/-- The upper median of an even number of elements. -/
example : UpperMedian [3, 1, 2, 5] 3 := by
  refine ⟨by simp, ?_, ?_⟩ <;> norm_num [List.countP_cons]

/-- **C64.** Feature lists of different lengths end the program. -/
theorem C64_sizes (llt : (V4 → V4) → V4 → Option V4) (i12 i13 i23 : Info) (f1 f2 f3 : List V2) :
    compute llt i12 i13 i23 f1 f2 f3 = .abort ∨ (f1.length = f2.length ∧ f1.length = f3.length) := by
  by_cases h1 : f1.length = f2.length
  · by_cases h2 : f1.length = f3.length
    · exact Or.inr ⟨h1, h2⟩
    · left
      unfold compute
      rw [if_neg (by simpa using h1), if_pos h2]
  · left
    unfold compute
    rw [if_pos h1]

/-! ## Common tracks -/

/-- **C64.** The common tracks of two or more views are exactly the tracks that every one of them observes, each once, in
increasing order. -/
theorem C64_common_tracks {F : Type} (views : AMap Nat (AMap Nat F)) (hwf : ∀ v m, views.get v = some m → m.WF)
    (ids : List Nat) (hlen : 2 ≤ ids.length) (hids : ∀ v ∈ ids, v ∈ views.keys) :
    ∃ res, CommonTracks.find views ids = .ok res ∧ res.Pairwise (· < ·) ∧
      ∀ k, k ∈ res ↔ ∀ v ∈ ids, ∃ m, views.get v = some m ∧ k ∈ m.keys := by
  obtain ⟨res, h1, h2, h3, h4⟩ := CommonTracks.find_spec views ids hlen hids
  refine ⟨res, h1, ?_, ?_⟩
  · exact (h2.and (h3 hwf)).imp (fun h => lt_of_le_of_ne h.1 h.2)
  · intro k
    rw [h4]
    constructor
    · intro h v hv
      obtain ⟨m, hm⟩ := AMap.mem_keys_iff.1 (hids v hv)
      exact ⟨m, hm, h v hv m hm⟩
    · intro h v hv m hm
      obtain ⟨m', hm', hk⟩ := h v hv
      rw [hm] at hm'
      cases hm'
      exact hk

/-- **C64.** Fewer than two views, or an unknown first view, end the program. -/
theorem C64_common_tracks_fatal {F : Type} (views : AMap Nat (AMap Nat F)) (ids : List Nat)
    (h : ids.length < 2 ∨ ∃ v vs, ids = v :: vs ∧ v ∉ views.keys) : CommonTracks.find views ids = .abort := by
  unfold CommonTracks.find
  by_cases hl : ids.length ≤ 1
  · rw [if_pos hl]
  · rw [if_neg hl]
    rcases h with h | ⟨v, vs, rfl, hv⟩
    · omega
    · simp only [AMap.get_eq_none_iff.2 hv]

example : CommonTracks.find (⟨[(7, ⟨[(3, 0), (1, 0), (5, 0)]⟩), (4, ⟨[(5, 0), (2, 0), (1, 0)]⟩)]⟩ : AMap Nat (AMap Nat Nat)) [7, 4] =
    .ok [1, 5] := by decide +kernel

/-! ## The estimator -/

theorem turnsTo_neg {m : M3 ℝ} {a b : V3 ℝ} (h : TurnsTo m a.neg b.neg) : TurnsTo m a b := by
  obtain ⟨h1, h2, h3⟩ := h
  have e1 : a.neg.dot a.neg = a.dot a := by simp only [V3.dot, V3.neg]; ring
  have e2 : b.neg.dot b.neg = b.dot b := by simp only [V3.dot, V3.neg]; ring
  have e3 : a.neg.cross b.neg = a.cross b := by
    apply V3.ext <;> simp only [V3.cross, V3.neg] <;> ring
  have e4 : ∀ (v : V3 ℝ) (s : ℝ), v.neg.smul s = (v.smul s).neg := by
    intro v s
    apply V3.ext <;> simp only [V3.smul, V3.neg] <;> ring
  rw [e1, e2, e4, e4, M3.mulVec_neg] at h2
  rw [e3] at h3
  refine ⟨h1, ?_, h3⟩
  have := congrArg V3.neg h2
  simpa only [V3.neg, neg_neg] using this

/-- **C64.** Whatever the measurements, the positions of a successful run minimize the weighted sum, over the triplets of a
largest component of the graph of triangles, of the squared differences between each camera and its predictions from the other
two, among all positions with the first camera at the origin and unit total norm. Exactly the cameras of that component get a
position. -/
theorem C64_least_squares {llt : (V4 → V4) → V4 → Option V4} {fromTwo : V3 ℝ → V3 ℝ → M3 ℝ} (hturn : TurnsOneToOther fromTwo)
    {eig : Nat → (Nat → Nat → ℝ) → Option (Nat → ℝ)} (heig : EigensolverOne eig) {limit : Nat} (hpos : 0 < limit)
    {order : List (Nat × Nat) → List (Nat × Nat)} (horder : ∀ l, (order l).Perm l) {views : AMap Nat (AMap Nat V2)}
    {pairs : AMap (Nat × Nat) Info} (hwf : pairs.WF) (hord : ∀ e ∈ pairs.keys, e.1 < e.2)
    (hlimit : ∀ ts : List (Nat × Nat × Nat), ts.Nodup → (∀ t ∈ ts, IsTriangle pairs.keys t) → ts.length ≤ limit)
    (hmoved : ∀ e info, pairs.get e = some info → info.position ≠ V3.zero) {orientations : AMap Nat (V3 ℝ)} {s : State}
    {p : AMap Nat (V3 ℝ)} (hrun : estimate llt fromTwo eig limit order views pairs orientations empty = .ok (s, p)) :
    ∃ ts, LargestComponent pairs.keys ts ∧ (∀ v, v ∈ p.keys ↔ ∃ t ∈ ts, Corner t v) ∧ p.WF ∧
      ∃ shape : Nat × Nat × Nat → TripletShape,
        (∀ t ∈ ts, (∃ o0 o1 i01 i02 i12, orientations.get t.1 = some o0 ∧ orientations.get t.2.1 = some o1 ∧
          pairs.get (t.1, t.2.1) = some i01 ∧ pairs.get (t.1, t.2.2) = some i02 ∧ pairs.get (t.2.1, t.2.2) = some i12 ∧
          MeasuredTurns (shape t) ((toM o0).transpose.mulVec i01.position) ((toM o0).transpose.mulVec i02.position)
            ((toM o1).transpose.mulVec i12.position)) ∧
          baselineFor llt views pairs t = .ok ⟨(shape t).d01, (shape t).d02, (shape t).d12⟩) ∧
        ∃ f Y, p.get f = some V3.zero ∧ (∀ v ∈ p.keys, p.get v = some (Y v)) ∧
          (p.keys.map (fun v => (Y v).dot (Y v))).sum = 1 ∧
          ∀ Z : Nat → V3 ℝ, Z f = V3.zero → (p.keys.map (fun v => (Z v).dot (Z v))).sum = 1 →
            positionCost ts shape Y ≤ positionCost ts shape Z := by
  obtain ⟨ts, tbs, es, h1, h2, h3, h4, -⟩ := estimate_ok hrun
  have hc : LargestComponent pairs.keys ts := by
    rcases largest_spec hpos horder hwf hord hlimit with ⟨-, h⟩ | ⟨ts', h, hc⟩
    · rw [h] at h1
      cases h1
    · rw [h] at h1
      cases h1
      exact hc
  obtain ⟨hmap, hbase⟩ := baselines_ok ts h2
  have hinv := Inv.addAll ts Inv.empty
  have htri : ∀ t ∈ ts, IsTriangle pairs.keys t := fun t ht => (hc.2.2.1 t ht).1
  have hfits : ∀ tb ∈ tbs, Fits (ts.foldl addTriplet empty) tb.1 := by
    intro tb hm
    have hmem : tb.1 ∈ ts := by
      rw [← hmap]
      exact List.mem_map_of_mem hm
    have hk : ∀ v, Corner tb.1 v → v ∈ (ts.foldl addTriplet empty).index.keys :=
      fun v hv => (mem_keys_addAll v ts empty).2 (Or.inr ⟨tb.1, hmem, hv⟩)
    obtain ⟨h01, h02, h12⟩ := distinct (htri tb.1 hmem)
    exact ⟨hk _ (Or.inl rfl), hk _ (Or.inr (Or.inl rfl)), hk _ (Or.inr (Or.inr rfl)), h01, h02, h12⟩
  obtain ⟨hrot, -, -⟩ := allEntries_ok hinv tbs hfits h3
  obtain ⟨u, hu, hsolve⟩ := solve_ok heig (pairs := pairs) (orientations := orientations) hinv (es := es) (size_ge empty hc)
  -- the baselines and the shapes
  let b : Nat × Nat × Nat → V3 ℝ := fun t =>
    match baselineFor llt views pairs t with
    | .ok b => b
    | _ => V3.zero
  let shape : Nat × Nat × Nat → TripletShape := fun t =>
    match rotations fromTwo pairs orientations t with
    | .ok r => shapeOf r (b t)
    | _ => shapeOf (M3.one, M3.one, M3.one) (b t)
  have hb : ∀ tb ∈ tbs, b tb.1 = tb.2 := by
    intro tb htb
    simp only [b, hbase tb htb]
  have hshape : ∀ tb ∈ tbs, ∃ r, rotations fromTwo pairs orientations tb.1 = .ok r ∧ shape tb.1 = shapeOf r tb.2 := by
    intro tb htb
    obtain ⟨⟨r, hr⟩, -⟩ := hrot tb htb
    refine ⟨r, hr, ?_⟩
    simp only [shape, hr, hb tb htb]
  obtain ⟨f, hf, hf0, hnorm, hmin⟩ := solution hc hmap h3 shape hshape hu
  rw [h4] at hsolve
  have hkeys : p.keys = (ts.foldl addTriplet empty).index.keys := by
    rcases flip_cases hsolve.symm with e | e
    · rw [e, keys_raw]
    · rw [e, AMap.keys_mapVals, keys_raw]
  refine ⟨ts, hc, ?_, ?_, shape, ?_, f, ?_⟩
  · intro v
    rw [hkeys]
    exact keys_iff ts v
  · show p.keys.Nodup
    rw [hkeys]
    exact hinv.index.wf
  · intro t ht
    obtain ⟨tb, htb, rfl⟩ := List.mem_map.1 (show t ∈ tbs.map Prod.fst by rw [hmap]; exact ht)
    obtain ⟨r, hr, hs⟩ := hshape tb htb
    refine ⟨?_, by rw [hs]; exact hbase tb htb⟩
    unfold rotations at hr
    cases g0 : orientations.get tb.1.1 with
    | none => rw [g0] at hr; simp at hr
    | some o0 =>
      cases g1 : orientations.get tb.1.2.1 with
      | none => rw [g0, g1] at hr; simp at hr
      | some o1 =>
        rw [g0, g1] at hr
        obtain ⟨-, -, e01, e02, e12⟩ := htri tb.1 ht
        obtain ⟨i01, k01⟩ := AMap.mem_keys_iff.1 e01
        obtain ⟨i02, k02⟩ := AMap.mem_keys_iff.1 e02
        obtain ⟨i12, k12⟩ := AMap.mem_keys_iff.1 e12
        unfold rotationOf at hr
        by_cases z0 : o0 = V3.zero
        · simp [z0] at hr
        by_cases z1 : o1 = V3.zero
        · simp [z0, z1] at hr
        simp only [if_neg z0, if_neg z1, k01, k02, k12, Outcome.ok.injEq] at hr
        refine ⟨o0, o1, i01, i02, i12, rfl, rfl, k01, k02, k12, ?_⟩
        have hne : ∀ (o : V3 ℝ) (e : Nat × Nat) (i : Info), pairs.get e = some i →
            (toM o).transpose.mulVec i.position ≠ V3.zero := by
          intro o e i hi h0
          apply hmoved e i hi
          have := (isRotation_toM o).mulVec_transpose i.position
          rw [h0] at this
          rw [← this]
          apply V3.ext <;> simp [M3.mulVec, V3.dot, V3.zero]
        have hneg : ∀ {v : V3 ℝ}, v ≠ V3.zero → v.neg ≠ V3.zero := by
          intro v hv h0
          apply hv
          have hx := congrArg V3.x h0
          have hy := congrArg V3.y h0
          have hz := congrArg V3.z h0
          simp only [V3.neg, V3.zero, neg_eq_zero] at hx hy hz
          exact V3.ext hx hy hz
        have a01 := hne o0 _ _ k01
        have a02 := hne o0 _ _ k02
        have a12 := hne o1 _ _ k12
        rw [hs, ← hr]
        refine ⟨?_, ?_, ?_⟩
        · exact turnsTo_neg (hturn _ _ (hneg a01) (hneg a02))
        · apply turnsTo_neg
          have := hturn _ _ (hneg a12) (hneg (hneg a01))
          exact this
        · have := hturn _ _ (hneg (hneg a02)) (hneg (hneg a12))
          apply turnsTo_neg
          exact this
  · rcases flip_cases hsolve.symm with e | e
    · refine ⟨fun v => positionOf u (idx (ts.foldl addTriplet empty) v), ?_, ?_, ?_, ?_⟩
      · rw [e, get_raw hf, hf0]
      · intro v hv
        rw [hkeys] at hv
        rw [e, get_raw hv]
      · rw [hkeys]
        exact hnorm
      · rw [hkeys]
        exact hmin
    · refine ⟨fun v => (positionOf u (idx (ts.foldl addTriplet empty) v)).smul (-1), ?_, ?_, ?_, ?_⟩
      · rw [e, AMap.get_mapVals, get_raw hf, hf0]
        simp [V3.smul, V3.zero]
      · intro v hv
        rw [hkeys] at hv
        rw [e, AMap.get_mapVals, get_raw hv]
        rfl
      · rw [hkeys, sum_sq_smul _ (fun v => positionOf u (idx (ts.foldl addTriplet empty) v)), hnorm]
        norm_num
      · rw [hkeys, positionCost_neg]
        exact hmin

/-- **C64.** For exact input, if the cameras of the largest component are not all in one plane, their positions are recovered:
up to one translation and one positive scale they are the true ones. -/
theorem C64_recovered {llt : (V4 → V4) → V4 → Option V4} (hl : Cholesky llt) {fromTwo : V3 ℝ → V3 ℝ → M3 ℝ}
    (hturn : TurnsOneToOther fromTwo) {eig : Nat → (Nat → Nat → ℝ) → Option (Nat → ℝ)} (heig : EigensolverOne eig)
    {limit : Nat} (hpos : 0 < limit) {order : List (Nat × Nat) → List (Nat × Nat)} (horder : ∀ l, (order l).Perm l)
    {views : AMap Nat (AMap Nat V2)} {pairs : AMap (Nat × Nat) Info} {orientations : AMap Nat (V3 ℝ)} {G : Nat → M3 ℝ}
    {c X : Nat → V3 ℝ}
    (hlimit : ∀ ts : List (Nat × Nat × Nat), ts.Nodup → (∀ t ∈ ts, IsTriangle pairs.keys t) → ts.length ≤ limit)
    (hscene : ExactScene G c X views pairs orientations)
    (hcop : ∀ ts, LargestComponent pairs.keys ts → NotCoplanar c (fun v => ∃ t ∈ ts, Corner t v)) :
    ∃ s p ts, estimate llt fromTwo eig limit order views pairs orientations empty = .ok (s, p) ∧
      LargestComponent pairs.keys ts ∧ (∀ v, v ∈ p.keys ↔ ∃ t ∈ ts, Corner t v) ∧
      ∃ (α : ℝ) (o : V3 ℝ), 0 < α ∧ ∀ v ∈ p.keys, p.get v = some (((c v).sub o).smul α) := by
  obtain ⟨ts, tbs, es, shape, hts, hc, hbase, hmap, hes, hshape, hexact⟩ := prepare empty hl hturn hpos horder hlimit hscene
  have hinv := Inv.addAll ts Inv.empty
  have htri : ∀ t ∈ ts, IsTriangle pairs.keys t := fun t ht => (hc.2.2.1 t ht).1
  obtain ⟨u, hu, hsolve⟩ := solve_ok heig (pairs := pairs) (orientations := orientations) hinv (es := es) (size_ge empty hc)
  obtain ⟨f, hf, hf0, hnorm, hmin⟩ := solution hc hmap hes shape hshape hu
  obtain ⟨a, ha, hY⟩ := solution_exact hc hexact (fun t ht => hscene.spread t (htri t ht)) (keys_iff ts) hf
    (Y := fun v => positionOf u (idx (ts.foldl addTriplet empty) v)) hf0 hnorm hmin (hcop ts hc)
  have hget : ∀ v q, (rawPositions (ts.foldl addTriplet empty) u).get v = some q → q = ((c v).sub (c f)).smul a := by
    intro v q hq
    have hv : v ∈ (ts.foldl addTriplet empty).index.keys := by
      rw [← keys_raw _ u]
      exact AMap.mem_keys_iff.2 ⟨q, hq⟩
    rw [get_raw hv, Option.some.injEq] at hq
    rw [← hq]
    exact hY v hv
  have hedge : ∃ e ∈ pairs.keys, e.1 ∈ (rawPositions (ts.foldl addTriplet empty) u).keys ∧
      e.2 ∈ (rawPositions (ts.foldl addTriplet empty) u).keys := by
    obtain ⟨t, rest, e⟩ := List.exists_cons_of_ne_nil hc.1
    have ht : t ∈ ts := by rw [e]; exact List.mem_cons_self
    refine ⟨(t.1, t.2.1), (htri t ht).2.2.1, ?_⟩
    rw [keys_raw]
    exact ⟨(keys_iff ts _).2 ⟨t, ht, Or.inl rfl⟩, (keys_iff ts _).2 ⟨t, ht, Or.inr (Or.inl rfl)⟩⟩
  obtain ⟨p, hp, hk, α, hα, hpv⟩ := flip_exact hscene ha hget hedge
  refine ⟨ts.foldl addTriplet empty, p, ts, ?_, hc, ?_, α, c f, hα, ?_⟩
  · unfold estimate
    rw [hts]
    simp only
    rw [hbase]
    simp only
    rw [hes]
    simp only
    rw [hsolve, hp]
  · intro v
    rw [hk, keys_raw]
    exact keys_iff ts v
  · intro v hv
    obtain ⟨q, hq⟩ := AMap.mem_keys_iff.1 hv
    rw [hq, hpv v q hq]

/-- **C64.** A graph without triangles ends the program. -/
theorem C64_no_triangle (llt : (V4 → V4) → V4 → Option V4) (fromTwo : V3 ℝ → V3 ℝ → M3 ℝ)
    (eig : Nat → (Nat → Nat → ℝ) → Option (Nat → ℝ)) {limit : Nat} (hpos : 0 < limit)
    {order : List (Nat × Nat) → List (Nat × Nat)} (horder : ∀ l, (order l).Perm l) (views : AMap Nat (AMap Nat V2))
    {pairs : AMap (Nat × Nat) Info} (hwf : pairs.WF) (hord : ∀ e ∈ pairs.keys, e.1 < e.2)
    (hno : ∀ t, ¬ IsTriangle pairs.keys t) (orientations : AMap Nat (V3 ℝ)) (s : State) :
    estimate llt fromTwo eig limit order views pairs orientations s = .abort := by
  rcases largest_spec hpos horder hwf hord (by
    intro ts _ h
    cases ts with
    | nil => exact Nat.zero_le _
    | cons t ts => exact absurd (h t List.mem_cons_self) (hno t)) with ⟨-, h⟩ | ⟨ts, -, hc⟩
  · unfold estimate
    rw [h]
  · obtain ⟨t, rest, rfl⟩ := List.exists_cons_of_ne_nil hc.1
    exact absurd (hc.2.2.1 t List.mem_cons_self).1 (hno t)

/-! ## An exact scene -/

namespace LinearPositionExample

/-- Half a turn about the third axis. -/
noncomputable def turn : V3 ℝ := ⟨0, 0, Real.pi⟩

theorem toM_turn : toM turn = ⟨⟨-1, 0, 0⟩, ⟨0, -1, 0⟩, ⟨0, 0, 1⟩⟩ := by
  have h : Real.sqrt (turn.dot turn) = Real.pi := by
    have : turn.dot turn = Real.pi * Real.pi := by simp [turn, V3.dot]
    rw [this, Real.sqrt_mul_self Real.pi_pos.le]
  unfold toM
  simp only [h, Real.cos_pi, Real.sin_pi]
  have := Real.pi_pos.ne'
  apply M3.ext <;> apply V3.ext <;> simp [rodriguesMatrix, turn, V3.smul, this]

/-- The cameras: three corners of a square, the fourth corner at a height. -/
def cam (h : ℚ) (v : Nat) : V3 ℝ :=
  match v with
  | 0 => ⟨0, 0, 0⟩
  | 1 => ⟨1, 0, 0⟩
  | 2 => ⟨0, 1, 0⟩
  | _ => ⟨1, 1, h⟩

/-- Two points. -/
noncomputable def point (k : Nat) : V3 ℝ :=
  match k with
  | 0 => ⟨1 / 3, 1 / 3, 1 / 10⟩
  | _ => ⟨2 / 3, 2 / 3, 1 / 10⟩

/-- The pairs. -/
def edges : List (Nat × Nat) := [(0, 1), (0, 2), (1, 2), (1, 3), (2, 3)]

/-- The map with the keys `l` and the values `f`. -/
def graphOf {κ ν : Type} (l : List κ) (f : κ → ν) : AMap κ ν := ⟨l.map (fun k => (k, f k))⟩

theorem keys_graphOf {κ ν : Type} (l : List κ) (f : κ → ν) : (graphOf l f).keys = l := by
  unfold graphOf AMap.keys
  rw [List.map_map]
  exact List.map_id _

theorem get_graphOf {κ ν : Type} [DecidableEq κ] {l : List κ} {f : κ → ν} {k : κ} {x : ν} (h : (graphOf l f).get k = some x) :
    k ∈ l ∧ x = f k := by
  have := AMap.mem_entries_of_get h
  obtain ⟨k', hk, e⟩ := List.mem_map.1 this
  cases e
  exact ⟨hk, rfl⟩

theorem get_graphOf_mem {κ ν : Type} [DecidableEq κ] {l : List κ} {f : κ → ν} {k : κ} (h : k ∈ l) :
    (graphOf l f).get k = some (f k) := by
  obtain ⟨x, hx⟩ := AMap.mem_keys_iff.1 (show k ∈ (graphOf l f).keys by rw [keys_graphOf]; exact h)
  rw [hx, (get_graphOf hx).2]

noncomputable def pairsOf (h : ℚ) : AMap (Nat × Nat) Info :=
  graphOf edges (fun e => ⟨V3.zero, ((toM turn).mulVec ((cam h e.2).sub (cam h e.1))).smul (1 / dist3 (cam h e.1) (cam h e.2))⟩)

/-- The image point. -/
noncomputable def image (h : ℚ) (v k : Nat) : V2 :=
  let q := (toM turn).mulVec ((point k).sub (cam h v))
  (q.x / q.z, q.y / q.z)

noncomputable def viewsOf (h : ℚ) : AMap Nat (AMap Nat V2) :=
  graphOf [0, 1, 2, 3] (fun v => graphOf [0, 1] (fun k => image h v k))

noncomputable def orientationsOf : AMap Nat (V3 ℝ) := graphOf [0, 1, 2, 3] (fun _ => turn)

theorem triangle_iff (t : Nat × Nat × Nat) : IsTriangle edges t ↔ t = (0, 1, 2) ∨ t = (1, 2, 3) := by
  obtain ⟨a, b, d⟩ := t
  constructor
  · rintro ⟨h1, h2, h3, h4, h5⟩
    simp only [edges, List.mem_cons, Prod.mk.injEq, List.not_mem_nil, or_false] at h1 h2 h3 h4 h5
    simp only [Prod.mk.injEq]
    omega
  · rintro (h | h) <;> cases h <;> simp [IsTriangle, edges]

theorem wellSeen_of {c : Nat → V3 ℝ} {i j : Nat} {X : V3 ℝ} (hdot : (X.sub (c i)).dot (X.sub (c j)) ≤ 0)
    (hcross : (X.sub (c i)).cross (X.sub (c j)) ≠ V3.zero) : WellSeen c i j X := by
  refine ⟨?_, hcross⟩
  unfold viewingAngle
  have h1 : (X.sub (c i)).dot (X.sub (c j)) / (dist3 (c i) X * dist3 (c j) X) ≤ 0 :=
    div_nonpos_of_nonpos_of_nonneg hdot (mul_nonneg (Real.sqrt_nonneg _) (Real.sqrt_nonneg _))
  have h2 := Real.arccos_le_arccos h1
  rw [Real.arccos_zero] at h2
  have h3 := Real.pi_pos
  rw [lt_div_iff₀ h3]
  linarith

theorem cam_ne (h : ℚ) : ∀ e ∈ edges, cam h e.1 ≠ cam h e.2 := by
  intro e he
  simp only [edges, List.mem_cons, List.not_mem_nil, or_false] at he
  rcases he with rfl | rfl | rfl | rfl | rfl <;> intro h0 <;>
    simp [cam, V3.mk.injEq] at h0

theorem scene (h : ℚ) (h0 : 0 ≤ h) (h1 : h ≤ 1 / 20) :
    ExactScene (fun _ => toM turn) (cam h) point (viewsOf h) (pairsOf h) orientationsOf := by
  have hh0 : (0 : ℝ) ≤ (h : ℝ) := by exact_mod_cast h0
  have hh1 : (h : ℝ) ≤ 1 / 20 := by
    have : ((h : ℚ) : ℝ) ≤ ((1 / 20 : ℚ) : ℝ) := by exact_mod_cast h1
    push_cast at this
    exact this
  have hrot := isRotation_toM turn
  have hkeys : (pairsOf h).keys = edges := keys_graphOf _ _
  refine ⟨fun _ => hrot, ?_, ?_, ?_, ?_, ?_, ?_, ?_, ?_⟩
  · show (pairsOf h).keys.Nodup
    rw [hkeys]
    decide
  · rw [hkeys]
    decide
  · intro e info he
    obtain ⟨hm, rfl⟩ := get_graphOf he
    refine ⟨cam_ne h e hm, ?_, ?_⟩
    · rw [toM_zero]
      exact hrot.right.symm
    · dsimp only
      rw [V3.smul_smul, mul_one_div_cancel (dist3_pos (cam_ne h e hm)).ne', V3.one_smul']
  · rw [hkeys]
    intro e he
    refine ⟨turn, get_graphOf_mem ?_, ?_, rfl⟩
    · simp only [edges, List.mem_cons, List.not_mem_nil, or_false] at he
      rcases he with rfl | rfl | rfl | rfl | rfl <;> simp
    · intro hz
      have := congrArg V3.z hz
      simp only [turn, V3.zero] at this
      exact Real.pi_pos.ne' this
  · intro v m k p hv hk
    obtain ⟨hvm, rfl⟩ := get_graphOf hv
    obtain ⟨hkm, rfl⟩ := get_graphOf hk
    have hz : 0 < ((toM turn).mulVec ((point k).sub (cam h v))).z := by
      rw [toM_turn]
      simp only [List.mem_cons, List.not_mem_nil, or_false] at hvm hkm
      rcases hvm with rfl | rfl | rfl | rfl <;> rcases hkm with rfl | rfl <;>
        simp only [cam, point, M3.mulVec, V3.dot, V3.sub] <;> linarith
    refine ⟨_, hz, ?_⟩
    unfold image
    generalize (toM turn).mulVec ((point k).sub (cam h v)) = q at hz
    apply V3.ext <;> simp only [V3.smul] <;> field_simp
  · rw [hkeys]
    intro t ht
    have hseen : ∀ (t : Nat × Nat × Nat) (k : Nat), t.1 ∈ [0, 1, 2, 3] → t.2.1 ∈ [0, 1, 2, 3] → t.2.2 ∈ [0, 1, 2, 3] →
        k ∈ [0, 1] → SeenBy (viewsOf h) t k := by
      intro t k a b d hk
      refine ⟨_, _, _, get_graphOf_mem a, get_graphOf_mem b, get_graphOf_mem d, ?_, ?_, ?_⟩ <;>
        rw [keys_graphOf] <;> exact hk
    rcases (triangle_iff t).1 ht with rfl | rfl
    · refine ⟨0, hseen _ _ (by simp) (by simp) (by simp) (by simp), ?_, ?_, ?_⟩ <;> apply wellSeen_of
      any_goals simp only [cam, point, V3.dot, V3.sub]; norm_num
      all_goals
        intro hz
        have := congrArg V3.z hz
        simp only [cam, point, V3.cross, V3.sub, V3.zero] at this
        norm_num at this
    · refine ⟨1, hseen _ _ (by simp) (by simp) (by simp) (by simp), ?_, ?_, ?_⟩ <;> apply wellSeen_of
      any_goals
        simp only [cam, point, V3.dot, V3.sub]
        nlinarith
      all_goals
        intro hz
        have := congrArg V3.z hz
        simp only [cam, point, V3.cross, V3.sub, V3.zero] at this
        norm_num at this
  · rw [hkeys]
    intro t ht
    rcases (triangle_iff t).1 ht with rfl | rfl <;> intro hz <;> have := congrArg V3.z hz <;>
      simp [cam, V3.cross, V3.sub, V3.zero] at this
  · rw [hkeys]
    exact ⟨(0, 1, 2), (triangle_iff _).2 (Or.inl rfl)⟩

theorem limits (h : ℚ) (ts : List (Nat × Nat × Nat)) (hnd : ts.Nodup) (ht : ∀ t ∈ ts, IsTriangle (pairsOf h).keys t) :
    ts.length ≤ 2 := by
  have hsub : ts ⊆ [(0, 1, 2), (1, 2, 3)] := by
    intro t hm
    have := ht t hm
    rw [show (pairsOf h).keys = edges from keys_graphOf _ _, triangle_iff] at this
    simpa using this
  exact (hnd.subperm hsub).length_le

theorem component {ts : List (Nat × Nat × Nat)} (hc : LargestComponent edges ts) (v : Nat) (hv : v < 4) :
    ∃ t ∈ ts, Corner t v := by
  have hshare : ShareEdge ((0, 1, 2) : Nat × Nat × Nat) (1, 2, 3) :=
    ⟨1, 2, by decide, Or.inr (Or.inl rfl), Or.inr (Or.inr rfl), Or.inl rfl, Or.inr (Or.inl rfl)⟩
  have hshare' : ShareEdge ((1, 2, 3) : Nat × Nat × Nat) (0, 1, 2) :=
    ⟨1, 2, by decide, Or.inl rfl, Or.inr (Or.inl rfl), Or.inr (Or.inl rfl), Or.inr (Or.inr rfl)⟩
  have t1 : IsTriangle edges (0, 1, 2) := (triangle_iff _).2 (Or.inl rfl)
  have t2 : IsTriangle edges (1, 2, 3) := (triangle_iff _).2 (Or.inr rfl)
  have both : (0, 1, 2) ∈ ts ∧ (1, 2, 3) ∈ ts := by
    obtain ⟨t, rest, e⟩ := List.exists_cons_of_ne_nil hc.1
    have ht : t ∈ ts := by rw [e]; exact List.mem_cons_self
    obtain ⟨h1, h2⟩ := hc.2.2.1 t ht
    rcases (triangle_iff t).1 h1 with rfl | rfl
    · exact ⟨ht, (h2 _).2 (Relation.ReflTransGen.single ⟨t1, t2, hshare⟩)⟩
    · exact ⟨(h2 _).2 (Relation.ReflTransGen.single ⟨t2, t1, hshare'⟩), ht⟩
  rcases (show v = 0 ∨ v = 1 ∨ v = 2 ∨ v = 3 by omega) with rfl | rfl | rfl | rfl
  · exact ⟨_, both.1, Or.inl rfl⟩
  · exact ⟨_, both.1, Or.inr (Or.inl rfl)⟩
  · exact ⟨_, both.1, Or.inr (Or.inr rfl)⟩
  · exact ⟨_, both.2, Or.inr (Or.inr rfl)⟩

theorem not_coplanar (ts : List (Nat × Nat × Nat)) (hc : LargestComponent (pairsOf (1 / 20)).keys ts) :
    NotCoplanar (cam (1 / 20)) (fun v => ∃ t ∈ ts, Corner t v) := by
  rw [show (pairsOf (1 / 20)).keys = edges from keys_graphOf _ _] at hc
  intro n hn
  have h1 := hn 1 0 (component hc 1 (by norm_num)) (component hc 0 (by norm_num))
  have h2 := hn 2 0 (component hc 2 (by norm_num)) (component hc 0 (by norm_num))
  have h3 := hn 3 0 (component hc 3 (by norm_num)) (component hc 0 (by norm_num))
  simp only [cam, V3.dot, V3.sub] at h1 h2 h3
  push_cast at h3
  apply V3.ext <;> simp only [V3.zero]
  · linarith
  · linarith
  · linarith

/-- The hypotheses of the theorems are met. -/
example : ∃ llt fromTwo eig, Cholesky llt ∧ TurnsOneToOther fromTwo ∧ EigensolverOne eig ∧
    ∃ s p, estimate llt fromTwo eig 2 id (viewsOf (1 / 20)) (pairsOf (1 / 20)) orientationsOf empty = .ok (s, p) ∧
      ∃ (α : ℝ) (o : V3 ℝ), 0 < α ∧ ∀ v < 4, p.get v = some (((cam (1 / 20) v).sub o).smul α) := by
  obtain ⟨llt, hl⟩ := exists_cholesky
  obtain ⟨f, hf⟩ := exists_turns
  obtain ⟨eig, he⟩ := LinearPosition.exists_eigensolver
  obtain ⟨s, p, ts, hrun, hc, hk, α, o, hα, hp⟩ := C64_recovered hl hf he (limit := 2) (by norm_num) (order := id)
    (fun l => List.Perm.refl l) (limits (1 / 20)) (scene (1 / 20) (by norm_num) (by norm_num)) not_coplanar
  refine ⟨llt, f, eig, hl, hf, he, s, p, hrun, α, o, hα, fun v hv => hp v ((hk v).2 ?_)⟩
  rw [show (pairsOf (1 / 20)).keys = edges from keys_graphOf _ _] at hc
  exact component hc v hv

end LinearPositionExample

open LinearPositionExample

/-! ## Failures -/

/-- **C64, counterexample.** If all cameras are in one plane (three cameras always are), the positions need not be recovered,
even from exact input: turning all cameras about the normal of the plane satisfies the constraints as well as scaling them does,
so the smallest eigenvalue is not simple and a correct eigensolver may return positions of a wrong shape. -/
theorem C64_coplanar_counterexample {llt : (V4 → V4) → V4 → Option V4} (hl : Cholesky llt) {fromTwo : V3 ℝ → V3 ℝ → M3 ℝ}
    (hturn : TurnsOneToOther fromTwo) {limit : Nat} (hpos : 0 < limit) {order : List (Nat × Nat) → List (Nat × Nat)}
    (horder : ∀ l, (order l).Perm l) {views : AMap Nat (AMap Nat V2)} {pairs : AMap (Nat × Nat) Info}
    {orientations : AMap Nat (V3 ℝ)} {G : Nat → M3 ℝ} {c X : Nat → V3 ℝ}
    (hlimit : ∀ ts : List (Nat × Nat × Nat), ts.Nodup → (∀ t ∈ ts, IsTriangle pairs.keys t) → ts.length ≤ limit)
    (hscene : ExactScene G c X views pairs orientations) {n : V3 ℝ} (hn : n ≠ V3.zero)
    (hplane : ∀ v w, n.dot ((c v).sub (c w)) = 0) :
    ∃ eig s p, EigensolverOne eig ∧ estimate llt fromTwo eig limit order views pairs orientations empty = .ok (s, p) ∧
      ¬ ∃ (α : ℝ) (o : V3 ℝ), α ≠ 0 ∧ ∀ v q, p.get v = some q → q = ((c v).sub o).smul α := by
  obtain ⟨eig, s, p, h1, h2, h3⟩ := coplanar_run hl hturn hpos horder hlimit hscene hn hplane
  exact ⟨eig, s, p, h1, h2, fun ⟨α, o, hα, h⟩ => h3 α o hα h⟩

/-- Such a scene: the fourth camera in the plane of the others. -/
example : ExactScene (fun _ => toM turn) (cam 0) point (viewsOf 0) (pairsOf 0) orientationsOf ∧
    ∀ v w, (⟨0, 0, 1⟩ : V3 ℝ).dot ((cam 0 v).sub (cam 0 w)) = 0 := by
  refine ⟨scene 0 (by norm_num) (by norm_num), ?_⟩
  intro v w
  have hz : ∀ v, (cam 0 v).z = 0 := by
    intro v
    unfold cam
    split <;> simp
  simp [V3.dot, V3.sub, hz]

/-- **C64, counterexample.** A camera with the identity orientation, such as the first camera of the rotation estimators, makes
the estimation divide by zero: if it is the first or second camera of a triplet of the largest component there is no result,
whatever the measurements and the sub-procedures. -/
theorem C64_identity_counterexample (llt : (V4 → V4) → V4 → Option V4) (fromTwo : V3 ℝ → V3 ℝ → M3 ℝ)
    (eig : Nat → (Nat → Nat → ℝ) → Option (Nat → ℝ)) {limit : Nat} {order : List (Nat × Nat) → List (Nat × Nat)}
    (hpos : 0 < limit) (horder : ∀ l, (order l).Perm l) (views : AMap Nat (AMap Nat V2)) {pairs : AMap (Nat × Nat) Info}
    (hwf : pairs.WF) (hord : ∀ e ∈ pairs.keys, e.1 < e.2)
    (hlimit : ∀ ts : List (Nat × Nat × Nat), ts.Nodup → (∀ t ∈ ts, IsTriangle pairs.keys t) → ts.length ≤ limit)
    (orientations : AMap Nat (V3 ℝ))
    (hzero : ∀ ts, LargestComponent pairs.keys ts →
      ∃ t ∈ ts, orientations.get t.1 = some V3.zero ∨ orientations.get t.2.1 = some V3.zero)
    (s : State) (p : AMap Nat (V3 ℝ)) :
    estimate llt fromTwo eig limit order views pairs orientations empty ≠ .ok (s, p) := by
  intro h
  obtain ⟨ts, tbs, es, h1, h2, h3, -, -⟩ := estimate_ok h
  have hc : LargestComponent pairs.keys ts := by
    rcases largest_spec hpos horder hwf hord hlimit with ⟨-, h⟩ | ⟨ts', h, hc⟩
    · rw [h] at h1
      cases h1
    · rw [h] at h1
      cases h1
      exact hc
  obtain ⟨hmap, -⟩ := baselines_ok ts h2
  have hinv := Inv.addAll ts Inv.empty
  have hfits : ∀ tb ∈ tbs, Fits (ts.foldl addTriplet empty) tb.1 := by
    intro tb hm
    have hmem : tb.1 ∈ ts := by
      rw [← hmap]
      exact List.mem_map_of_mem hm
    have hk : ∀ v, Corner tb.1 v → v ∈ (ts.foldl addTriplet empty).index.keys :=
      fun v hv => (mem_keys_addAll v ts empty).2 (Or.inr ⟨tb.1, hmem, hv⟩)
    obtain ⟨h01, h02, h12⟩ := distinct (hc.2.2.1 tb.1 hmem).1
    exact ⟨hk _ (Or.inl rfl), hk _ (Or.inr (Or.inl rfl)), hk _ (Or.inr (Or.inr rfl)), h01, h02, h12⟩
  obtain ⟨hrot, -, -⟩ := allEntries_ok hinv tbs hfits h3
  obtain ⟨t, ht, hz⟩ := hzero ts hc
  obtain ⟨tb, htb, rfl⟩ := List.mem_map.1 (show t ∈ tbs.map Prod.fst by rw [hmap]; exact ht)
  obtain ⟨⟨r, hr⟩, -⟩ := hrot tb htb
  unfold rotations at hr
  rcases hz with hz | hz
  · rw [hz] at hr
    cases hg : orientations.get tb.1.2.1 with
    | none => rw [hg] at hr; cases hr
    | some o1 =>
      rw [hg] at hr
      simp [rotationOf] at hr
  · rw [hz] at hr
    cases hg : orientations.get tb.1.1 with
    | none => rw [hg] at hr; cases hr
    | some o0 =>
      rw [hg] at hr
      by_cases h0 : o0 = V3.zero <;> simp [rotationOf, h0] at hr

/-- The first camera of the scene above with the identity orientation. -/
example (llt : (V4 → V4) → V4 → Option V4) (fromTwo : V3 ℝ → V3 ℝ → M3 ℝ) (eig : Nat → (Nat → Nat → ℝ) → Option (Nat → ℝ))
    (s : State) (p : AMap Nat (V3 ℝ)) :
    estimate llt fromTwo eig 2 id (viewsOf 0) (pairsOf 0) (orientationsOf.insert 0 V3.zero) empty ≠ .ok (s, p) := by
  have hs := scene 0 (by norm_num) (by norm_num)
  refine C64_identity_counterexample llt fromTwo eig (by norm_num) (fun l => List.Perm.refl l) _ hs.wf hs.ordered (limits 0) _ ?_ s p
  intro ts hc
  rw [show (pairsOf 0).keys = edges from keys_graphOf _ _] at hc
  obtain ⟨t, ht, hcor⟩ := component hc 0 (by norm_num)
  refine ⟨t, ht, Or.inl ?_⟩
  have h0 : t.1 = 0 := by
    rcases (triangle_iff t).1 (hc.2.2.1 t ht).1 with rfl | rfl
    · rfl
    · rcases hcor with h | h | h <;> cases h
  rw [h0, AMap.get_insert_self]

/-- **C64, counterexample.** A triplet of the largest component without a common track makes the estimation divide by zero,
although the other triplets would do: there is no result. -/
theorem C64_unseen_counterexample {llt : (V4 → V4) → V4 → Option V4} (fromTwo : V3 ℝ → V3 ℝ → M3 ℝ)
    (eig : Nat → (Nat → Nat → ℝ) → Option (Nat → ℝ)) {limit : Nat} {order : List (Nat × Nat) → List (Nat × Nat)}
    (hpos : 0 < limit) (horder : ∀ l, (order l).Perm l) {views : AMap Nat (AMap Nat V2)} {pairs : AMap (Nat × Nat) Info}
    (hwf : pairs.WF) (hord : ∀ e ∈ pairs.keys, e.1 < e.2)
    (hlimit : ∀ ts : List (Nat × Nat × Nat), ts.Nodup → (∀ t ∈ ts, IsTriangle pairs.keys t) → ts.length ≤ limit)
    (orientations : AMap Nat (V3 ℝ))
    (hunseen : ∀ ts, LargestComponent pairs.keys ts → ∃ t ∈ ts, ∀ k, ¬ SeenBy views t k)
    (s : State) (p : AMap Nat (V3 ℝ)) :
    estimate llt fromTwo eig limit order views pairs orientations empty ≠ .ok (s, p) := by
  intro h
  obtain ⟨ts, tbs, es, h1, h2, h3, -, -⟩ := estimate_ok h
  have hc : LargestComponent pairs.keys ts := by
    rcases largest_spec hpos horder hwf hord hlimit with ⟨-, h⟩ | ⟨ts', h, hc⟩
    · rw [h] at h1
      cases h1
    · rw [h] at h1
      cases h1
      exact hc
  obtain ⟨hmap, hbase⟩ := baselines_ok ts h2
  have hinv := Inv.addAll ts Inv.empty
  have hfits : ∀ tb ∈ tbs, Fits (ts.foldl addTriplet empty) tb.1 := by
    intro tb hm
    have hmem : tb.1 ∈ ts := by
      rw [← hmap]
      exact List.mem_map_of_mem hm
    have hk : ∀ v, Corner tb.1 v → v ∈ (ts.foldl addTriplet empty).index.keys :=
      fun v hv => (mem_keys_addAll v ts empty).2 (Or.inr ⟨tb.1, hmem, hv⟩)
    obtain ⟨h01, h02, h12⟩ := distinct (hc.2.2.1 tb.1 hmem).1
    exact ⟨hk _ (Or.inl rfl), hk _ (Or.inr (Or.inl rfl)), hk _ (Or.inr (Or.inr rfl)), h01, h02, h12⟩
  obtain ⟨hrot, -, -⟩ := allEntries_ok hinv tbs hfits h3
  obtain ⟨t, ht, hno⟩ := hunseen ts hc
  obtain ⟨tb, htb, rfl⟩ := List.mem_map.1 (show t ∈ tbs.map Prod.fst by rw [hmap]; exact ht)
  obtain ⟨-, hx, -⟩ := hrot tb htb
  have hb := hbase tb htb
  obtain ⟨-, -, e01, e02, e12⟩ := (hc.2.2.1 tb.1 ht).1
  obtain ⟨i01, k01⟩ := AMap.mem_keys_iff.1 e01
  obtain ⟨i02, k02⟩ := AMap.mem_keys_iff.1 e02
  obtain ⟨i12, k12⟩ := AMap.mem_keys_iff.1 e12
  unfold baselineFor at hb
  cases g0 : views.get tb.1.1 with
  | none => rw [g0] at hb; cases hb
  | some m0 =>
    cases g1 : views.get tb.1.2.1 with
    | none => rw [g0, g1] at hb; cases hb
    | some m1 =>
      cases g2 : views.get tb.1.2.2 with
      | none => rw [g0, g1, g2] at hb; cases hb
      | some m2 =>
        obtain ⟨res, hf, -, -, hmem⟩ := CommonTracks.find_spec views [tb.1.1, tb.1.2.1, tb.1.2.2] (by simp) (by
          intro v hv
          simp only [List.mem_cons, List.not_mem_nil, or_false] at hv
          rcases hv with rfl | rfl | rfl
          · exact AMap.mem_keys_iff.2 ⟨_, g0⟩
          · exact AMap.mem_keys_iff.2 ⟨_, g1⟩
          · exact AMap.mem_keys_iff.2 ⟨_, g2⟩)
        have hnil : res = [] := by
          apply List.eq_nil_iff_forall_not_mem.2
          intro k hk
          have := (hmem k).1 hk
          exact hno k ⟨m0, m1, m2, g0, g1, g2, this _ (by simp) _ g0, this _ (by simp) _ g1, this _ (by simp) _ g2⟩
        subst hnil
        rw [g0, g1, g2, hf] at hb
        simp only [featuresOf, baselineWith, k01, k02, k12, compute, List.length_nil, ne_eq, not_true_eq_false, if_false,
          List.zip_nil_left, ratios, fromRatios, if_true, Option.getD_none, Outcome.ok.injEq] at hb
        rw [← hb] at hx
        exact hx rfl

/-- The scene above if the cameras have no image points. -/
example (llt : (V4 → V4) → V4 → Option V4) (fromTwo : V3 ℝ → V3 ℝ → M3 ℝ) (eig : Nat → (Nat → Nat → ℝ) → Option (Nat → ℝ))
    (s : State) (p : AMap Nat (V3 ℝ)) :
    estimate llt fromTwo eig 2 id (graphOf [0, 1, 2, 3] (fun v => if v = 3 then .empty else graphOf [0, 1] (image 0 v)))
      (pairsOf 0) orientationsOf empty ≠ .ok (s, p) := by
  have hs := scene 0 (by norm_num) (by norm_num)
  refine C64_unseen_counterexample fromTwo eig (by norm_num) (fun l => List.Perm.refl l) hs.wf hs.ordered (limits 0) _ ?_ s p
  intro ts hc
  rw [show (pairsOf 0).keys = edges from keys_graphOf _ _] at hc
  obtain ⟨t, ht, hcor⟩ := component hc 3 (by norm_num)
  refine ⟨t, ht, ?_⟩
  rintro k ⟨m1, m2, m3, -, -, h3, -, -, hk⟩
  have h0 : t.2.2 = 3 := by
    rcases (triangle_iff t).1 (hc.2.2.1 t ht).1 with rfl | rfl
    · rcases hcor with h | h | h <;> cases h
    · rfl
  rw [h0] at h3
  rw [(get_graphOf h3).2] at hk
  simp [AMap.keys, AMap.empty] at hk

/-- **C64, counterexample.** An estimator does not forget: a second call, for other pairs, also returns positions for every
camera of the first call, whether or not it is in the graph of the second. -/
theorem C64_reuse_counterexample {llt : (V4 → V4) → V4 → Option V4} (hl : Cholesky llt) {fromTwo : V3 ℝ → V3 ℝ → M3 ℝ}
    (hturn : TurnsOneToOther fromTwo) {eig : Nat → (Nat → Nat → ℝ) → Option (Nat → ℝ)} (heig : EigensolverOne eig)
    {limit : Nat} (hpos : 0 < limit) {order : List (Nat × Nat) → List (Nat × Nat)} (horder : ∀ l, (order l).Perm l)
    {views : AMap Nat (AMap Nat V2)} {pairs pairs' : AMap (Nat × Nat) Info} {orientations orientations' : AMap Nat (V3 ℝ)}
    {G : Nat → M3 ℝ} {c X : Nat → V3 ℝ}
    (hlimit : ∀ ts : List (Nat × Nat × Nat), ts.Nodup → (∀ t ∈ ts, IsTriangle pairs'.keys t) → ts.length ≤ limit)
    {s : State} {p : AMap Nat (V3 ℝ)}
    (hfirst : estimate llt fromTwo eig limit order views pairs orientations empty = .ok (s, p))
    (hscene : ExactScene G c X views pairs' orientations') :
    ∃ s' p', estimate llt fromTwo eig limit order views pairs' orientations' s = .ok (s', p') ∧
      ∀ v ∈ p.keys, v ∈ p'.keys := by
  obtain ⟨ts1, tbs1, es1, -, -, -, h4, hs⟩ := estimate_ok hfirst
  have hinv1 : Inv s := by
    rw [hs]
    exact Inv.addAll ts1 Inv.empty
  have hk1 : p.keys = s.index.keys := by
    rw [← hs] at h4
    unfold solve at h4
    split at h4
    · cases h4
    · split at h4
      · cases h4
      · rcases flip_cases h4 with e | e
        · rw [e, AMap.keys_mapVals]
        · rw [e, AMap.keys_mapVals, AMap.keys_mapVals]
  obtain ⟨ts, tbs, es, shape, hts, hc, hbase, hmap, hes, hshape, hexact⟩ := prepare s hl hturn hpos horder hlimit hscene
  have hinv := Inv.addAll ts hinv1
  obtain ⟨u, hu, hsolve⟩ := solve_ok heig (pairs := pairs') (orientations := orientations') hinv (es := es) (size_ge s hc)
  obtain ⟨n, hn⟩ := votes_ok (orientations := orientations') (positions := rawPositions (ts.foldl addTriplet s) u)
    pairs'.entries (by
      intro e he
      obtain ⟨o, ho, -⟩ := hscene.oriented e.1 (AMap.mem_keys_iff.2 ⟨_, AMap.get_of_mem_entries hscene.wf he⟩)
      exact ⟨o, ho⟩)
  obtain ⟨p', hp'⟩ : ∃ p', LinearPosition.flip pairs' orientations' (rawPositions (ts.foldl addTriplet s) u) = .ok p' := by
    unfold LinearPosition.flip
    rw [hn]
    exact ⟨_, rfl⟩
  refine ⟨ts.foldl addTriplet s, p', ?_, ?_⟩
  · unfold estimate
    rw [hts]
    simp only
    rw [hbase]
    simp only
    rw [hes]
    simp only
    rw [hsolve, hp']
  · intro v hv
    rw [hk1] at hv
    have hk' : p'.keys = (ts.foldl addTriplet s).index.keys := by
      rcases flip_cases hp' with e | e
      · rw [e, keys_raw]
      · rw [e, AMap.keys_mapVals, keys_raw]
    rw [hk']
    exact (mem_keys_addAll v ts s).2 (Or.inl hv)

/-- The scene above without the fourth camera, estimated second: the fourth camera still gets a position. -/
example : ∃ llt fromTwo eig s p s' p', Cholesky llt ∧ TurnsOneToOther fromTwo ∧ EigensolverOne eig ∧
    estimate llt fromTwo eig 2 id (viewsOf (1 / 20)) (pairsOf (1 / 20)) orientationsOf empty = .ok (s, p) ∧
    estimate llt fromTwo eig 2 id (viewsOf (1 / 20)) ⟨(pairsOf (1 / 20)).entries.take 3⟩ orientationsOf s = .ok (s', p') ∧
    3 ∈ p'.keys := by
  obtain ⟨llt, hl⟩ := exists_cholesky
  obtain ⟨f, hf⟩ := exists_turns
  obtain ⟨eig, he⟩ := LinearPosition.exists_eigensolver
  have hs := scene (1 / 20) (by norm_num) (by norm_num)
  obtain ⟨s, p, ts, hrun, hc, hk, -⟩ := C64_recovered hl hf he (limit := 2) (by norm_num) (order := id)
    (fun l => List.Perm.refl l) (limits (1 / 20)) hs not_coplanar
  rw [show (pairsOf (1 / 20)).keys = edges from keys_graphOf _ _] at hc
  have hkeys : (⟨(pairsOf (1 / 20)).entries.take 3⟩ : AMap (Nat × Nat) Info).keys = edges.take 3 := rfl
  have hsub : ∀ e ∈ edges.take 3, e ∈ edges := fun e h => List.mem_of_mem_take h
  have hget : ∀ e i, (⟨(pairsOf (1 / 20)).entries.take 3⟩ : AMap (Nat × Nat) Info).get e = some i →
      (pairsOf (1 / 20)).get e = some i := by
    intro e i h
    exact AMap.get_of_mem_entries hs.wf (List.mem_of_mem_take (AMap.mem_entries_of_get h))
  have htri : ∀ t, IsTriangle (edges.take 3) t → IsTriangle (pairsOf (1 / 20)).keys t := by
    rintro t ⟨h1, h2, h3, h4, h5⟩
    rw [show (pairsOf (1 / 20)).keys = edges from keys_graphOf _ _]
    exact ⟨h1, h2, hsub _ h3, hsub _ h4, hsub _ h5⟩
  have hs' : ExactScene (fun _ => toM turn) (cam (1 / 20)) point (viewsOf (1 / 20))
      ⟨(pairsOf (1 / 20)).entries.take 3⟩ orientationsOf := by
    refine ⟨hs.rotations, ?_, ?_, fun e i h => hs.poses e i (hget e i h), ?_, hs.features, ?_, ?_, ?_⟩
    · show AMap.keys _ |>.Nodup
      rw [hkeys]
      decide
    · rw [hkeys]
      decide
    · rw [hkeys]
      intro e h
      apply hs.oriented
      rw [show (pairsOf (1 / 20)).keys = edges from keys_graphOf _ _]
      exact hsub e h
    · rw [hkeys]
      exact fun t ht => hs.useful t (htri t ht)
    · rw [hkeys]
      exact fun t ht => hs.spread t (htri t ht)
    · rw [hkeys]
      exact ⟨(0, 1, 2), by simp [IsTriangle, edges]⟩
  obtain ⟨s', p', hrun', hk'⟩ := C64_reuse_counterexample hl hf he (by norm_num) (fun l => List.Perm.refl l) (by
    intro ts h1 h2
    apply limits (1 / 20) ts h1
    intro t ht
    apply htri
    rw [← hkeys]
    exact h2 t ht) hrun hs'
  exact ⟨llt, f, eig, s, p, s', p', hl, hf, he, hrun, hrun', hk' 3 ((hk 3).2 (component hc 3 (by norm_num)))⟩

end Theia
