import Verif.Proof.LinearPositionRecovered

/-!
# Linear estimation of global positions: cameras in a plane
-/

namespace Theia
namespace LinearPosition

open Spec LinearRotation BaselineRatios Triangulation AngleAxis

theorem parallel_normal {d e B : V3 ℝ} (hn : d.cross e ≠ V3.zero) (h1 : B.dot d = 0) (h2 : B.dot e = 0) :
    B = (d.cross e).smul (B.dot (d.cross e) / (d.cross e).dot (d.cross e)) := by
  have hp := (V3.self_pos hn).ne'
  have h3 : B.cross (d.cross e) = V3.zero := by
    simp only [V3.dot] at h1 h2
    apply V3.ext <;> simp only [V3.cross, V3.zero]
    · linear_combination d.x * h2 - e.x * h1
    · linear_combination d.y * h2 - e.y * h1
    · linear_combination d.z * h2 - e.z * h1
  generalize d.cross e = n at *
  have hx := congrArg V3.x h3
  have hy := congrArg V3.y h3
  have hz := congrArg V3.z h3
  simp only [V3.cross, V3.zero] at hx hy hz
  apply V3.ext <;> simp only [V3.smul] <;> rw [div_mul_eq_mul_div, eq_div_iff hp] <;> simp only [V3.dot]
  · linear_combination n.y * hz - n.z * hy
  · linear_combination n.z * hx - n.x * hz
  · linear_combination n.x * hy - n.y * hx

/-- The shape fits the positions turned at a rate about the normal. -/
theorem ExactShape.cost_turn {c0 c1 c2 : V3 ℝ} {s : TripletShape} (h : ExactShape c0 c1 c2 s)
    (hn : (c1.sub c0).cross (c2.sub c0) ≠ V3.zero) {B : V3 ℝ} (h1 : B.dot (c1.sub c0) = 0) (h2 : B.dot (c2.sub c0) = 0)
    (f : V3 ℝ) (a : ℝ) :
    shapeCost s ((B.cross (c0.sub f)).smul a) ((B.cross (c1.sub f)).smul a) ((B.cross (c2.sub f)).smul a) = 0 := by
  have hB := parallel_normal hn h1 h2
  have hfix : ∀ m : M3 ℝ, m.mulVec ((c1.sub c0).cross (c2.sub c0)) = (c1.sub c0).cross (c2.sub c0) → m.mulVec B = B := by
    intro m hm
    rw [hB, M3.mulVec_smul, hm]
  have f0 := hfix _ h.fix0
  have f1 := hfix _ h.fix1
  have f2 := hfix _ h.fix2
  have f0' := hfix _ (transpose_fix h.rot0 h.fix0)
  have f1' := hfix _ (transpose_fix h.rot1 h.fix1)
  have f2' := hfix _ (transpose_fix h.rot2 h.fix2)
  have hsub : ∀ x y : V3 ℝ, ((B.cross (x.sub f)).smul a).sub ((B.cross (y.sub f)).smul a) = (B.cross (x.sub y)).smul a := by
    intro x y
    apply V3.ext <;> simp only [V3.sub, V3.smul, V3.cross] <;> ring
  have hmove : ∀ (m : M3 ℝ) (v : V3 ℝ) (k : ℝ), (m.mulVec (v.smul a)).smul k = ((m.mulVec v).smul k).smul a := by
    intro m v k
    rw [M3.mulVec_smul, V3.smul_smul, V3.smul_smul, mul_comm]
  unfold shapeCost
  simp only [hsub, hmove]
  rw [commute_cross h.rot0 f0 h.map0, commute_cross h.rot1 f1 h.map1, commute_cross h.rot2 f2 h.map2,
    commute_cross h.rot0.transpose f0' h.map0', commute_cross h.rot1.transpose f1' h.map1',
    commute_cross h.rot2.transpose f2' h.map2']
  rw [sqDist_zero, sqDist_zero, sqDist_zero]
  · norm_num
  all_goals apply V3.ext <;> simp only [V3.add, V3.sub, V3.smul, V3.cross] <;> ring

theorem positionCost_nonneg (ts : List Triplet) (shape : Triplet → TripletShape) (Y : Nat → V3 ℝ) :
    0 ≤ positionCost ts shape Y := by
  apply List.sum_nonneg
  intro x hx
  obtain ⟨t, -, rfl⟩ := List.mem_map.1 hx
  exact div_nonneg (shapeCost_nonneg _ _ _ _)
    (le_min (Nat.cast_nonneg _) (le_min (Nat.cast_nonneg _) (Nat.cast_nonneg _)))

/-- Positions of cost zero are a smallest eigenvector. -/
theorem smallest_of_zero {fromTwo : V3 ℝ → V3 ℝ → M3 ℝ} {pairs : AMap (Nat × Nat) Info} {orientations : AMap Nat (V3 ℝ)}
    {ts : List Triplet} (hd : ∀ t ∈ ts, t.1 ≠ t.2.1 ∧ t.1 ≠ t.2.2 ∧ t.2.1 ≠ t.2.2) {tbs : List (Triplet × V3 ℝ)}
    (htb : tbs.map Prod.fst = ts) {es : List (Int × Int × ℝ)}
    (he : allEntries fromTwo pairs orientations (ts.foldl addTriplet empty) tbs = .ok es) (shape : Triplet → TripletShape)
    (hshape : ∀ tb ∈ tbs, ∃ r, rotations fromTwo pairs orientations tb.1 = .ok r ∧ shape tb.1 = shapeOf r tb.2)
    {Y : Nat → V3 ℝ} (hY0 : ∀ v, idx (ts.foldl addTriplet empty) v = -1 → v ∈ (ts.foldl addTriplet empty).index.keys →
      Y v = V3.zero)
    (hY : ((ts.foldl addTriplet empty).index.keys.map (fun v => (Y v).dot (Y v))).sum = 1)
    (hz : positionCost ts shape Y = 0) :
    SmallestEigenvector (((ts.foldl addTriplet empty).index.size - 1) * 3) (symmetric (stored (kept es)))
      (stackOf (ts.foldl addTriplet empty) Y) := by
  have hinv := Inv.addAll ts Inv.empty
  have hp : ∀ v ∈ (ts.foldl addTriplet empty).index.keys,
      positionOf (stackOf (ts.foldl addTriplet empty) Y) (idx (ts.foldl addTriplet empty) v) = Y v :=
    fun v hv => position_stackOf hinv hv (fun h => hY0 v h hv)
  constructor
  · rw [← norm_sum hinv, ← hY]
    congr 1
    apply List.map_congr_left
    intro v hv
    rw [hp v hv]
  · intro v _
    have e1 := cost_eq hd htb he shape hshape v
    have e2 := cost_eq hd htb he shape hshape (stackOf (ts.foldl addTriplet empty) Y)
    unfold LinearRotation.form at e1 e2
    rw [e1, e2]
    refine le_trans (le_of_eq ?_) (positionCost_nonneg _ _ _)
    rw [← hz]
    unfold positionCost
    congr 1
    apply List.map_congr_left
    intro t ht
    have hk : ∀ v, Corner t v → v ∈ (ts.foldl addTriplet empty).index.keys :=
      fun v hv => (mem_keys_addAll v ts empty).2 (Or.inr ⟨t, ht, hv⟩)
    beta_reduce
    rw [hp _ (hk _ (Or.inl rfl)), hp _ (hk _ (Or.inr (Or.inl rfl))), hp _ (hk _ (Or.inr (Or.inr rfl)))]

section

variable {llt : (V4 → V4) → V4 → Option V4} {fromTwo : V3 ℝ → V3 ℝ → M3 ℝ}
  {limit : Nat} {order : List (Nat × Nat) → List (Nat × Nat)} {views : AMap Nat (AMap Nat V2)}
  {pairs : AMap (Nat × Nat) Info} {orientations : AMap Nat (V3 ℝ)} {G : Nat → M3 ℝ} {c X : Nat → V3 ℝ}

theorem coplanar_run (hl : Cholesky llt) (hf : TurnsOneToOther fromTwo) (hpos : 0 < limit) (horder : ∀ l, (order l).Perm l)
    (hlimit : ∀ ts : List Triplet, ts.Nodup → (∀ t ∈ ts, IsTriangle pairs.keys t) → ts.length ≤ limit)
    (h : ExactScene G c X views pairs orientations) {B : V3 ℝ} (hB : B ≠ V3.zero)
    (hplane : ∀ v w, B.dot ((c v).sub (c w)) = 0) :
    ∃ eig s p, EigensolverOne eig ∧ estimate llt fromTwo eig limit order views pairs orientations empty = .ok (s, p) ∧
      ∀ (α : ℝ) (o : V3 ℝ), α ≠ 0 → ¬ ∀ v q, p.get v = some q → q = ((c v).sub o).smul α := by
  obtain ⟨ts, tbs, es, shape, hts, hc, hbase, hmap, hes, hshape, hexact⟩ := prepare empty hl hf hpos horder hlimit h
  have hinv := Inv.addAll ts Inv.empty
  have htri : ∀ t ∈ ts, IsTriangle pairs.keys t := fun t ht => (hc.2.2.1 t ht).1
  have hd : ∀ t ∈ ts, t.1 ≠ t.2.1 ∧ t.1 ≠ t.2.2 ∧ t.2.1 ≠ t.2.2 := fun t ht => distinct (htri t ht)
  obtain ⟨t, rest, e⟩ := List.exists_cons_of_ne_nil hc.1
  have ht : t ∈ ts := by rw [e]; exact List.mem_cons_self
  have hfirst : (ts.foldl addTriplet empty).index.get t.1 = some (-1) := by rw [e]; exact get_first t rest
  have hk : ∀ v, Corner t v → v ∈ (ts.foldl addTriplet empty).index.keys :=
    fun v hv => (mem_keys_addAll v ts empty).2 (Or.inr ⟨t, ht, hv⟩)
  have hne : c t.1 ≠ c t.2.1 := corners_differ (h.spread t (htri t ht)) (Or.inl rfl) (Or.inr (Or.inl rfl)) (hd t ht).1
  have hw := hk t.2.1 (Or.inr (Or.inl rfl))
  have hcross : B.cross ((c t.2.1).sub (c t.1)) ≠ V3.zero := by
    intro h0
    have hl : (B.cross ((c t.2.1).sub (c t.1))).dot (B.cross ((c t.2.1).sub (c t.1))) =
        B.dot B * ((c t.2.1).sub (c t.1)).dot ((c t.2.1).sub (c t.1)) -
          B.dot ((c t.2.1).sub (c t.1)) * B.dot ((c t.2.1).sub (c t.1)) := by
      simp only [V3.dot, V3.cross]
      ring
    rw [h0, hplane] at hl
    have h1 := V3.self_pos hB
    have h2 := V3.self_pos (sub_ne_zero' hne.symm)
    have h3 : V3.zero.dot (V3.zero : V3 ℝ) = 0 := by simp [V3.dot, V3.zero]
    rw [h3] at hl
    nlinarith [mul_pos h1 h2]
  obtain ⟨k, hk1⟩ := exists_unit (D := fun v => B.cross ((c v).sub (c t.1))) hw hcross
  have hz : positionCost ts shape (fun v => (B.cross ((c v).sub (c t.1))).smul k) = 0 :=
    cost_zero (Y := fun v => (B.cross ((c v).sub (c t.1))).smul k) (fun u hu =>
      ExactShape.cost_turn (hexact u hu) (h.spread u (htri u hu)) (hplane _ _) (hplane _ _) (c t.1) k)
  have hY0 : ∀ v, idx (ts.foldl addTriplet empty) v = -1 → v ∈ (ts.foldl addTriplet empty).index.keys →
      (B.cross ((c v).sub (c t.1))).smul k = V3.zero := by
    intro v hv hkv
    have : v = t.1 := hinv.index.inj v t.1 (-1) (hv ▸ get_idx hkv) hfirst
    rw [this]
    apply V3.ext <;> simp [V3.smul, V3.sub, V3.zero, V3.cross]
  have hu := smallest_of_zero (Y := fun v => (B.cross ((c v).sub (c t.1))).smul k) hd hmap hes shape hshape hY0 hk1 hz
  obtain ⟨eig, heig, hret⟩ := exists_eigensolver_with hu
  obtain ⟨n, hn⟩ := votes_ok (orientations := orientations)
    (positions := rawPositions (ts.foldl addTriplet empty) (stackOf (ts.foldl addTriplet empty)
      (fun v => (B.cross ((c v).sub (c t.1))).smul k))) pairs.entries (by
      intro e he
      obtain ⟨o, ho, -⟩ := h.oriented e.1 (AMap.mem_keys_iff.2 ⟨_, AMap.get_of_mem_entries h.wf he⟩)
      exact ⟨o, ho⟩)
  obtain ⟨p, hp⟩ : ∃ p, flip pairs orientations (rawPositions (ts.foldl addTriplet empty)
      (stackOf (ts.foldl addTriplet empty) (fun v => (B.cross ((c v).sub (c t.1))).smul k))) = .ok p := by
    unfold flip
    rw [hn]
    exact ⟨_, rfl⟩
  have hsize := size_ge empty hc
  refine ⟨eig, ts.foldl addTriplet empty, p, heig, ?_, ?_⟩
  · unfold estimate
    rw [hts]
    simp only
    rw [hbase]
    simp only
    rw [hes]
    simp only
    unfold solve
    rw [hinv.size, if_neg (by omega), hret]
    simp only
    unfold rawPositions at hp
    rw [hp]
  · intro α o hα hall
    have hraw : ∀ v, Corner t v → (rawPositions (ts.foldl addTriplet empty)
        (stackOf (ts.foldl addTriplet empty) (fun v => (B.cross ((c v).sub (c t.1))).smul k))).get v =
        some ((B.cross ((c v).sub (c t.1))).smul k) := by
      intro v hv
      rw [get_raw (hk v hv), position_stackOf hinv (hk v hv) (fun hi => hY0 v hi (hk v hv))]
    obtain ⟨σ, hσ⟩ : ∃ σ : ℝ, ∀ v, Corner t v → p.get v = some ((B.cross ((c v).sub (c t.1))).smul σ) := by
      rcases flip_cases hp with rfl | rfl
      · exact ⟨k, hraw⟩
      · refine ⟨-k, fun v hv => ?_⟩
        rw [AMap.get_mapVals, hraw v hv]
        simp only [Option.map_some, V3.smul_smul]
        congr 2
        ring
    have e1 := hall _ _ (hσ _ (Or.inl rfl))
    have e2 := hall _ _ (hσ _ (Or.inr (Or.inl rfl)))
    have hpd := V3.self_pos (sub_ne_zero' hne.symm)
    have key : α * ((c t.2.1).sub (c t.1)).dot ((c t.2.1).sub (c t.1)) = 0 := by
      have x1 := congrArg V3.x e1
      have y1 := congrArg V3.y e1
      have z1 := congrArg V3.z e1
      have x2 := congrArg V3.x e2
      have y2 := congrArg V3.y e2
      have z2 := congrArg V3.z e2
      simp only [V3.smul, V3.sub, V3.cross] at x1 y1 z1 x2 y2 z2
      simp only [V3.dot, V3.sub]
      linear_combination ((c t.2.1).x - (c t.1).x) * (x1 - x2) + ((c t.2.1).y - (c t.1).y) * (y1 - y2) +
        ((c t.2.1).z - (c t.1).z) * (z1 - z2)
    rcases mul_eq_zero.1 key with h0 | h0
    · exact hα h0
    · exact hpd.ne' h0

end
end LinearPosition
end Theia
