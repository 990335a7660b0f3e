import Verif.Proof.LinearPositionExists

/-!
# Linear estimation of global positions: what exact input gives
-/

namespace Theia
namespace LinearPosition

open Spec LinearRotation BaselineRatios Triangulation AngleAxis

section

variable {llt : (V4 → V4) → V4 → Option V4} {fromTwo : V3 ℝ → V3 ℝ → M3 ℝ}
  {limit : Nat} {order : List (Nat × Nat) → List (Nat × Nat)} {views : AMap Nat (AMap Nat V2)}
  {pairs : AMap (Nat × Nat) Info} {orientations : AMap Nat (V3 ℝ)} {G : Nat → M3 ℝ} {c X : Nat → V3 ℝ}

/-- Exact input gets as far as the linear system, with the true shapes. -/
theorem prepare (s : State) (hl : Cholesky llt) (hf : TurnsOneToOther fromTwo) (hpos : 0 < limit) (horder : ∀ l, (order l).Perm l)
    (hlimit : ∀ ts : List Triplet, ts.Nodup → (∀ t ∈ ts, IsTriangle pairs.keys t) → ts.length ≤ limit)
    (h : ExactScene G c X views pairs orientations) :
    ∃ ts tbs es, ∃ shape : Triplet → TripletShape, largest limit order pairs = .ok ts ∧ LargestComponent pairs.keys ts ∧
      baselines llt views pairs ts = .ok tbs ∧ tbs.map Prod.fst = ts ∧
      allEntries fromTwo pairs orientations (ts.foldl addTriplet s) tbs = .ok es ∧
      (∀ tb ∈ tbs, ∃ r, rotations fromTwo pairs orientations tb.1 = .ok r ∧ shape tb.1 = shapeOf r tb.2) ∧
      ∀ t ∈ ts, ExactShape (c t.1) (c t.2.1) (c t.2.2) (shape t) := by
  classical
  rcases largest_spec hpos horder h.wf h.ordered hlimit with ⟨hno, -⟩ | ⟨ts, hts, hc⟩
  · obtain ⟨t, ht⟩ := h.triangle
    exact absurd ht (hno t)
  let b : Triplet → V3 ℝ := fun t => ⟨1, dist3 (c t.1) (c t.2.2) / dist3 (c t.1) (c t.2.1),
    dist3 (c t.2.1) (c t.2.2) / dist3 (c t.1) (c t.2.1)⟩
  let shape : Triplet → TripletShape := fun t =>
    match rotations fromTwo pairs orientations t with
    | .ok r => shapeOf r (b t)
    | _ => shapeOf (M3.one, M3.one, M3.one) (b t)
  have htri : ∀ t ∈ ts, IsTriangle pairs.keys t := fun t ht => (hc.2.2.1 t ht).1
  have hrot : ∀ t ∈ ts, ∃ r, rotations fromTwo pairs orientations t = .ok r ∧ shape t = shapeOf r (b t) ∧
      ExactShape (c t.1) (c t.2.1) (c t.2.2) (shape t) := by
    intro t ht
    obtain ⟨r, hr, hs⟩ := rotations_exact hf h.rotations h.poses h.oriented (htri t ht)
    have e : shape t = shapeOf r (b t) := by
      simp only [shape, hr]
    exact ⟨r, hr, e, e ▸ hs⟩
  have hbase := baselines_of (llt := llt) (views := views) (pairs := pairs) b ts
    (fun t ht => baseline_exact hl h.rotations h.features h.poses (htri t ht) (h.useful t (htri t ht)))
  have hne : ∀ t ∈ ts, (b t).x ≠ 0 ∧ (b t).y ≠ 0 ∧ (b t).z ≠ 0 := by
    intro t ht
    obtain ⟨-, -, e01, e02, e12⟩ := htri t ht
    obtain ⟨_, g01⟩ := AMap.mem_keys_iff.1 e01
    obtain ⟨_, g02⟩ := AMap.mem_keys_iff.1 e02
    obtain ⟨_, g12⟩ := AMap.mem_keys_iff.1 e12
    have p01 := dist3_pos (h.poses _ _ g01).1
    have p02 := dist3_pos (h.poses _ _ g02).1
    have p12 := dist3_pos (h.poses _ _ g12).1
    exact ⟨one_ne_zero, (div_pos p02 p01).ne', (div_pos p12 p01).ne'⟩
  have hmap : (ts.map (fun t => (t, b t))).map Prod.fst = ts := by
    rw [List.map_map]
    exact List.map_id _
  obtain ⟨es, hes⟩ := allEntries_of (fromTwo := fromTwo) (pairs := pairs) (orientations := orientations)
    (s := ts.foldl addTriplet s) (ts.map (fun t => (t, b t))) (by
      intro tb htb
      obtain ⟨t, ht, rfl⟩ := List.mem_map.1 htb
      have hk : ∀ v, Corner t v → v ∈ (ts.foldl addTriplet s).index.keys :=
        fun v hv => (mem_keys_addAll v ts s).2 (Or.inr ⟨t, ht, hv⟩)
      obtain ⟨h01, h02, h12⟩ := distinct (htri t ht)
      obtain ⟨r, hr, -⟩ := hrot t ht
      exact ⟨⟨hk _ (Or.inl rfl), hk _ (Or.inr (Or.inl rfl)), hk _ (Or.inr (Or.inr rfl)), h01, h02, h12⟩, ⟨r, hr⟩, hne t ht⟩)
  refine ⟨ts, _, es, shape, hts, hc, hbase, hmap, hes, ?_, fun t ht => (hrot t ht).choose_spec.2.2⟩
  intro tb htb
  obtain ⟨t, ht, rfl⟩ := List.mem_map.1 htb
  obtain ⟨r, hr, e, -⟩ := hrot t ht
  exact ⟨r, hr, e⟩

theorem keys_iff (ts : List Triplet) (v : Nat) :
    v ∈ (ts.foldl addTriplet empty).index.keys ↔ ∃ t ∈ ts, Corner t v := by
  rw [mem_keys_addAll]
  constructor
  · rintro (h | h)
    · simp [empty, AMap.keys, AMap.empty] at h
    · exact h
  · exact Or.inr

/-- Positions of cost zero on a component. -/
theorem moves_of_zero {ts : List Triplet} (hc : LargestComponent pairs.keys ts) {shape : Triplet → TripletShape}
    (hexact : ∀ t ∈ ts, ExactShape (c t.1) (c t.2.1) (c t.2.2) (shape t))
    (hspread : ∀ t ∈ ts, Nondegenerate c t) {Y : Nat → V3 ℝ} (hz : positionCost ts shape Y ≤ 0) :
    ∃ (a : ℝ) (B : V3 ℝ), ∀ v w, (∃ t ∈ ts, Corner t v) → (∃ t ∈ ts, Corner t w) → Moves c Y a B v w := by
  have hterm := positionCost_terms hz
  have hloc : ∀ t ∈ ts, Nondegenerate c t ∧ ∃ a B, MovesAll c Y a B t := by
    intro t ht
    obtain ⟨a, B, h1, h2, h3, h4⟩ := (hexact t ht).kernel (hspread t ht) (hterm t ht)
    exact ⟨hspread t ht, a, B, movesAll_of ⟨h1, h3⟩ ⟨h2, h4⟩⟩
  obtain ⟨t, rest, rfl⟩ := List.exists_cons_of_ne_nil hc.1
  obtain ⟨-, a, B, hm⟩ := hloc t List.mem_cons_self
  have hcon := (hc.2.2.1 t List.mem_cons_self).2
  have hch := chain (E := pairs.keys) (fun u hu => hloc u ((hcon u).2 hu)) hm
  refine ⟨a, B, ?_⟩
  rintro v w ⟨t1, ht1, hv⟩ ⟨t2, ht2, hw⟩
  exact ((hch t1 ((hcon t1).1 ht1)).2 v hv).symm.trans ((hch t2 ((hcon t2).1 ht2)).2 w hw)

theorem cost_zero {ts : List Triplet} {shape : Triplet → TripletShape} {Y : Nat → V3 ℝ}
    (h : ∀ t ∈ ts, shapeCost (shape t) (Y t.1) (Y t.2.1) (Y t.2.2) = 0) : positionCost ts shape Y = 0 := by
  unfold positionCost
  apply List.sum_eq_zero
  intro x hx
  obtain ⟨t, ht, rfl⟩ := List.mem_map.1 hx
  rw [h t ht, zero_div]

theorem sum_sq_pos {l : List Nat} {D : Nat → V3 ℝ} {v : Nat} (hv : v ∈ l) (hne : D v ≠ V3.zero) :
    0 < (l.map (fun v => (D v).dot (D v))).sum := by
  have hnn : ∀ x ∈ l.map (fun v => (D v).dot (D v)), 0 ≤ x := by
    intro x hx
    obtain ⟨w, -, rfl⟩ := List.mem_map.1 hx
    exact V3.self_nonneg _
  exact lt_of_lt_of_le (V3.self_pos hne) (List.single_le_sum hnn _ (List.mem_map_of_mem hv))

theorem sum_sq_smul (l : List Nat) (D : Nat → V3 ℝ) (a : ℝ) :
    (l.map (fun v => ((D v).smul a).dot ((D v).smul a))).sum = a * a * (l.map (fun v => (D v).dot (D v))).sum := by
  rw [← List.sum_map_mul_left]
  congr 1
  apply List.map_congr_left
  intro v _
  rw [dot_smul]

/-- The true positions can be scaled to unit norm. -/
theorem exists_unit {l : List Nat} {D : Nat → V3 ℝ} {w : Nat} (hw : w ∈ l) (hne : D w ≠ V3.zero) :
    ∃ k : ℝ, (l.map (fun v => ((D v).smul k).dot ((D v).smul k))).sum = 1 := by
  have hN := sum_sq_pos hw hne
  refine ⟨1 / Real.sqrt (l.map (fun v => (D v).dot (D v))).sum, ?_⟩
  rw [sum_sq_smul, div_mul_div_comm, one_mul, Real.mul_self_sqrt hN.le, one_div, inv_mul_cancel₀ hN.ne']

theorem sub_self_smul (x : V3 ℝ) (k : ℝ) : (x.sub x).smul k = V3.zero := by
  apply V3.ext <;> simp [V3.smul, V3.sub, V3.zero]

theorem of_moves {c Y : Nat → V3 ℝ} {a : ℝ} {f v : Nat} (h0 : Y f = V3.zero) (h : Moves c Y a V3.zero f v) :
    Y v = ((c v).sub (c f)).smul a := by
  have := h.2
  rw [h0] at this
  have hx := congrArg V3.x this
  have hy := congrArg V3.y this
  have hz := congrArg V3.z this
  simp only [V3.sub, V3.add, V3.smul, V3.cross, V3.zero] at hx hy hz
  apply V3.ext <;> simp only [V3.sub, V3.smul]
  · linear_combination hx
  · linear_combination hy
  · linear_combination hz

/-- The solution for exact input: the true positions up to a scale and a rotation rate. -/
theorem solution_exact {ts : List Triplet} (hc : LargestComponent pairs.keys ts) {shape : Triplet → TripletShape}
    (hexact : ∀ t ∈ ts, ExactShape (c t.1) (c t.2.1) (c t.2.2) (shape t))
    (hspread : ∀ t ∈ ts, Nondegenerate c t) {l : List Nat} (hk : ∀ v, v ∈ l ↔ ∃ t ∈ ts, Corner t v) {f : Nat} (hf : f ∈ l)
    {Y : Nat → V3 ℝ} (h0 : Y f = V3.zero) (h1 : (l.map (fun v => (Y v).dot (Y v))).sum = 1)
    (hmin : ∀ Z : Nat → V3 ℝ, Z f = V3.zero → (l.map (fun v => (Z v).dot (Z v))).sum = 1 →
      positionCost ts shape Y ≤ positionCost ts shape Z)
    (hcop : NotCoplanar c (fun v => ∃ t ∈ ts, Corner t v)) :
    ∃ a : ℝ, a ≠ 0 ∧ ∀ v ∈ l, Y v = ((c v).sub (c f)).smul a := by
  -- another view at a different place
  obtain ⟨w, hw, hwf⟩ : ∃ w ∈ l, c w ≠ c f := by
    obtain ⟨t, ht, hcf⟩ := (hk f).1 hf
    have hcor : ∀ v, Corner t v → v ∈ l := fun v hv => (hk v).2 ⟨t, ht, hv⟩
    have hd := distinct (hc.2.2.1 t ht).1
    by_cases e : f = t.1
    · have hne : f ≠ t.2.1 := by
        rw [e]
        exact hd.1
      exact ⟨t.2.1, hcor _ (Or.inr (Or.inl rfl)),
        (corners_differ (hspread t ht) hcf (Or.inr (Or.inl rfl)) hne).symm⟩
    · exact ⟨t.1, hcor _ (Or.inl rfl), (corners_differ (hspread t ht) hcf (Or.inl rfl) e).symm⟩
  obtain ⟨k, hk1⟩ := exists_unit (D := fun v => (c v).sub (c f)) hw (sub_ne_zero' hwf)
  have hle := hmin (fun v => ((c v).sub (c f)).smul k) (sub_self_smul _ _) hk1
  have hz : positionCost ts shape (fun v => ((c v).sub (c f)).smul k) = 0 :=
    cost_zero (Y := fun v => ((c v).sub (c f)).smul k) (fun t ht => (hexact t ht).cost (c f) k)
  rw [hz] at hle
  obtain ⟨a, B, hmov⟩ := moves_of_zero hc hexact hspread hle
  have hB : B = V3.zero := hcop B (fun v w hv hw => (hmov w v hw hv).1)
  subst hB
  have hY : ∀ v ∈ l, Y v = ((c v).sub (c f)).smul a :=
    fun v hv => of_moves h0 (hmov f v ((hk f).1 hf) ((hk v).1 hv))
  refine ⟨a, ?_, hY⟩
  rintro rfl
  have : (l.map (fun v => (Y v).dot (Y v))).sum = 0 := by
    apply List.sum_eq_zero
    intro x hx
    obtain ⟨v, hv, rfl⟩ := List.mem_map.1 hx
    rw [hY v hv]
    simp [V3.dot, V3.smul]
  linarith

theorem flip_exact (hscene : ExactScene G c X views pairs orientations) {positions : AMap Nat (V3 ℝ)} {f : V3 ℝ} {a : ℝ}
    (ha : a ≠ 0) (hpos : ∀ v p, positions.get v = some p → p = ((c v).sub f).smul a)
    (hedge : ∃ e ∈ pairs.keys, e.1 ∈ positions.keys ∧ e.2 ∈ positions.keys) :
    ∃ p, flip pairs orientations positions = .ok p ∧ p.keys = positions.keys ∧
      ∃ α : ℝ, 0 < α ∧ ∀ v q, p.get v = some q → q = ((c v).sub f).smul α := by
  obtain ⟨n, hn, h1, h2⟩ := votes_exact (orientations := orientations) hscene.rotations ha hpos pairs.entries (by
    intro e he
    have hg := AMap.get_of_mem_entries hscene.wf he
    obtain ⟨o, ho, -, hoG⟩ := hscene.oriented e.1 (AMap.mem_keys_iff.2 ⟨_, hg⟩)
    exact ⟨hscene.poses _ _ hg, o, ho, hoG⟩)
  unfold flip
  rw [hn]
  simp only
  rcases lt_or_gt_of_ne ha with hneg | hgt
  · have hlt : n < 0 := by
      apply (h2 hneg).2
      obtain ⟨e, he, he1, he2⟩ := hedge
      obtain ⟨info, hi⟩ := AMap.mem_keys_iff.1 he
      exact ⟨(e, info), AMap.mem_entries_of_get hi, he1, he2⟩
    refine ⟨_, by rw [if_pos hlt], AMap.keys_mapVals _ _, -a, by linarith, ?_⟩
    intro v q hq
    rw [AMap.get_mapVals] at hq
    cases hg : positions.get v with
    | none => rw [hg] at hq; cases hq
    | some p =>
      rw [hg] at hq
      simp only [Option.map_some, Option.some.injEq] at hq
      rw [← hq, hpos v p hg, V3.smul_smul]
      congr 1
      ring
  · have hge : ¬ n < 0 := by
      have := h1 hgt
      omega
    exact ⟨_, by rw [if_neg hge], rfl, a, hgt, hpos⟩

end
end LinearPosition
end Theia
