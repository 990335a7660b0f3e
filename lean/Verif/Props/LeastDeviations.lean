import Verif.Proof.LeastDeviations

/-!
# Estimation of positions by least unsquared deviations: properties
-/

namespace Theia

open Spec AngleAxis LeastDeviations
open Matrix hiding comp
open RobustRotation (comp)

section
variable {order : List Nat → List Nat} {l1 : ConstrainedL1Solver.Options} {pairs : AMap (Nat × Nat) (V3 ℝ)}
  {O : AMap Nat (V3 ℝ)} {st : State} {views : List Nat}

theorem leastDeviations_filter (O : AMap Nat (V3 ℝ)) (pairs : AMap (Nat × Nat) (V3 ℝ)) :
    pairs.entries.filter (oriented O) = orientedPairs O pairs := by
  unfold orientedPairs
  apply List.filter_congr
  intro p _
  rw [Bool.eq_iff_iff, decide_eq_true_eq, oriented, Bool.and_eq_true, AMap.contains_iff, AMap.contains_iff]

/-- The estimator has seen no views or pairs other than those of the call. A new estimator has seen none. -/
structure SeenOnly (st : State) (ps : List ((Nat × Nat) × V3 ℝ)) : Prop where
  viewsWF : st.views.WF
  pairsWF : st.pairs.WF
  views : ∀ v ∈ st.views.keys, ∃ p ∈ ps, v = p.1.1 ∨ v = p.1.2
  pairs : ∀ ab ∈ st.pairs.keys, ∃ p ∈ ps, ab = p.1

theorem leastDeviations_setup (horder : ∀ l, (order l).Perm l) (hw : pairs.WF) (hst : SeenOnly st (orientedPairs O pairs))
    (hne : orientedPairs O pairs ≠ []) (hv : ViewsOf (orientedPairs O pairs) views) :
    ∃ L : List Nat, Columns (indexMapping order pairs O st) L (pairs.entries.filter (oriented O)) ∧ L.length ≠ 0 ∧
      ∀ v, v ∈ L ↔ v ∈ views := by
  have hf := leastDeviations_filter O pairs
  have hc := columns horder hw (O := O) hst.viewsWF hst.pairsWF (by rw [hf]; exact hst.views)
    (by
      intro ab hab
      obtain ⟨p, hp, h⟩ := hst.pairs ab hab
      rw [hf]
      exact List.mem_map.2 ⟨p, hp, h.symm⟩)
  have hm : ∀ v, v ∈ order (viewSet O pairs.entries []) ↔ v ∈ views := by
    intro v
    rw [hc.ends, hv.2, hf]
  refine ⟨_, hc, ?_, hm⟩
  obtain ⟨p, hp⟩ := List.exists_mem_of_ne_nil _ hne
  have := (hm p.1.1).2 ((hv.2 _).2 ⟨p, hp, Or.inl rfl⟩)
  exact fun h => by simp [List.length_eq_zero_iff.1 h] at this

theorem leastDeviations_connected {ps : List ((Nat × Nat) × V3 ℝ)} {L views : List Nat} (h : ∀ v, v ∈ L ↔ v ∈ views) :
    ConnectedBy ps L ↔ ConnectedBy ps views := by
  unfold ConnectedBy
  simp only [h]

/-- Let some pair have orientations for both of its views. If all pairs have, and connect the views, a call succeeds and gives
a position to exactly the views of the pairs. If a pair has a view without an orientation, or the pairs that remain do not
connect their views, the program is ended. -/
theorem C70_total (horder : ∀ l, (order l).Perm l) (hw : pairs.WF) (hst : SeenOnly st (orientedPairs O pairs))
    (hne : orientedPairs O pairs ≠ []) (hv : ViewsOf (orientedPairs O pairs) views) :
    ((∀ p ∈ pairs.entries, p.1.1 ∈ O.keys ∧ p.1.2 ∈ O.keys) ∧ ConnectedBy (orientedPairs O pairs) views →
      ∃ P st', estimate order l1 pairs O st = .ok (P, st') ∧ ∀ v, v ∈ P.keys ↔ v ∈ views) ∧
    (¬((∀ p ∈ pairs.entries, p.1.1 ∈ O.keys ∧ p.1.2 ∈ O.keys) ∧ ConnectedBy (orientedPairs O pairs) views) →
      estimate order l1 pairs O st = .abort) := by
  obtain ⟨L, hc, hL, hm⟩ := leastDeviations_setup horder hw hst hne hv
  obtain ⟨A, C, hsys, he⟩ := estimate_all hc hL
  have hiff : (∀ x, A *ᵥ x = 0 → C *ᵥ x = 0 → x = 0) ↔
      ((∀ p ∈ pairs.entries, p.1.1 ∈ O.keys ∧ p.1.2 ∈ O.keys) ∧ ConnectedBy (orientedPairs O pairs) views) := by
    rw [hsys.kernel, leastDeviations_connected hm, leastDeviations_filter]
    refine and_congr_left fun _ => ?_
    rw [show pairs.size = pairs.entries.length from rfl, Nat.add_left_cancel_iff, eq_comm]
    unfold orientedPairs
    rw [List.length_filter_eq_length_iff]
    simp
  constructor
  · intro h
    obtain ⟨s, hs⟩ := (C67_construct l1 A 0 C (fun _ => 1)).1 (hiff.2 h)
    rw [he, hs]
    refine ⟨_, _, rfl, fun v => ?_⟩
    rw [← hm, AMap.mem_keys_iff]
    simp only [positions_get _ hc.viewsWF, Option.map_eq_some_iff]
    constructor
    · rintro ⟨_, i, hi, -⟩
      by_contra h
      rw [hc.noView v h] at hi
      exact absurd hi (by simp)
    · intro h
      obtain ⟨k, hk, rfl⟩ := List.getElem_of_mem h
      exact ⟨_, _, hc.views k _ (List.getElem?_eq_getElem hk), rfl⟩
  · intro h
    rw [← hiff] at h
    push Not at h
    rw [he, (C67_construct l1 A 0 C (fun _ => 1)).2 h]

/-- After a call that succeeds the estimator has seen the views and pairs of the call, so the call can be repeated. -/
theorem C70_repeat (horder : ∀ l, (order l).Perm l) (hw : pairs.WF) (hst : SeenOnly st (orientedPairs O pairs))
    {P st'} (h : estimate order l1 pairs O st = .ok (P, st')) :
    SeenOnly st' (orientedPairs O pairs) := by
  have hf := leastDeviations_filter O pairs
  have hst' : st' = indexMapping order pairs O st := by
    unfold estimate at h
    simp only at h
    split at h
    · cases h
    split at h
    · cases h
    · cases h
    split at h
    · cases h
    · cases h
    have := Outcome.ok.inj h
    rw [Prod.mk.injEq] at this
    exact this.2.symm
  have hc := columns horder hw (O := O) hst.viewsWF hst.pairsWF (by rw [hf]; exact hst.views)
    (by
      intro ab hab
      obtain ⟨p, hp, h⟩ := hst.pairs ab hab
      rw [hf]
      exact List.mem_map.2 ⟨p, hp, h.symm⟩)
  rw [hf] at hc
  rw [hst']
  have hpw : (indexMapping order pairs O st).pairs.WF ∧ ∀ ab ∈ (indexMapping order pairs O st).pairs.keys,
      ∃ p ∈ orientedPairs O pairs, ab = p.1 := by
    obtain ⟨s1, s2⟩ := viewSet_spec O pairs.entries [] List.nodup_nil
    have hcont : ∀ p ∈ pairs.entries, ((indexMapping order pairs O st).views.contains p.1.1 &&
        (indexMapping order pairs O st).views.contains p.1.2) = oriented O p := by
      intro p hp
      have hk : ∀ v, v ∈ (indexMapping order pairs O st).views.keys ↔ ∃ p ∈ orientedPairs O pairs, v = p.1.1 ∨ v = p.1.2 := by
        intro v
        rw [← hc.ends]
        constructor
        · intro hv
          by_contra h
          exact AMap.get_eq_none_iff.1 (hc.noView v h) hv
        · intro hv
          obtain ⟨k, hk, rfl⟩ := List.getElem_of_mem hv
          exact AMap.mem_keys_iff.2 ⟨_, hc.views k _ (List.getElem?_eq_getElem hk)⟩
      have hO : ∀ v, (∃ p ∈ orientedPairs O pairs, v = p.1.1 ∨ v = p.1.2) → v ∈ O.keys := by
        rintro v ⟨q, hq, hqv⟩
        have := (List.mem_filter.1 hq).2
        rw [decide_eq_true_eq] at this
        rcases hqv with rfl | rfl
        · exact this.1
        · exact this.2
      rw [Bool.eq_iff_iff, Bool.and_eq_true, AMap.contains_iff, AMap.contains_iff, hk, hk, oriented, Bool.and_eq_true,
        AMap.contains_iff, AMap.contains_iff]
      constructor
      · rintro ⟨h1, h2⟩
        exact ⟨hO _ h1, hO _ h2⟩
      · intro h
        have : p ∈ orientedPairs O pairs := List.mem_filter.2 ⟨hp, by rw [decide_eq_true_eq]; exact h⟩
        exact ⟨⟨p, this, Or.inl rfl⟩, ⟨p, this, Or.inr rfl⟩⟩
    obtain ⟨p1, p2, -, -⟩ := numberPairs_spec (O := O) pairs.entries
      (numberViews (order (viewSet O pairs.entries [])) (-3) st.views).2 st.pairs hcont hw hst.pairsWF
    refine ⟨p1, fun ab hab => ?_⟩
    rcases (p2 ab).1 hab with h | h
    · rw [hf] at h
      obtain ⟨p, hp, h⟩ := List.mem_map.1 h
      exact ⟨p, hp, h.symm⟩
    · exact hst.pairs ab h
  refine ⟨hc.viewsWF, hpw.1, fun v hv => ?_, hpw.2⟩
  rw [← hc.ends]
  by_contra h
  exact AMap.get_eq_none_iff.1 (hc.noView v h) hv

theorem leastDeviations_entry {n : Nat} {x y : Fin n → ℝ} {ε : ℝ} (hε : 0 < ε) (h : ∀ i, |x i - y i| < ε) (j : Nat) :
    |entry x j - entry y j| < ε := by
  unfold entry
  split
  · exact h _
  · simpa using hε

theorem leastDeviations_oriented (hall : ∀ p ∈ pairs.entries, p.1.1 ∈ O.keys ∧ p.1.2 ∈ O.keys) :
    orientedPairs O pairs = pairs.entries := by
  unfold orientedPairs
  rw [List.filter_eq_self]
  intro p hp
  rw [decide_eq_true_eq]
  exact hall p hp

/-- With the tolerances of the inner solver at zero, the positions converge, as its limit on the iterations grows, to
positions that have the least total deviation among all positions and all baselines of length at least one. One of the views
is at the origin. -/
theorem C70_converges (horder : ∀ l, (order l).Perm l) (hw : pairs.WF) (hst : SeenOnly st pairs.entries)
    (hne : pairs.entries ≠ []) (hv : ViewsOf pairs.entries views)
    (hall : ∀ p ∈ pairs.entries, p.1.1 ∈ O.keys ∧ p.1.2 ∈ O.keys) (hcon : ConnectedBy pairs.entries views)
    {R : Nat → V3 ℝ} (hR : ∀ v r, O.get v = some r → R v = r)
    (hρ : 0 < l1.rho) (h0 : 0 < l1.alpha) (h2 : l1.alpha < 2)
    (habs : l1.absoluteTolerance = 0) (hrel : l1.relativeTolerance = 0) :
    ∃ v0 ∈ views, ∃ P s, P v0 = V3.zero ∧ LeastDeviation pairs.entries R P s ∧
      ∀ ε > 0, ∃ N : ℤ, ∀ l ≥ N, ∃ o st', estimate order { l1 with maxNumIterations := l } pairs O st = .ok (o, st') ∧
        ∀ v ∈ views, ∃ p, o.get v = some p ∧ |p.x - (P v).x| < ε ∧ |p.y - (P v).y| < ε ∧ |p.z - (P v).z| < ε := by
  have hor := leastDeviations_oriented hall
  have hf := (leastDeviations_filter O pairs).trans hor
  obtain ⟨L, hc, hL, hm⟩ := leastDeviations_setup horder hw (by rw [hor]; exact hst) (by rw [hor]; exact hne)
    (by rw [hor]; exact hv)
  obtain ⟨A, C, hsys, he⟩ := estimate_all hc hL
  have hker : ∀ x, A *ᵥ x = 0 → C *ᵥ x = 0 → x = 0 := by
    rw [hsys.kernel, leastDeviations_connected hm, hf]
    exact ⟨rfl, hcon⟩
  obtain ⟨v0, hv0⟩ : ∃ v0, L[0]? = some v0 := ⟨L[0], List.getElem?_eq_getElem (by omega)⟩
  have hmemL : ∀ p ∈ pairs.entries, p.1.1 ∈ L ∧ p.1.2 ∈ L := fun p hp =>
    ⟨(hm _).2 ((hv.2 _).2 ⟨p, hp, Or.inl rfl⟩), (hm _).2 ((hv.2 _).2 ⟨p, hp, Or.inr rfl⟩)⟩
  have hfeas : ∀ (T : Nat → V3 ℝ) (r : Nat × Nat → ℝ), (∀ p ∈ pairs.entries, 1 ≤ r p.1) →
      ∀ j, (1 : ℝ) ≤ (C *ᵥ (vecOf L (pairs.entries.filter (oriented O)) T r)) j := by
    intro T r hr j
    have hmem : (pairs.entries.filter (oriented O))[j.val] ∈ pairs.entries.filter (oriented O) := List.getElem_mem _
    rw [hsys.scale _ j _ (List.getElem?_eq_getElem j.isLt), scaleOf_vecOf hc hL hsys.big T r hmem]
    exact hr _ (List.mem_of_mem_filter hmem)
  obtain ⟨x, hx, hlim⟩ := C67_converges (o := l1) (A := A) (b := 0) (C := C) (d := fun _ => 1) hρ h0 h2 habs hrel hker
    ⟨_, hfeas (fun _ => V3.zero) (fun _ => 1) (fun _ _ => le_refl _)⟩ 0
  have hRrot : ∀ p ∈ pairs.entries, rot O p.1.1 = R p.1.1 := by
    intro p hp
    obtain ⟨r, hr⟩ := AMap.mem_keys_iff.1 (hall p hp).1
    rw [rot, hr, hR _ _ hr]
    rfl
  refine ⟨v0, (hm v0).1 (List.mem_of_getElem? hv0), viewPos (indexMapping order pairs O st) x,
    scaleOf (indexMapping order pairs O st) x, viewPos_first hc x hv0, ⟨?_, ?_⟩, ?_⟩
  · intro p hp
    rw [← hf] at hp
    obtain ⟨k, hk, rfl⟩ := List.getElem_of_mem hp
    have := hx.1 ⟨k, hk⟩
    rw [hsys.scale _ _ _ (List.getElem?_eq_getElem hk)] at this
    exact this
  · intro Q r hr
    set T : Nat → V3 ℝ := fun v => (Q v).sub (Q v0) with hT
    have hT0 : T v0 = V3.zero := by simp [hT, V3.sub, V3.zero]
    have hmin := hx.2 (vecOf L (pairs.entries.filter (oriented O)) T r) (hfeas T r hr)
    rw [hsys.cost, hsys.cost, hf] at hmin
    rw [totalDeviation_congr (R' := R) (P' := viewPos (indexMapping order pairs O st) x)
      (s' := scaleOf (indexMapping order pairs O st) x) hRrot (fun _ _ => rfl) (fun _ _ => rfl)] at hmin
    refine hmin.trans (le_of_eq ?_)
    refine totalDeviation_congr hRrot (fun p hp => ?_) (fun p hp => ?_)
    · rw [← hf, viewPos_vecOf hc (by omega) hv0 hT0 r (hmemL p hp).1, viewPos_vecOf hc (by omega) hv0 hT0 r (hmemL p hp).2]
      simp [hT, V3.sub]
    · rw [← hf]
      refine scaleOf_vecOf hc hL hsys.big T r ?_
      rw [hf]
      exact hp
  · intro ε hε
    obtain ⟨N, hN⟩ := hlim ε hε
    refine ⟨N, fun l hl => ?_⟩
    obtain ⟨s, hs, hclose⟩ := hN l hl
    refine ⟨positions (s.solve 0) (indexMapping order pairs O st).views, indexMapping order pairs O st, ?_, fun v hvv => ?_⟩
    · rw [he, hs]
    · obtain ⟨k, hk, rfl⟩ := List.getElem_of_mem ((hm v).2 hvv)
      have hg := hc.views k _ (List.getElem?_eq_getElem hk)
      refine ⟨positionAt (s.solve 0) (-3 + 3 * k), ?_, ?_⟩
      · rw [positions_get _ hc.viewsWF, hg]
        rfl
      · unfold viewPos
        rw [hg]
        simp only [positionAt]
        split
        · simpa using hε
        · exact ⟨leastDeviations_entry hε hclose _, leastDeviations_entry hε hclose _,
            leastDeviations_entry hε hclose _⟩

theorem leastDeviations_scale {ps : List ((Nat × Nat) × V3 ℝ)} {lam : Nat × Nat → ℝ} (h : ∀ p ∈ ps, 0 < lam p.1) :
    ∃ c : ℝ, ∀ p ∈ ps, 1 ≤ c * lam p.1 := by
  suffices ∃ c : ℝ, 0 ≤ c ∧ ∀ p ∈ ps, 1 ≤ c * lam p.1 from ⟨this.choose, this.choose_spec.2⟩
  induction ps with
  | nil => exact ⟨0, le_refl _, by simp⟩
  | cons q ps ih =>
    obtain ⟨c, hc0, hc⟩ := ih fun p hp => h p (List.mem_cons_of_mem _ hp)
    have hq := h q (by simp)
    refine ⟨max c (1 / lam q.1), le_trans hc0 (le_max_left _ _), fun p hp => ?_⟩
    rcases List.mem_cons.1 hp with rfl | hp
    · calc (1 : ℝ) = 1 / lam p.1 * lam p.1 := by field_simp
        _ ≤ max c (1 / lam p.1) * lam p.1 := mul_le_mul_of_nonneg_right (le_max_right _ _) hq.le
    · exact (hc p hp).trans (mul_le_mul_of_nonneg_right (le_max_left _ _) (h p (List.mem_cons_of_mem _ hp)).le)

/-- If the directions are those of some positions, positions with the least deviation have exactly the same directions. -/
theorem leastDeviations_exact {ps : List ((Nat × Nat) × V3 ℝ)} {R G : Nat → V3 ℝ} {lam : Nat × Nat → ℝ}
    (hlam : ∀ p ∈ ps, 0 < lam p.1) (hG : ∀ p ∈ ps, (G p.1.2).sub (G p.1.1) = (pairDirection R p).smul (lam p.1))
    {P : Nat → V3 ℝ} {s : Nat × Nat → ℝ} (h : LeastDeviation ps R P s) :
    ∀ p ∈ ps, (P p.1.2).sub (P p.1.1) = (pairDirection R p).smul (s p.1) := by
  obtain ⟨c, hc⟩ := leastDeviations_scale hlam
  have h1 := h.2 (fun v => (G v).smul c) (fun ab => c * lam ab) hc
  have h0 : totalDeviation ps R (fun v => (G v).smul c) (fun ab => c * lam ab) = 0 := by
    unfold totalDeviation
    apply List.sum_eq_zero
    intro y hy
    obtain ⟨p, hp, rfl⟩ := List.mem_map.1 hy
    have hg := hG p hp
    have hx := congrArg V3.x hg
    have hy := congrArg V3.y hg
    have hz := congrArg V3.z hg
    simp only [V3.sub, V3.smul] at hx hy hz
    simp only [pairDeviation, V3.sub, V3.smul]
    rw [show c * (G p.1.2).x - c * (G p.1.1).x - c * lam p.1 * (pairDirection R p).x = 0 by linear_combination c * hx,
      show c * (G p.1.2).y - c * (G p.1.1).y - c * lam p.1 * (pairDirection R p).y = 0 by linear_combination c * hy,
      show c * (G p.1.2).z - c * (G p.1.1).z - c * lam p.1 * (pairDirection R p).z = 0 by linear_combination c * hz]
    simp
  rw [h0] at h1
  intro p hp
  unfold totalDeviation at h1
  have hle : (let d := pairDeviation R P s p; |d.x| + |d.y| + |d.z|) ≤ (ps.map fun p =>
      let d := pairDeviation R P s p
      |d.x| + |d.y| + |d.z|).sum := by
    refine List.single_le_sum ?_ _ (List.mem_map.2 ⟨p, hp, rfl⟩)
    intro y hy
    obtain ⟨q, -, rfl⟩ := List.mem_map.1 hy
    positivity
  have hz := hle.trans h1
  simp only at hz
  have a1 := abs_nonneg (pairDeviation R P s p).x
  have a2 := abs_nonneg (pairDeviation R P s p).y
  have a3 := abs_nonneg (pairDeviation R P s p).z
  have b1 : (pairDeviation R P s p).x = 0 := abs_eq_zero.1 (by linarith)
  have b2 : (pairDeviation R P s p).y = 0 := abs_eq_zero.1 (by linarith)
  have b3 : (pairDeviation R P s p).z = 0 := abs_eq_zero.1 (by linarith)
  unfold pairDeviation at b1 b2 b3
  exact V3.ext (sub_eq_zero.1 b1) (sub_eq_zero.1 b2) (sub_eq_zero.1 b3)

/-- If the relative translations are the exact directions between some positions, the limit has exactly these directions,
with baselines of length at least one. -/
theorem C70_consistent (horder : ∀ l, (order l).Perm l) (hw : pairs.WF) (hst : SeenOnly st pairs.entries)
    (hne : pairs.entries ≠ []) (hv : ViewsOf pairs.entries views)
    (hall : ∀ p ∈ pairs.entries, p.1.1 ∈ O.keys ∧ p.1.2 ∈ O.keys) (hcon : ConnectedBy pairs.entries views)
    {R : Nat → V3 ℝ} (hR : ∀ v r, O.get v = some r → R v = r)
    (hρ : 0 < l1.rho) (h0 : 0 < l1.alpha) (h2 : l1.alpha < 2)
    (habs : l1.absoluteTolerance = 0) (hrel : l1.relativeTolerance = 0)
    {G : Nat → V3 ℝ} {lam : Nat × Nat → ℝ} (hlam : ∀ p ∈ pairs.entries, 0 < lam p.1)
    (hG : ∀ p ∈ pairs.entries, (G p.1.2).sub (G p.1.1) = (pairDirection R p).smul (lam p.1)) :
    ∃ P : Nat → V3 ℝ, (∀ p ∈ pairs.entries, ∃ s ≥ 1, (P p.1.2).sub (P p.1.1) = (pairDirection R p).smul s) ∧
      ∀ ε > 0, ∃ N : ℤ, ∀ l ≥ N, ∃ o st', estimate order { l1 with maxNumIterations := l } pairs O st = .ok (o, st') ∧
        ∀ v ∈ views, ∃ p, o.get v = some p ∧ |p.x - (P v).x| < ε ∧ |p.y - (P v).y| < ε ∧ |p.z - (P v).z| < ε := by
  obtain ⟨v0, -, P, s, -, hleast, hlim⟩ := C70_converges (st := st) (l1 := l1) horder hw hst hne hv hall hcon hR hρ h0 h2 habs hrel
  exact ⟨P, fun p hp => ⟨s p.1, hleast.1 p hp, leastDeviations_exact hlam hG hleast p hp⟩, hlim⟩

/-- A new estimator has seen nothing. -/
theorem C70_new {opt : Options} {st : State} (h : create opt = .ok st) (ps : List ((Nat × Nat) × V3 ℝ)) : SeenOnly st ps := by
  unfold create at h
  split at h
  · cases h
  split at h
  · cases h
  rw [← Outcome.ok.inj h]
  exact ⟨List.nodup_nil, List.nodup_nil, by simp [AMap.empty, AMap.keys], by simp [AMap.empty, AMap.keys]⟩

/-- If no pair has orientations for both of its views, a new estimator computes the size of its matrices from a number of
views less one that is not there. -/
theorem C70_none {opt : Options} {st : State} (h : create opt = .ok st) (horder : ∀ l, (order l).Perm l)
    (hnone : orientedPairs O pairs = []) : estimate order l1 pairs O st = .ub := by
  have hst := C70_new h []
  have hv : viewSet O pairs.entries [] = [] := by
    rw [List.eq_nil_iff_forall_not_mem]
    intro v hv
    rw [(viewSet_spec O pairs.entries [] List.nodup_nil).2, leastDeviations_filter, hnone] at hv
    simp at hv
  have hk : st.views.keys = [] := by
    rw [List.eq_nil_iff_forall_not_mem]
    intro v hv
    obtain ⟨p, hp, -⟩ := hst.views v hv
    simp at hp
  unfold estimate
  simp only [indexMapping, hv, (horder []).eq_nil, numberViews]
  rw [if_pos]
  rw [AMap.size_eq_length_keys, hk]
  rfl

/-- An estimator that has seen a pair that is not among those of the call does not return. -/
theorem C70_reuse (horder : ∀ l, (order l).Perm l) (hw : pairs.WF) (hvw : st.views.WF) (hpw : st.pairs.WF)
    (hall : ∀ p ∈ pairs.entries, p.1.1 ∈ O.keys ∧ p.1.2 ∈ O.keys)
    (hold : ∃ ab ∈ st.pairs.keys, ab ∉ pairs.keys) : ∀ r, estimate order l1 pairs O st ≠ .ok r := by
  obtain ⟨ab, hab, hnot⟩ := hold
  have hor := leastDeviations_oriented hall
  have hf := (leastDeviations_filter O pairs).trans hor
  obtain ⟨s1, s2⟩ := viewSet_spec O pairs.entries [] List.nodup_nil
  obtain ⟨-, -, n3, -, -⟩ := numberViews_spec (order (viewSet O pairs.entries [])) (-3) st.views
    ((horder _).nodup_iff.2 s1) hvw
  have hin : ∀ v, (∃ p ∈ pairs.entries, v = p.1.1 ∨ v = p.1.2) →
      (numberViews (order (viewSet O pairs.entries [])) (-3) st.views).1.contains v = true := by
    intro v hv
    rw [AMap.contains_iff, n3, (horder _).mem_iff, s2, hf]
    exact Or.inl (Or.inr hv)
  have hcont : ∀ p ∈ pairs.entries, ((numberViews (order (viewSet O pairs.entries [])) (-3) st.views).1.contains p.1.1 &&
      (numberViews (order (viewSet O pairs.entries [])) (-3) st.views).1.contains p.1.2) = oriented O p := by
    intro p hp
    rw [hin _ ⟨p, hp, Or.inl rfl⟩, hin _ ⟨p, hp, Or.inr rfl⟩, oriented, AMap.contains_iff.2 (hall p hp).1,
      AMap.contains_iff.2 (hall p hp).2]
  obtain ⟨p1, p2, -, -⟩ := numberPairs_spec (O := O) pairs.entries
    (numberViews (order (viewSet O pairs.entries [])) (-3) st.views).2 st.pairs hcont hw hpw
  have hsize : pairs.size < (indexMapping order pairs O st).pairs.size := by
    have hnd : (ab :: pairs.keys).Nodup := List.nodup_cons.2 ⟨hnot, hw⟩
    have hsub : ab :: pairs.keys ⊆ (indexMapping order pairs O st).pairs.keys := by
      intro cd hcd
      refine (p2 cd).2 ?_
      rcases List.mem_cons.1 hcd with rfl | h
      · exact Or.inr hab
      · rw [hf]
        exact Or.inl h
    have := (List.subperm_of_subset hnd hsub).length_le
    rw [List.length_cons] at this
    rw [AMap.size_eq_length_keys, AMap.size_eq_length_keys]
    omega
  intro r h
  unfold estimate at h
  simp only at h
  split at h
  · cases h
  split at h
  · cases h
  · cases h
  split at h
  · cases h
  · cases h
  rename_i P hP
  unfold solve at hP
  split at hP
  · cases hP
  rw [if_pos (by omega)] at hP
  cases hP

/-- The options have no effect: all that the constructor accepts give the same result. -/
theorem C70_options_counterexample (o o' : Options) (h1 : 0 < o.maxNumIterations) (h2 : 0 < o.maxNumReweightedIterations)
    (h1' : 0 < o'.maxNumIterations) (h2' : 0 < o'.maxNumReweightedIterations) :
    run o order l1 pairs O = run o' order l1 pairs O := by
  unfold run create
  rw [if_neg (by omega), if_neg (by omega), if_neg (by omega), if_neg (by omega)]

end

/-- Two views with an orientation each. -/
noncomputable def leastOrientations : AMap Nat (V3 ℝ) := (AMap.empty.insert 0 V3.zero).insert 1 V3.zero

/-- A pair with a direction. -/
noncomputable def leastPair : AMap (Nat × Nat) (V3 ℝ) := AMap.empty.insert (0, 1) ⟨1, 0, 0⟩

theorem leastPair_ne : leastPair.entries ≠ [] := by
  have : leastPair.entries = [((0, 1), ⟨1, 0, 0⟩)] := rfl
  rw [this]
  exact List.cons_ne_nil _ _

theorem leastPair_connected : ConnectedBy leastPair.entries [0, 1] := by
  have h : Relation.EqvGen (fun a b => ∃ q, ((a, b), q) ∈ leastPair.entries) 0 1 :=
    .rel _ _ ⟨⟨1, 0, 0⟩, List.mem_singleton.2 rfl⟩
  intro v hv w hw
  simp only [List.mem_cons, List.not_mem_nil, or_false] at hv hw
  rcases hv with rfl | rfl <;> rcases hw with rfl | rfl
  · exact .refl _
  · exact h
  · exact .symm _ _ h
  · exact .refl _

theorem leastPair_views : ViewsOf leastPair.entries [0, 1] := by
  refine ⟨by decide, fun v => ?_⟩
  have : leastPair.entries = [((0, 1), ⟨1, 0, 0⟩)] := rfl
  rw [this]
  simp

theorem leastPair_oriented : ∀ p ∈ leastPair.entries, p.1.1 ∈ leastOrientations.keys ∧ p.1.2 ∈ leastOrientations.keys := by
  intro p hp
  have : leastPair.entries = [((0, 1), ⟨1, 0, 0⟩)] := rfl
  rw [this, List.mem_singleton] at hp
  rw [hp]
  decide

/-- A pair with a view that has no orientation ends the program, although the other pairs alone are accepted. -/
theorem C70_unoriented_counterexample :
    (∃ P st, run { } id { } leastPair leastOrientations = .ok (P, st) ∧ ∀ v, v ∈ P.keys ↔ v ∈ [0, 1]) ∧
    run { } id { } (leastPair.insert (1, 2) ⟨1, 0, 0⟩) leastOrientations = .abort := by
  obtain ⟨st, hst⟩ : ∃ st, create { } = .ok st := ⟨_, rfl⟩
  have hrun : ∀ pairs, run { } id { } pairs leastOrientations = estimate id { } pairs leastOrientations st := by
    intro pairs
    unfold run
    rw [hst]
  have hor := leastDeviations_oriented leastPair_oriented
  have hor2 : orientedPairs leastOrientations (leastPair.insert (1, 2) ⟨1, 0, 0⟩) = leastPair.entries := rfl
  rw [hrun, hrun]
  constructor
  · refine (C70_total (l1 := { }) (views := [0, 1]) (fun _ => .refl _) (by decide) (C70_new hst _) ?_ ?_).1 ⟨leastPair_oriented, ?_⟩
    · rw [hor]
      exact leastPair_ne
    · rw [hor]
      exact leastPair_views
    · rw [hor]
      exact leastPair_connected
  · refine (C70_total (l1 := { }) (views := [0, 1]) (fun _ => .refl _) (by decide) (C70_new hst _) ?_ ?_).2 fun h => ?_
    · rw [hor2]
      exact leastPair_ne
    · rw [hor2]
      exact leastPair_views
    · have := (h.1 ((1, 2), ⟨1, 0, 0⟩) (by
        have : (leastPair.insert (1, 2) ⟨1, 0, 0⟩).entries = [((0, 1), ⟨1, 0, 0⟩), ((1, 2), ⟨1, 0, 0⟩)] := rfl
        rw [this]
        simp)).2
      exact absurd this (by decide)

/-- The pair meets the hypotheses of the theorems, with exact positions. -/
example : ∃ (st : State) (R G : Nat → V3 ℝ) (lam : Nat × Nat → ℝ) (l1 : ConstrainedL1Solver.Options),
    leastPair.WF ∧ SeenOnly st leastPair.entries ∧ leastPair.entries ≠ [] ∧ ViewsOf leastPair.entries [0, 1] ∧
    (∀ p ∈ leastPair.entries, p.1.1 ∈ leastOrientations.keys ∧ p.1.2 ∈ leastOrientations.keys) ∧
    ConnectedBy leastPair.entries [0, 1] ∧ (∀ v r, leastOrientations.get v = some r → R v = r) ∧
    0 < l1.rho ∧ 0 < l1.alpha ∧ l1.alpha < 2 ∧ l1.absoluteTolerance = 0 ∧ l1.relativeTolerance = 0 ∧
    (∀ p ∈ leastPair.entries, 0 < lam p.1) ∧
    ∀ p ∈ leastPair.entries, (G p.1.2).sub (G p.1.1) = (pairDirection R p).smul (lam p.1) := by
  obtain ⟨st, hst⟩ : ∃ st, create { } = .ok st := ⟨_, rfl⟩
  refine ⟨st, fun _ => V3.zero, fun v => ⟨2 * v, 0, 0⟩, fun _ => 2, ⟨1000, 10, 1.2, 0, 0⟩, by decide, C70_new hst _,
    leastPair_ne, leastPair_views, leastPair_oriented, leastPair_connected, ?_,
    by norm_num, by norm_num, by norm_num, rfl, rfl, fun _ _ => by norm_num, ?_⟩
  · intro v r h
    simp only [leastOrientations, AMap.get_insert] at h
    split at h
    · exact Option.some.inj h
    · split at h
      · exact Option.some.inj h
      · simp [AMap.empty, AMap.get] at h
  · intro p hp
    have : leastPair.entries = [((0, 1), ⟨1, 0, 0⟩)] := rfl
    rw [this, List.mem_singleton] at hp
    rw [hp]
    simp [pairDirection, toM_zero, M3.one, M3.transpose, M3.mulVec, V3.sub, V3.smul, V3.dot]

/-- Reuse: an estimator that was used for another pair has seen it. -/
example : ∃ st : State, st.views.WF ∧ st.pairs.WF ∧ ∃ ab ∈ st.pairs.keys, ab ∉ leastPair.keys :=
  ⟨indexMapping id (AMap.empty.insert (1, 0) V3.zero) leastOrientations ⟨AMap.empty, AMap.empty⟩, by decide, by decide,
    (1, 0), by decide, by decide⟩

end Theia
