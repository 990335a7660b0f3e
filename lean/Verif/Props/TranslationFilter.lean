import Verif.Proof.TranslationFilter
import Verif.Props.RotationFilters

/-!
# C44: filter of view pairs by relative translations
-/

namespace Theia

open AngleAxis TwoView ViewGraph RotationFilters TranslationFilter Spec

/-- C44. The order made from one-dimensional projections gives every view with an edge its own number below the number
of such views, and numbers no other view. If some positions on the line agree with all projections (a projection of
zero means equal positions) then no edge contradicts the order. For every set of edges, every projection, every order
of iteration. -/
theorem C44_total_order {K : Type} [Field K] [LinearOrder K] [IsStrictOrderedRing K]
    (ord : Nat → List (Nat × Node K) → List (Nat × Node K)) (hord : ∀ i l, (ord i l).Perm l)
    (P : AMap (Nat × Nat) K) (hwf : P.WF) (hlt : ∀ p ∈ P.keys, p.1 < p.2) :
    ∃ order : AMap Nat Nat, orderTranslations ord P = .ok order ∧
      (∀ v, (∃ k, order.get v = some k) ↔ ∃ p ∈ P.keys, v = p.1 ∨ v = p.2) ∧
      (∀ u v k, order.get u = some k → order.get v = some k → u = v) ∧
      (∀ v k, order.get v = some k → ∃ views : List Nat, views.Nodup ∧ k < views.length ∧
        ∀ u ∈ views, ∃ p ∈ P.keys, u = p.1 ∨ u = p.2) ∧
      (∀ x : Nat → K, (∀ a b t, P.get (a, b) = some t →
          (0 < t → x a < x b) ∧ (t < 0 → x b < x a) ∧ (t = 0 → x a = x b)) →
        ∀ a b t i j, P.get (a, b) = some t → order.get a = some i → order.get b = some j →
          (0 < t → i < j) ∧ (t < 0 → j < i)) := by
  obtain ⟨order, o1, o2, o3, o4⟩ := orderTranslations_spec hord P hwf hlt
  have hg := good_build P.entries (fun e he => hlt e.1 (List.mem_map.2 ⟨e, he, rfl⟩)) hwf
  obtain ⟨order', p1, p2, p3, _, _⟩ := orderLoop_spec hord (D := Edges P.entries) (by
    rintro u v w ⟨e, _, _, rfl⟩
    exact abs_nonneg _) (build P.entries).size 0 (Ends P.entries) (build P.entries) .empty hg rfl
  have : order' = order := by
    have h := o1
    unfold orderTranslations at h
    rw [p1] at h
    exact Outcome.ok.inj h
  subst this
  refine ⟨order', o1, fun v => (o2 v).symm, o3, ?_, ?_⟩
  · intro v k hk
    refine ⟨(build P.entries).keys, hg.wf, ?_, ?_⟩
    · have hv : Ends P.entries v := by
        obtain ⟨p, hp, h⟩ := (o2 v).2 ⟨k, hk⟩
        obtain ⟨e, he, rfl⟩ := List.mem_map.1 hp
        exact ⟨e, he, h⟩
      obtain ⟨k', hk', _, h⟩ := p3 v hv
      rw [hk] at hk'
      obtain rfl := Option.some.inj hk'
      rw [← AMap.size_eq_length_keys]
      omega
    · intro u hu
      obtain ⟨e, he, h⟩ := (hg.keys u).1 hu
      exact ⟨e.1, List.mem_map.2 ⟨e, he, rfl⟩, h⟩
  · intro x hx a b t i j ht hi hj
    have hc := o4 x hx a b t i j ht hi hj
    have hab : a < b := hlt (a, b) (AMap.mem_keys_iff.2 ⟨t, ht⟩)
    have hne : i ≠ j := by
      rintro rfl
      have := o3 a b i hi hj
      omega
    unfold Contradicts at hc
    rw [not_or] at hc
    constructor
    · intro h
      have := hc.1
      by_contra hlt'
      exact this ⟨by omega, h⟩
    · intro h
      have := hc.2
      by_contra hlt'
      exact this ⟨by omega, h⟩

/-- The weight with which an order and an axis speak against a translation between two views: the length of the
projection if the order has the views the other way round. -/
noncomputable def Spec.contradiction (order : Nat → Nat) (axis translation : V3 ℝ) (a b : Nat) : ℝ :=
  if (0 < translation.dot axis ∧ order b < order a) ∨ (translation.dot axis < 0 ∧ order a < order b) then
    |translation.dot axis| else 0

/-- The relative translation of a pair in the global frame. -/
noncomputable def Spec.globalTranslation (eps : ℝ) (orientations : AMap Nat (V3 ℝ)) (a : Nat) (i : Info) : V3 ℝ :=
  rotate eps (((orientations.get a).getD V3.zero).smul (-1)) i.position

theorem contribution_eq (r : Nat → Nat) (t axis : V3 ℝ) (a b : Nat) :
    contribution r (t.dot axis) (a, b) = Spec.contradiction r axis t a b := by
  unfold contribution Spec.contradiction
  have : Contradicts (r a) (r b) (t.dot axis) ↔
      ((0 < t.dot axis ∧ r b < r a) ∨ (t.dot axis < 0 ∧ r a < r b)) := by
    unfold Contradicts
    constructor
    · rintro (⟨h1, h2⟩ | ⟨h1, h2⟩)
      · exact Or.inl ⟨h2, by omega⟩
      · exact Or.inr ⟨h2, by omega⟩
    · rintro (⟨h1, h2⟩ | ⟨h1, h2⟩)
      · exact Or.inl ⟨by omega, h1⟩
      · exact Or.inr ⟨by omega, h1⟩
  simp only [this]

/-- C44. Filtering by translation keeps exactly the edges whose contradictions, summed over one order of the views per
axis, are at most the tolerance times the number of axes; it keeps all views and all values. The orders number
different views differently, and do not contradict any edge if positions along the axis agree with all translations.
For every history, axes, order of iteration and interleaving of the threads' updates. -/
theorem C44_filter (eps : ℝ) (ord : Nat → Nat → List (Nat × Node ℝ) → List (Nat × Node ℝ))
    (hord : ∀ k i l, (ord k i l).Perm l) (schedule : List ((Nat × Nat) × ℝ) → List ((Nat × Nat) × ℝ))
    (hsched : ∀ l, (schedule l).Perm l) (axes : List (V3 ℝ)) (tolerance : ℝ) (orientations : AMap Nat (V3 ℝ))
    (ops : List (ViewGraph.Op Info))
    (hori : ∀ a b i, a < b → (ViewGraph.run ops).getEdge a b = some i → ∃ o, orientations.get a = some o) :
    ∃ (g' : ViewGraph Info) (orders : List ((Nat → Nat) × V3 ℝ)),
      filter eps ord schedule axes tolerance orientations (ViewGraph.run ops) = .ok g' ∧
      orders.map (·.2) = axes ∧
      (∀ a b i, a < b → (g'.getEdge a b = some i ↔ (ViewGraph.run ops).getEdge a b = some i ∧
        (orders.map (fun r => Spec.contradiction r.1 r.2 (Spec.globalTranslation eps orientations a i) a b)).sum ≤
          tolerance * axes.length)) ∧
      (∀ v, g'.hasView v = (ViewGraph.run ops).hasView v) ∧
      (∀ r ∈ orders, ∀ a b i, a < b → (ViewGraph.run ops).getEdge a b = some i → r.1 a ≠ r.1 b) ∧
      (∀ r ∈ orders, ∀ x : Nat → ℝ,
        (∀ a b i, a < b → (ViewGraph.run ops).getEdge a b = some i →
          (0 < (Spec.globalTranslation eps orientations a i).dot r.2 → x a < x b) ∧
          ((Spec.globalTranslation eps orientations a i).dot r.2 < 0 → x b < x a) ∧
          ((Spec.globalTranslation eps orientations a i).dot r.2 = 0 → x a = x b)) →
        ∀ a b i, a < b → (ViewGraph.run ops).getEdge a b = some i →
          Spec.contradiction r.1 r.2 (Spec.globalTranslation eps orientations a i) a b = 0) ∧
      ∃ ops', g' = ViewGraph.run ops' := by
  set g := ViewGraph.run ops with hg
  have hinv : Inv g := (rep_run ops).inv
  have hget : ∀ (g : ViewGraph Info) a b, a < b → g.getEdge a b = g.edges.get (a, b) := by
    intro g a b hab; unfold getEdge ordPair; rw [if_pos hab]
  have hkeys : g.allEdges.map (fun e => e.1) = g.edges.keys := rfl
  have hentry : ∀ e ∈ g.allEdges, e.1.1 < e.1.2 ∧ g.edges.get e.1 = some e.2 := by
    intro e he
    have h2 : g.edges.get e.1 = some e.2 := AMap.get_of_mem_entries hinv.wfE he
    exact ⟨hinv.lt e.1 (AMap.mem_keys_iff.2 ⟨_, h2⟩), h2⟩
  have hrot := (rotateTranslations_spec eps orientations g.allEdges).2 (by
    intro e he
    obtain ⟨h1, h2⟩ := hentry e he
    exact hori e.1.1 e.1.2 e.2 h1 (by rw [hget _ _ _ h1]; exact h2))
  set T : AMap (Nat × Nat) (V3 ℝ) := ⟨g.allEdges.map (fun e =>
        (e.1, AngleAxis.rotate eps (((orientations.get e.1.1).getD V3.zero).smul (-1)) e.2.position))⟩ with hT
  have hTkeys : T.keys = g.edges.keys := by
    rw [hT]
    unfold AMap.keys
    simp only [List.map_map]
    rfl
  have hTwf : T.WF := by
    show T.keys.Nodup
    rw [hTkeys]
    exact hinv.wfE
  have hTget : ∀ p t, T.get p = some t ↔ ∃ i, g.edges.get p = some i ∧ t = Spec.globalTranslation eps orientations p.1 i := by
    intro p t
    constructor
    · intro h
      have hm := AMap.mem_entries_of_get h
      obtain ⟨e, he, hpe⟩ := List.mem_map.1 hm
      cases hpe
      exact ⟨e.2, (hentry e he).2, rfl⟩
    · rintro ⟨i, hi, rfl⟩
      exact AMap.get_of_mem_entries hTwf (List.mem_map.2 ⟨(p, i), AMap.mem_entries_of_get hi, rfl⟩)
  obtain ⟨rs, us, u1, u2, u3, u4, u5⟩ := allUpdates_spec hord T hTwf (by
    rw [hTkeys]; exact hinv.lt) axes 0
  rw [hTkeys] at u1
  set bad : AMap (Nat × Nat) ℝ := ⟨g.allEdges.map (fun e => (e.1, 0))⟩ with hbad
  have hbadkeys : bad.keys = g.edges.keys := by
    rw [hbad]
    unfold AMap.keys
    simp only [List.map_map]
    rfl
  have hbadwf : bad.WF := by
    show bad.keys.Nodup
    rw [hbadkeys]
    exact hinv.wfE
  obtain ⟨k1, k2⟩ := accumulate_spec (schedule us) bad
  set L := ((accumulate (schedule us) bad).entries.filter (fun e => decide (e.2 > tolerance * axes.length))).map
    (fun e => e.1) with hL
  have hbadget : ∀ p i, g.edges.get p = some i → bad.get p = some 0 := by
    intro p i hi
    exact AMap.get_of_mem_entries hbadwf (List.mem_map.2 ⟨(p, i), AMap.mem_entries_of_get hi, rfl⟩)
  have hsum : ∀ a b i, g.edges.get (a, b) = some i → badOf (schedule us) (a, b) =
      (rs.map (fun r => Spec.contradiction r.1 r.2 (Spec.globalTranslation eps orientations a i) a b)).sum := by
    intro a b i hi
    rw [badOf_perm (hsched us), u4 (a, b) _ ((hTget _ _).2 ⟨i, hi, rfl⟩)]
    simp only [contribution_eq]
  have hwf2 : (accumulate (schedule us) bad).WF := by
    show (accumulate (schedule us) bad).keys.Nodup
    rw [k1, hbadkeys]
    exact hinv.wfE
  have hmemL : ∀ a b i, g.edges.get (a, b) = some i → ((a, b) ∈ L ↔
      tolerance * axes.length < (rs.map (fun r => Spec.contradiction r.1 r.2
        (Spec.globalTranslation eps orientations a i) a b)).sum) := by
    intro a b i hi
    have hval : (accumulate (schedule us) bad).get (a, b) = some (rs.map (fun r => Spec.contradiction r.1 r.2
        (Spec.globalTranslation eps orientations a i) a b)).sum := by
      rw [k2, hbadget _ i hi, hsum a b i hi]
      simp
    rw [hL, List.mem_map]
    constructor
    · rintro ⟨⟨p, w⟩, he, hp⟩
      rw [List.mem_filter] at he
      obtain ⟨he, hw⟩ := he
      have h1 := AMap.get_of_mem_entries hwf2 he
      simp only at hp
      subst hp
      rw [hval] at h1
      obtain rfl := Option.some.inj h1
      exact of_decide_eq_true hw
    · intro h
      exact ⟨_, List.mem_filter.2 ⟨AMap.mem_entries_of_get hval, decide_eq_true h⟩, rfl⟩
  have hLkeys : ∀ p ∈ L, p ∈ g.edges.keys := by
    intro p hp
    rw [hL, List.mem_map] at hp
    obtain ⟨e, he, rfl⟩ := hp
    have := (List.mem_filter.1 he).1
    have h2 : e.1 ∈ (accumulate (schedule us) bad).keys := List.mem_map.2 ⟨e, this, rfl⟩
    rw [k1, hbadkeys] at h2
    exact h2
  obtain ⟨r1, r2, r3⟩ := removeAll_spec L g hinv (fun p hp => hinv.lt p (hLkeys p hp))
  refine ⟨removeAll L g, rs, ?_, u2, ?_, ?_, ?_, ?_, ⟨_, removeAll_run _ ops⟩⟩
  · unfold filter
    simp only [hrot, hkeys]
    rw [← hT, u1]
  · intro a b i hab
    rw [hget _ _ _ hab, hget _ _ _ hab, r2]
    cases he : g.edges.get (a, b) with
    | none => simp
    | some j =>
      have hin := hmemL a b j he
      by_cases hc : (a, b) ∈ L
      · rw [if_pos hc]
        constructor
        · intro h; cases h
        · rintro ⟨h, h2⟩
          cases h
          exact absurd (hin.1 hc) (not_lt.2 h2)
      · rw [if_neg hc]
        constructor
        · intro h
          cases h
          exact ⟨rfl, not_lt.1 (fun h => hc (hin.2 h))⟩
        · exact fun h => h.1
  · intro v
    unfold hasView
    rw [Bool.eq_iff_iff, AMap.contains_iff, AMap.contains_iff]
    exact r3 v
  · intro r hr a b i hab hi heq
    rw [hget _ _ _ hab] at hi
    have hk : (a, b) ∈ T.keys := by rw [hTkeys]; exact AMap.mem_keys_iff.2 ⟨_, hi⟩
    have := u3 r hr _ hk _ hk a b (Or.inl rfl) (Or.inr rfl) heq
    omega
  · intro r hr x hx a b i hab hi
    rw [hget _ _ _ hab] at hi
    have := u5 r hr x (by
      intro c d t ht
      obtain ⟨j, hj, rfl⟩ := (hTget _ _).1 ht
      have hcd : c < d := hinv.lt (c, d) (AMap.mem_keys_iff.2 ⟨_, hj⟩)
      exact hx c d j hcd (by rw [hget _ _ _ hcd]; exact hj)) a b _ ((hTget _ _).2 ⟨i, hi, rfl⟩)
    rw [← contribution_eq]
    unfold contribution
    rw [if_neg this]

/-- C44. If there are positions of the views such that every relative translation is the direction from the first to
the second view, seen in the frame of the first view and scaled by a positive factor, then no edge is removed, whatever
the axes, as long as the tolerance is not negative. Orientations have angle zero or above the threshold of the
conversion. -/
theorem C44_consistent (eps : ℝ) (heps : 0 ≤ eps) (ord : Nat → Nat → List (Nat × Node ℝ) → List (Nat × Node ℝ))
    (hord : ∀ k i l, (ord k i l).Perm l) (schedule : List ((Nat × Nat) × ℝ) → List ((Nat × Nat) × ℝ))
    (hsched : ∀ l, (schedule l).Perm l) (axes : List (V3 ℝ)) (tolerance : ℝ) (htol : 0 ≤ tolerance)
    (orientations : AMap Nat (V3 ℝ)) (ops : List (ViewGraph.Op Info)) (p : Nat → V3 ℝ)
    (hcons : ∀ a b i, a < b → (ViewGraph.run ops).getEdge a b = some i → ∃ o scale, orientations.get a = some o ∧
      (o = V3.zero ∨ eps < o.dot o) ∧ 0 < scale ∧ i.position = (rotate eps o ((p b).sub (p a))).smul scale) :
    ∃ g', filter eps ord schedule axes tolerance orientations (ViewGraph.run ops) = .ok g' ∧
      (∀ a b, g'.getEdge a b = (ViewGraph.run ops).getEdge a b) ∧
      (∀ v, g'.hasView v = (ViewGraph.run ops).hasView v) := by
  obtain ⟨g', orders, h1, h2, h3, h4, h5, h6, ops', h7⟩ := C44_filter eps ord hord schedule hsched axes tolerance
    orientations ops (fun a b i hab hi => by
      obtain ⟨o, _, ho, _⟩ := hcons a b i hab hi
      exact ⟨o, ho⟩)
  have hglobal : ∀ a b i, a < b → (ViewGraph.run ops).getEdge a b = some i → ∃ scale, 0 < scale ∧
      Spec.globalTranslation eps orientations a i = ((p b).sub (p a)).smul scale := by
    intro a b i hab hi
    obtain ⟨o, s, ho, hz, hs, hp⟩ := hcons a b i hab hi
    refine ⟨s, hs, ?_⟩
    unfold Spec.globalTranslation
    rw [ho, Option.getD_some, hp, rotate_smul]
    have hneg : o.smul (-1) = o.neg := by
      apply V3.ext <;> simp only [V3.smul, V3.neg] <;> ring
    rw [hneg]
    congr 1
    rcases hz with rfl | hz
    · have e1 : ∀ q : V3 ℝ, rotate eps V3.zero q = q := by
        intro q
        unfold rotate
        rw [if_neg (by simp only [V3.dot, V3.zero]; simpa using heps)]
        apply V3.ext <;> simp only [V3.add, V3.cross, V3.zero] <;> ring
      have e2 : (V3.zero : V3 ℝ).neg = V3.zero := by
        apply V3.ext <;> simp [V3.neg, V3.zero]
      rw [e2, e1, e1]
    · exact rotate_neg heps hz _
  have hle : ∀ a b i, a < b → (ViewGraph.run ops).getEdge a b = some i → g'.getEdge a b = some i := by
    intro a b i hab hi
    rw [h3 a b i hab]
    refine ⟨hi, ?_⟩
    have hzero : ∀ w ∈ orders.map (fun r => Spec.contradiction r.1 r.2
        (Spec.globalTranslation eps orientations a i) a b), w = 0 := by
      intro w hw
      obtain ⟨r, hr, rfl⟩ := List.mem_map.1 hw
      refine h6 r hr (fun v => (p v).dot r.2) ?_ a b i hab hi
      intro c d j hcd hj
      obtain ⟨s, hs, hgl⟩ := hglobal c d j hcd hj
      have e : (Spec.globalTranslation eps orientations c j).dot r.2 = s * ((p d).dot r.2 - (p c).dot r.2) := by
        rw [hgl]
        simp only [V3.dot, V3.smul, V3.sub]
        ring
      rw [e]
      refine ⟨?_, ?_, ?_⟩
      · intro h
        have := (mul_pos_iff_of_pos_left hs).1 h
        linarith
      · intro h
        by_contra hn
        have : 0 ≤ s * ((p d).dot r.2 - (p c).dot r.2) := mul_nonneg hs.le (by linarith [not_lt.1 hn])
        linarith
      · intro h
        rcases mul_eq_zero.1 h with h | h
        · exact absurd h (ne_of_gt hs)
        · linarith
    rw [List.sum_eq_zero hzero]
    positivity
  have hord' : ∀ a b, a < b → g'.getEdge a b = (ViewGraph.run ops).getEdge a b := by
    intro a b hab
    cases he : (ViewGraph.run ops).getEdge a b with
    | some i => exact hle a b i hab he
    | none =>
      cases hg : g'.getEdge a b with
      | none => rfl
      | some i =>
        have := ((h3 a b i hab).1 hg).1
        rw [he] at this
        cases this
  refine ⟨g', h1, ?_, h4⟩
  intro a b
  have hinv1 : Inv (ViewGraph.run ops) := (rep_run ops).inv
  have hinv2 : Inv g' := by rw [h7]; exact (rep_run ops').inv
  rcases Nat.lt_trichotomy a b with h | h | h
  · exact hord' a b h
  · subst h
    have hnone : ∀ g : ViewGraph Info, Inv g → g.getEdge a a = none := by
      intro g hg
      unfold getEdge
      rw [AMap.get_eq_none_iff]
      intro hk
      have := hg.lt _ hk
      unfold ordPair at this
      simp at this
    rw [hnone _ hinv1, hnone _ hinv2]
  · have hsym : ∀ g : ViewGraph Info, g.getEdge a b = g.getEdge b a := by
      intro g
      unfold getEdge
      rw [ordPair_comm]
    rw [hsym, hsym]
    exact hord' b a h

/-- C44. An orientation missing for the first view of an edge stops the program. -/
theorem C44_missing_orientation (eps : ℝ) (ord : Nat → Nat → List (Nat × Node ℝ) → List (Nat × Node ℝ))
    (schedule : List ((Nat × Nat) × ℝ) → List ((Nat × Nat) × ℝ)) (axes : List (V3 ℝ)) (tolerance : ℝ)
    (orientations : AMap Nat (V3 ℝ)) (ops : List (ViewGraph.Op Info)) (a b : Nat) (i : Info) (hab : a < b)
    (hi : (ViewGraph.run ops).getEdge a b = some i) (hnone : orientations.get a = none) :
    filter eps ord schedule axes tolerance orientations (ViewGraph.run ops) = .abort := by
  have hmem : ((a, b), i) ∈ (ViewGraph.run ops).allEdges := ((C09_counts ops).2.2.2.2.2 a b i).2 ⟨hab, hi⟩
  unfold filter
  simp only [(rotateTranslations_spec eps orientations (ViewGraph.run ops).allEdges).1 ⟨_, hmem, hnone⟩]

/-- The order for a cyclic set of projections, with the map listed in reverse in each step. -/
def orderShow (P : List ((Nat × Nat) × ℚ)) : Outcome (List (Nat × Nat)) :=
  match orderTranslations (fun _ l => l.reverse) ⟨P⟩ with
  | .ok m => .ok m.entries
  | .abort => .abort
  | .ub => .ub

/-- Positions 0, 1, 1, 3 for views 4, 2, 3, 1 on the line: the order is 4, 3, 2, 1. -/
example : orderShow [((1, 2), -2), ((2, 3), 0), ((3, 4), -1), ((2, 4), -1), ((1, 3), -2)] =
    .ok [(4, 0), (3, 1), (2, 2), (1, 3)] := by decide +kernel

/-- A cycle has no source: the view with the best score is first. -/
example : orderShow [((1, 2), 5), ((2, 3), 1), ((1, 3), -1)] = .ok [(1, 0), (2, 1), (3, 2)] := by decide +kernel

/-- The hypotheses of `C44_consistent` hold for three views on a line, seen without rotation. -/
noncomputable def lineOps : List (ViewGraph.Op Info) :=
  [.addEdge 1 2 ⟨1, 1, ⟨1, 0, 0⟩, V3.zero, 5, 0, 0⟩, .addEdge 2 3 ⟨1, 1, ⟨1, 0, 0⟩, V3.zero, 5, 0, 0⟩,
   .addEdge 1 3 ⟨1, 1, ⟨1, 0, 0⟩, V3.zero, 5, 0, 0⟩]

example (axes : List (V3 ℝ)) : ∃ g', filter 0 (fun _ _ l => l) (fun l => l) axes 0
    ⟨[(1, V3.zero), (2, V3.zero)]⟩ (ViewGraph.run lineOps) = .ok g' ∧
    (∃ i, g'.getEdge 1 3 = some i) ∧ (∃ i, g'.getEdge 2 3 = some i) := by
  have e12 : (ViewGraph.run lineOps).getEdge 1 2 = some ⟨1, 1, ⟨1, 0, 0⟩, V3.zero, 5, 0, 0⟩ := rfl
  have e13 : (ViewGraph.run lineOps).getEdge 1 3 = some ⟨1, 1, ⟨1, 0, 0⟩, V3.zero, 5, 0, 0⟩ := rfl
  have e23 : (ViewGraph.run lineOps).getEdge 2 3 = some ⟨1, 1, ⟨1, 0, 0⟩, V3.zero, 5, 0, 0⟩ := rfl
  have hrot : ∀ q : V3 ℝ, rotate 0 V3.zero q = q := by
    intro q
    unfold rotate
    rw [if_neg (by simp [V3.dot, V3.zero])]
    apply V3.ext <;> simp only [V3.add, V3.cross, V3.zero] <;> ring
  obtain ⟨g', h1, h2, _⟩ := C44_consistent 0 le_rfl (fun _ _ l => l) (fun _ _ l => List.Perm.refl _) (fun l => l)
    (fun l => List.Perm.refl _) axes 0 le_rfl ⟨[(1, V3.zero), (2, V3.zero)]⟩ lineOps (fun v => ⟨v, 0, 0⟩) (by
      intro a b i hab hi
      have hmem : ((a, b), i) ∈ (ViewGraph.run lineOps).allEdges := ((C09_counts lineOps).2.2.2.2.2 a b i).2 ⟨hab, hi⟩
      have hall : (ViewGraph.run lineOps).allEdges = [((1, 2), ⟨1, 1, ⟨1, 0, 0⟩, V3.zero, 5, 0, 0⟩),
        ((2, 3), ⟨1, 1, ⟨1, 0, 0⟩, V3.zero, 5, 0, 0⟩), ((1, 3), ⟨1, 1, ⟨1, 0, 0⟩, V3.zero, 5, 0, 0⟩)] := rfl
      rw [hall] at hmem
      simp only [List.mem_cons, Prod.mk.injEq, List.not_mem_nil, or_false] at hmem
      rcases hmem with ⟨⟨rfl, rfl⟩, rfl⟩ | ⟨⟨rfl, rfl⟩, rfl⟩ | ⟨⟨rfl, rfl⟩, rfl⟩
      · exact ⟨V3.zero, 1, rfl, Or.inl rfl, by norm_num, by rw [hrot]; norm_num [V3.sub, V3.smul]⟩
      · exact ⟨V3.zero, 1, rfl, Or.inl rfl, by norm_num, by rw [hrot]; norm_num [V3.sub, V3.smul]⟩
      · exact ⟨V3.zero, 1 / 2, rfl, Or.inl rfl, by norm_num, by rw [hrot]; norm_num [V3.sub, V3.smul]⟩)
  exact ⟨g', h1, ⟨_, by rw [h2]; exact e13⟩, ⟨_, by rw [h2]; exact e23⟩⟩

example : filter 0 (fun _ _ l => l) (fun l => l) [] 0 ⟨[(1, V3.zero)]⟩ (ViewGraph.run lineOps) = .abort :=
  C44_missing_orientation 0 _ _ _ _ _ lineOps 2 3 _ (by norm_num) rfl rfl

end Theia
