import Verif.Proof.TreeOrientations
import Verif.Props.MinimumSpanningTree
import Verif.Props.ViewGraph

/-!
# C41: orientations from a maximum spanning tree
-/

namespace Theia

open AngleAxis TwoView ViewGraph TreeOrientations Spec

/-- `C` is a largest connected component of the graph with edges `E`. -/
structure Spec.IsLargestComponent (E : List (Nat × Nat)) (C : List Nat) : Prop where
  nonempty : C ≠ []
  nodup : C.Nodup
  closed : ∀ x ∈ C, IsNode E x ∧ ∀ y, y ∈ C ↔ Connected E x y
  largest : ∀ D : List Nat, D.Nodup → (∀ x ∈ D, IsNode E x) → (∀ x ∈ D, ∀ y ∈ D, Connected E x y) →
    D.length ≤ C.length

/-- The edges of a graph with both ends in `C`, weighted by their numbers of verified matches. -/
def Spec.componentEdges (g : ViewGraph Info) (C : List Nat) : List (Int × (Nat × Nat)) :=
  (g.allEdges.filter (fun e => decide (e.1.1 ∈ C ∧ e.1.2 ∈ C))).map (fun e => (e.2.verified, e.1))

/-- `T` is a maximum spanning tree of the weighted graph `es`. -/
def Spec.IsMaximumSpanningTree (es T : List (Int × (Nat × Nat))) : Prop :=
  IsSpanningTree es T ∧ ∀ t, IsSpanningTree es t → (t.map (·.1)).sum ≤ (T.map (·.1)).sum

/-- The orientations of the ends of the edge `a`, `b` differ exactly by its relative rotation. -/
def Spec.EdgeSatisfied (g : ViewGraph Info) (o : AMap Nat (V3 ℝ)) (a b : Nat) : Prop :=
  ∃ i x y, g.getEdge a b = some i ∧ o.get a = some x ∧ o.get b = some y ∧ toM y = (toM i.rotation).mul (toM x)

/-- Negated weights. -/
def negW (es : List (Int × (Nat × Nat))) : List (Int × (Nat × Nat)) := es.map (fun e => (-e.1, e.2))

theorem negW_negW (es : List (Int × (Nat × Nat))) : negW (negW es) = es := by
  unfold negW
  rw [List.map_map]
  conv_rhs => rw [← List.map_id es]
  apply List.map_congr_left
  intro e _
  simp

theorem pairs_negW (es : List (Int × (Nat × Nat))) : pairs (negW es) = pairs es := by
  unfold pairs negW
  rw [List.map_map]
  rfl

theorem sum_negW (es : List (Int × (Nat × Nat))) : ((negW es).map (·.1)).sum = -(es.map (·.1)).sum := by
  induction es with
  | nil => rfl
  | cons e es ih =>
    simp only [negW, List.map_cons, List.sum_cons] at ih ⊢
    rw [ih]
    omega

theorem mem_negW {es : List (Int × (Nat × Nat))} {e : Int × (Nat × Nat)} : e ∈ negW es ↔ (-e.1, e.2) ∈ es := by
  unfold negW
  rw [List.mem_map]
  constructor
  · rintro ⟨x, hx, rfl⟩
    simpa using hx
  · intro h
    exact ⟨_, h, by simp⟩

theorem isNode_congr {T : Type} {E E' : List (T × T)} (h : ∀ p, p ∈ E ↔ p ∈ E') (a : T) : IsNode E a ↔ IsNode E' a := by
  unfold IsNode
  simp only [h]

theorem isSpanningTree_negW {es es' t : List (Int × (Nat × Nat))} (h : ∀ e, e ∈ es' ↔ e ∈ negW es) :
    IsSpanningTree es' t ↔ IsSpanningTree es (negW t) := by
  have hp : ∀ p, p ∈ pairs es' ↔ p ∈ pairs es := by
    intro p
    rw [← pairs_negW es]
    unfold pairs
    simp only [List.mem_map, h]
  have hn := isNode_congr hp
  constructor
  · rintro ⟨a, b, nodes, c1, c2, c3⟩
    refine ⟨?_, ?_, nodes, c1, fun x => (c2 x).trans (hn x), ?_⟩
    · intro e he
      have := (h _).1 (a _ (mem_negW.1 he))
      simpa using mem_negW.1 this
    · intro x y hx hy
      rw [pairs_negW]
      exact b x y ((hn x).2 hx) ((hn y).2 hy)
    · unfold negW
      rw [List.length_map]
      exact c3
  · rintro ⟨a, b, nodes, c1, c2, c3⟩
    refine ⟨?_, ?_, nodes, c1, fun x => (c2 x).trans (hn x).symm, ?_⟩
    · intro e he
      rw [h, mem_negW]
      exact a _ (mem_negW.2 (by simpa using he))
    · intro x y hx hy
      rw [← pairs_negW t]
      exact b x y ((hn x).1 hx) ((hn y).1 hy)
    · unfold negW at c3
      rw [List.length_map] at c3
      exact c3

theorem MST.loop_nodup {T W : Type} [LinearOrder T] [LinearOrder W] (n : Nat) : ∀ (es : List (MST.Edge T W)) (cc : CC T)
    (out res : List (T × T)), out.Nodup → MST.loop n es cc out = .ok res → res.Nodup := by
  intro es
  induction es with
  | nil =>
    intro cc out res h e
    simp only [MST.loop, Outcome.ok.injEq] at e
    exact e ▸ h
  | cons x es ih =>
    intro cc out res h e
    unfold MST.loop at e
    split at e
    · split at e
      · cases e
      · cases e
      · rename_i same cc' _
        split at e
        · exact ih _ _ _ h e
        · split at e
          · cases e
          · cases e
          · refine ih _ _ _ ?_ e
            split
            · exact h
            · rename_i hn
              exact List.nodup_append.2 ⟨h, by simp, by
                intro a ha b hb hab
                rw [List.mem_singleton] at hb
                subst hb
                exact hn (hab ▸ ha)⟩
    · simp only [Outcome.ok.injEq] at e
      exact e ▸ h

theorem MST.extract_nodup {T W : Type} [LinearOrder T] [LinearOrder W] {limit : Nat} {es : List (MST.Edge T W)}
    {ok : Bool} {res : List (T × T)} (e : MST.extract limit es [] = .ok (ok, res)) : res.Nodup := by
  unfold MST.extract at e
  split at e
  · simp only [Outcome.ok.injEq, Prod.mk.injEq] at e
    rw [← e.2]
    exact List.nodup_nil
  · simp only at e
    split at e
    · cases e
    · cases e
    · rename_i r hr
      simp only [Outcome.ok.injEq, Prod.mk.injEq] at e
      rw [← e.2]
      exact MST.loop_nodup _ _ _ _ _ List.nodup_nil hr

/-- The facts behind C41. -/
theorem TreeOrientations.run_spec (ofM : M3 ℝ → V3 ℝ) (hlog : IsLog ofM)
    (order : List (Nat × Nat) → List (Nat × Nat)) (horder : ∀ l, (order l).Perm l) (pick : List HeapElement → Nat)
    (hpick : ∀ l, l ≠ [] → pick l < l.length) (ops : List (ViewGraph.Op Info))
    (hids : ∀ v ∈ (ViewGraph.run ops).viewIds, v < maxViewId) (hne : (ViewGraph.run ops).allEdges ≠ [])
    (o0 : AMap Nat (V3 ℝ)) (h0 : ∀ v ∈ (ViewGraph.run ops).viewIds, o0.get v = none) :
    ∃ C T root N, Spec.IsLargestComponent ((ViewGraph.run ops).allEdges.map (·.1)) C ∧
      Spec.IsMaximumSpanningTree (Spec.componentEdges (ViewGraph.run ops) C) T ∧ root ∈ C ∧
      (∀ v ∈ C, Connected (pairs T) root v) ∧
      ∀ fuel ≥ N, ∃ o, orientations ofM order pick fuel (ViewGraph.run ops) o0 = .ok (true, o) ∧
        o.get root = some V3.zero ∧
        (∀ v ∈ C, ∃ x, o.get v = some x) ∧ (∀ v, v ∉ C → o.get v = o0.get v) ∧
        (∀ e ∈ T, e.2.1 < e.2.2 ∧ Spec.EdgeSatisfied (ViewGraph.run ops) o e.2.1 e.2.2) := by
  set g := ViewGraph.run ops with hgdef
  have hinv : Inv g := (rep_run ops).inv
  obtain ⟨C, hC, c1, c2, c3, c4⟩ := C10_largest_component ops hids hne
  rw [← hgdef] at hC c3 c4
  obtain ⟨sub, hsub, hsinv, hse, hsv⟩ := extractSubgraph_spec hinv C
  have hedgeC : ∀ x ∈ C, x ∈ g.vertices.keys := by
    intro x hx
    obtain ⟨e, he, h⟩ := (c3 x hx).1
    have hk : ordPair e.1 e.2 ∈ g.edges.keys := by
      rw [ordPair_of_lt (hinv.lt e he)]; exact he
    rcases h with rfl | rfl
    · exact hinv.dom _ _ hk
    · exact hinv.dom' hk
  have hsget : ∀ p : Nat × Nat, p.1 < p.2 → sub.edges.get p = if p.1 ∈ C ∧ p.2 ∈ C then g.edges.get p else none := by
    intro p hp
    have := hse p.1 p.2
    unfold getEdge at this
    rw [ordPair_of_lt hp] at this
    exact this
  have hskey : ∀ p, p ∈ sub.edges.keys ↔ p ∈ g.edges.keys ∧ p.1 ∈ C ∧ p.2 ∈ C := by
    intro p
    constructor
    · intro h
      have hlt := hsinv.lt p h
      obtain ⟨i, hi⟩ := AMap.mem_keys_iff.1 h
      rw [hsget p hlt] at hi
      split at hi
      · exact ⟨AMap.mem_keys_iff.2 ⟨i, hi⟩, by assumption⟩
      · cases hi
    · rintro ⟨h, hc⟩
      obtain ⟨i, hi⟩ := AMap.mem_keys_iff.1 h
      refine AMap.mem_keys_iff.2 ⟨i, ?_⟩
      rw [hsget p (hinv.lt p h), if_pos hc]
      exact hi
  have hpairs : pairs (weighted sub.allEdges) = sub.edges.keys := by
    unfold pairs weighted
    rw [List.map_map]
    rfl
  have hW : ∀ e, e ∈ weighted sub.allEdges ↔ e ∈ negW (Spec.componentEdges g C) := by
    intro e
    rw [mem_negW]
    unfold weighted Spec.componentEdges
    simp only [List.mem_map, List.mem_filter, decide_eq_true_eq]
    constructor
    · rintro ⟨⟨p, i⟩, hpi, rfl⟩
      have hget := AMap.get_of_mem_entries hsinv.wfE hpi
      have hk := AMap.mem_keys_iff.2 ⟨i, hget⟩
      obtain ⟨_, k2⟩ := (hskey p).1 hk
      rw [hsget p (hsinv.lt p hk), if_pos k2] at hget
      exact ⟨(p, i), ⟨AMap.mem_entries_of_get hget, k2⟩, by simp⟩
    · rintro ⟨⟨p, i⟩, ⟨hpi, hc⟩, he⟩
      have hget := AMap.get_of_mem_entries hinv.wfE hpi
      have hk := AMap.mem_keys_iff.2 ⟨i, hget⟩
      refine ⟨(p, i), AMap.mem_entries_of_get ?_, ?_⟩
      · rw [hsget p (hinv.lt p hk), if_pos hc]
        exact hget
      · simp only [Prod.mk.injEq] at he
        obtain ⟨e1, e2⟩ := he
        apply Prod.ext
        · simp only; omega
        · exact e2
  have hlimit : C.length ≤ maxViewId := by
    have : C.length ≤ (List.range maxViewId).length :=
      c2.length_le_of_subset (fun v hv => List.mem_range.2 (hids v (hedgeC v hv)))
    rwa [List.length_range] at this
  have hnodeC : ∀ a, IsNode (pairs (weighted sub.allEdges)) a ↔ a ∈ C := by
    intro a
    rw [hpairs]
    constructor
    · rintro ⟨p, hp, h⟩
      obtain ⟨_, k1, k2⟩ := (hskey p).1 hp
      rcases h with rfl | rfl
      · exact k1
      · exact k2
    · intro ha
      obtain ⟨⟨p, hp, h⟩, hcl⟩ := c3 a ha
      refine ⟨p, (hskey p).2 ⟨hp, ?_⟩, h⟩
      rcases h with rfl | rfl
      · exact ⟨ha, (hcl _).2 (Connected.single (Or.inl hp))⟩
      · exact ⟨(hcl _).2 (Connected.single (Or.inr hp)), ha⟩
  obtain ⟨ok, tree, hext, t1, t2, t3, t4⟩ := C14_minimum_spanning_tree maxViewId (by unfold maxViewId; omega)
    (weighted sub.allEdges) (by
      intro e he
      have : e.2 ∈ pairs (weighted sub.allEdges) := List.mem_map.2 ⟨e, he, rfl⟩
      rw [hpairs] at this
      have := hsinv.lt _ this
      omega) C (fun a h => (hnodeC a).1 h) hlimit
  have hconnSub : ∀ a ∈ C, ∀ b, Connected g.edges.keys a b → b ∈ C ∧ Connected (pairs (weighted sub.allEdges)) a b := by
    intro a ha b hab
    induction hab with
    | refl => exact ⟨ha, .refl⟩
    | @step b c _ hadj ih =>
      obtain ⟨hb, hcb⟩ := ih
      have hc : c ∈ C := ((c3 b hb).2 c).2 (Connected.single hadj)
      refine ⟨hc, hcb.step ?_⟩
      rw [hpairs]
      rcases hadj with h | h
      · exact Or.inl ((hskey _).2 ⟨h, hb, hc⟩)
      · exact Or.inr ((hskey _).2 ⟨h, hc, hb⟩)
  have hwne : weighted sub.allEdges ≠ [] := by
    obtain ⟨x, hx⟩ := List.exists_mem_of_ne_nil C c1
    obtain ⟨p, hp, _⟩ := (hnodeC x).2 hx
    intro h
    rw [h] at hp
    cases hp
  have hok : ok = true := by
    rw [t3]
    refine ⟨hwne, ?_⟩
    intro a b ha hb
    have ha' := (hnodeC a).1 ha
    exact (hconnSub a ha' b (((c3 a ha').2 b).1 ((hnodeC b).1 hb))).2
  obtain ⟨hspan, hmin⟩ := t4 hok
  rw [hok] at hext
  have hnodup : (pairs tree).Nodup := MST.extract_nodup hext
  have htreeSub : ∀ p ∈ pairs tree, p ∈ sub.edges.keys := by
    intro p hp
    obtain ⟨e, he, rfl⟩ := List.mem_map.1 hp
    rw [← hpairs]
    exact List.mem_map.2 ⟨e, t1 e he, rfl⟩
  have hmemO : ∀ p, p ∈ order (pairs tree) ↔ p ∈ pairs tree := fun p => (horder _).mem_iff
  obtain ⟨tg, g1, g2, g3, g4, g5⟩ := treeGraph_spec sub (order (pairs tree)) ViewGraph.empty inv_empty (by
    intro p hp
    have := htreeSub p ((hmemO p).1 hp)
    exact ⟨hsinv.lt p this, this⟩) ((horder _).nodup_iff.2 hnodup) (by intro p _ h; cases h)
  have htgkeys : ∀ p, p ∈ tg.edges.keys ↔ p ∈ pairs tree := by
    intro p
    rw [AMap.mem_keys_iff, g3]
    constructor
    · rintro ⟨i, hi⟩
      split at hi
      · exact (hmemO p).1 (by assumption)
      · cases hi
    · intro h
      rw [if_pos ((hmemO p).2 h)]
      exact AMap.mem_keys_iff.1 (htreeSub p h)
  have hconnTree : ∀ a ∈ C, ∀ b ∈ C, Connected (pairs tree) a b :=
    fun a ha b hb => hspan.conn a b ((hnodeC a).2 ha) ((hnodeC b).2 hb)
  have htgC : ∀ v, v ∈ tg.vertices.keys ↔ v ∈ C := by
    intro v
    rw [g4]
    constructor
    · rintro (h | ⟨p, hp, h⟩)
      · cases h
      · rw [← hnodeC]
        rw [hpairs]
        exact ⟨p, htreeSub p ((hmemO p).1 hp), h⟩
    · intro hv
      right
      obtain ⟨p, hp, h⟩ := (hnodeC v).2 hv
      rw [hpairs] at hp
      obtain ⟨_, k1, k2⟩ := (hskey p).1 hp
      have hlt := hsinv.lt p hp
      -- another node of the component
      obtain ⟨u, hu, huv⟩ : ∃ u ∈ C, u ≠ v := by
        rcases h with rfl | rfl
        · exact ⟨p.2, k2, by omega⟩
        · exact ⟨p.1, k1, by omega⟩
      have hcon := hconnTree u hu v hv
      cases hcon with
      | refl => exact absurd rfl huv
      | @step b _ _ hadj =>
        rcases hadj with h | h
        · exact ⟨_, (hmemO _).2 h, Or.inr rfl⟩
        · exact ⟨_, (hmemO _).2 h, Or.inl rfl⟩
  have hlen : tg.edges.keys.length + 1 = tg.vertices.keys.length := by
    rw [g5]
    obtain ⟨nodes, n1, n2, n3⟩ := hspan.card
    have hp1 : tg.vertices.keys.length = nodes.length := by
      have hperm : tg.vertices.keys.Perm nodes := by
        rw [List.perm_ext_iff_of_nodup g2.wfV n1]
        intro a
        rw [htgC, n2, hnodeC]
      exact hperm.length_eq
    have hp2 : (order (pairs tree)).length = tree.length := by
      rw [(horder _).length_eq]
      unfold pairs
      rw [List.length_map]
    rw [hp1, hp2, ← n3]
    simp [ViewGraph.empty]
  cases hord : order (pairs tree) with
  | nil =>
    exfalso
    obtain ⟨x, hx⟩ := List.exists_mem_of_ne_nil C c1
    rw [← htgC, g4] at hx
    rcases hx with h | ⟨p, hp, _⟩
    · cases h
    · rw [hord] at hp; cases hp
  | cons p rest =>
    have hpmem : p ∈ pairs tree := (hmemO p).1 (by rw [hord]; exact List.mem_cons_self ..)
    have hrootC : p.1 ∈ C := ((hskey p).1 (htreeSub p hpmem)).2.1
    obtain ⟨N, hN⟩ := chain_spec hlog hpick g2 (o0 := o0) (root := p.1)
      (fun v hv => h0 v (hedgeC v ((htgC v).1 hv))) ((htgC _).2 hrootC)
      (fun v hv => (hconnTree p.1 hrootC v ((htgC v).1 hv)).mono (fun e he => (htgkeys e).2 he)) hlen
    refine ⟨C, negW tree, p.1, N, ⟨c1, c2, c3, c4⟩, ?_, hrootC, ?_, ?_⟩
    · refine ⟨(isSpanningTree_negW hW).1 hspan, ?_⟩
      intro t ht
      have := hmin (negW t) ((isSpanningTree_negW hW).2 (by rw [negW_negW]; exact ht))
      rw [sum_negW] at this ⊢
      omega
    · intro v hv
      rw [pairs_negW]
      exact hconnTree _ hrootC _ hv
    · intro fuel hf
      obtain ⟨o, o1, o2, o3, o4, o5⟩ := hN fuel hf
      refine ⟨o, ?_, o2, fun v hv => o3 v ((htgC v).2 hv), fun v hv => o4 v (fun h => hv ((htgC v).1 h)), ?_⟩
      · unfold orientations
        rw [hord] at g1
        simp only [hC, hsub, hext, g1, hord, o1]
      · intro e he
        have hep : e.2 ∈ pairs tree := List.mem_map.2 ⟨_, mem_negW.1 he, rfl⟩
        have hek := (hskey _).1 (htreeSub _ hep)
        have hlt := hinv.lt _ hek.1
        refine ⟨hlt, ?_⟩
        obtain ⟨i, x, y, s1, s2, s3, s4⟩ := o5 e.2 ((htgkeys _).2 hep)
        rw [g3, if_pos ((hmemO _).2 hep), hsget _ hlt, if_pos hek.2] at s1
        refine ⟨i, x, y, ?_, s2, s3, s4⟩
        unfold getEdge
        rw [ordPair_of_lt hlt]
        exact s1

/-- C41. On a graph with an edge, and if no view has an orientation beforehand, the function ends, returns true, orients
exactly the views of a largest connected component, and satisfies the relative rotation of every edge of a maximum
spanning tree of it. For every history of the graph, order of iteration and behaviour of the heap. -/
theorem C41_tree (ofM : M3 ℝ → V3 ℝ) (hlog : IsLog ofM)
    (order : List (Nat × Nat) → List (Nat × Nat)) (horder : ∀ l, (order l).Perm l) (pick : List HeapElement → Nat)
    (hpick : ∀ l, l ≠ [] → pick l < l.length) (ops : List (ViewGraph.Op Info))
    (hids : ∀ v ∈ (ViewGraph.run ops).viewIds, v < maxViewId) (hne : (ViewGraph.run ops).allEdges ≠ [])
    (o0 : AMap Nat (V3 ℝ)) (h0 : ∀ v ∈ (ViewGraph.run ops).viewIds, o0.get v = none) :
    ∃ C T N, Spec.IsLargestComponent ((ViewGraph.run ops).allEdges.map (·.1)) C ∧
      Spec.IsMaximumSpanningTree (Spec.componentEdges (ViewGraph.run ops) C) T ∧
      ∀ fuel ≥ N, ∃ o, orientations ofM order pick fuel (ViewGraph.run ops) o0 = .ok (true, o) ∧
        (∀ v ∈ C, ∃ x, o.get v = some x) ∧ (∀ v, v ∉ C → o.get v = o0.get v) ∧
        (∀ e ∈ T, e.2.1 < e.2.2 ∧ Spec.EdgeSatisfied (ViewGraph.run ops) o e.2.1 e.2.2) := by
  obtain ⟨C, T, root, N, h1, h2, _, _, h3⟩ := TreeOrientations.run_spec ofM hlog order horder pick hpick ops hids hne o0 h0
  refine ⟨C, T, N, h1, h2, ?_⟩
  intro fuel hf
  obtain ⟨o, a, _, b, c, d⟩ := h3 fuel hf
  exact ⟨o, a, b, c, d⟩

/-- C41. If the relative rotations of all edges come from orientations `R` of the views, then the result is `R` up to
one rotation common to all views. -/
theorem C41_consistent (ofM : M3 ℝ → V3 ℝ) (hlog : IsLog ofM)
    (order : List (Nat × Nat) → List (Nat × Nat)) (horder : ∀ l, (order l).Perm l) (pick : List HeapElement → Nat)
    (hpick : ∀ l, l ≠ [] → pick l < l.length) (ops : List (ViewGraph.Op Info))
    (hids : ∀ v ∈ (ViewGraph.run ops).viewIds, v < maxViewId) (hne : (ViewGraph.run ops).allEdges ≠ [])
    (o0 : AMap Nat (V3 ℝ)) (h0 : ∀ v ∈ (ViewGraph.run ops).viewIds, o0.get v = none)
    (R : Nat → M3 ℝ) (hR : ∀ v, (R v).IsRotation)
    (hcons : ∀ a b i, a < b → (ViewGraph.run ops).getEdge a b = some i →
      toM i.rotation = (R b).mul (R a).transpose) :
    ∃ C N, Spec.IsLargestComponent ((ViewGraph.run ops).allEdges.map (·.1)) C ∧
      ∀ fuel ≥ N, ∃ o, orientations ofM order pick fuel (ViewGraph.run ops) o0 = .ok (true, o) ∧
        ∃ S : M3 ℝ, S.IsRotation ∧ ∀ v ∈ C, ∃ x, o.get v = some x ∧ toM x = (R v).mul S := by
  obtain ⟨C, T, root, N, h1, _, hroot, hconn, h3⟩ :=
    TreeOrientations.run_spec ofM hlog order horder pick hpick ops hids hne o0 h0
  refine ⟨C, N, h1, ?_⟩
  intro fuel hf
  obtain ⟨o, a, hr, b, c, d⟩ := h3 fuel hf
  refine ⟨o, a, (R root).transpose, (hR root).transpose, ?_⟩
  intro v hv
  have := hconn v hv
  clear hv
  induction this with
  | refl =>
    refine ⟨V3.zero, hr, ?_⟩
    rw [toM_zero, (hR root).right]
  | @step u w _ hadj ih =>
    obtain ⟨x, hx, hxM⟩ := ih
    rcases hadj with h | h
    · obtain ⟨e, he, hee⟩ := List.mem_map.1 h
      obtain ⟨hlt, i, x', y, g1, g2, g3, g4⟩ := d e he
      rw [hee] at hlt g1 g2 g3
      simp only at hlt g1 g2 g3
      rw [hx] at g2
      cases g2
      refine ⟨y, g3, ?_⟩
      rw [g4, hcons _ _ _ hlt g1, hxM, M3.mul_assoc, ← M3.mul_assoc (R u).transpose, (hR u).left, M3.one_mul]
    · obtain ⟨e, he, hee⟩ := List.mem_map.1 h
      obtain ⟨hlt, i, y, x', g1, g2, g3, g4⟩ := d e he
      rw [hee] at hlt g1 g2 g3
      simp only at hlt g1 g2 g3
      rw [hx] at g3
      cases g3
      refine ⟨y, g2, ?_⟩
      rw [hcons _ _ _ hlt g1, hxM] at g4
      have e1 : ((R w).mul (R u).transpose).mul ((R u).mul (R root).transpose) = (R w).mul (R root).transpose := by
        rw [M3.mul_assoc, ← M3.mul_assoc (R u).transpose, (hR u).left, M3.one_mul]
      rw [← e1, g4, ← M3.mul_assoc, M3.mul_assoc (R w), ← M3.mul_assoc (R u).transpose, (hR u).left, M3.one_mul,
        (hR w).right, M3.one_mul]

/-- C41. On a graph without edges the program stops. -/
theorem C41_no_edges_aborts (ofM : M3 ℝ → V3 ℝ) (order : List (Nat × Nat) → List (Nat × Nat))
    (pick : List HeapElement → Nat) (fuel : Nat) (ops : List (ViewGraph.Op Info)) (o0 : AMap Nat (V3 ℝ))
    (hne : (ViewGraph.run ops).allEdges = []) :
    orientations ofM order pick fuel (ViewGraph.run ops) o0 = .abort := by
  unfold orientations
  rw [C10_largest_component_aborts_without_edges ops hne]

/-- One edge, of one radian about the z axis. -/
noncomputable def staleOps : List (ViewGraph.Op Info) := [.addEdge 0 1 ⟨1, 1, V3.zero, ⟨0, 0, 1⟩, 5, 0, 0⟩]

theorem toM_z_ne_one : toM ⟨0, 0, 1⟩ ≠ M3.one := by
  intro h
  have h1 := trace_toM ⟨0, 0, 1⟩
  rw [h] at h1
  have h2 : trace M3.one = 3 := by
    unfold trace M3.one
    norm_num
  have h3 : Real.sqrt ((⟨0, 0, 1⟩ : V3 ℝ).dot ⟨0, 0, 1⟩) = 1 := by
    unfold V3.dot
    norm_num
  rw [h2, h3] at h1
  have := Real.cos_one_le
  linarith

/-- C41. An orientation present beforehand is kept, and then the tree edge to that view is in general not satisfied:
the map is not cleared. -/
theorem C41_stale_counterexample (ofM : M3 ℝ → V3 ℝ) (fuel : Nat) :
    ∃ o, orientations ofM id (fun _ => 0) (fuel + 1) (ViewGraph.run staleOps) ⟨[(1, V3.zero)]⟩ = .ok (true, o) ∧
      ¬ Spec.EdgeSatisfied (ViewGraph.run staleOps) o 0 1 := by
  refine ⟨⟨[(1, V3.zero), (0, V3.zero)]⟩, ?_, ?_⟩
  · have h1 : (ViewGraph.run staleOps).largestCC = .ok [0, 1] := rfl
    have h2 : (ViewGraph.run staleOps).extractSubgraph [0, 1] ViewGraph.empty = .ok (ViewGraph.run staleOps) := rfl
    have h3 : MST.extract maxViewId (weighted (ViewGraph.run staleOps).allEdges) [] = .ok (true, [(0, 1)]) := by
      have : weighted (ViewGraph.run staleOps).allEdges = [((-5 : Int), (0, 1))] := rfl
      rw [this]
      unfold MST.extract
      rw [if_neg (by simp), List.mergeSort_singleton]
      rfl
    have h4 : treeGraph (ViewGraph.run staleOps) (id [(0, 1)]) ViewGraph.empty = .ok (ViewGraph.run staleOps) := rfl
    unfold orientations
    simp only [h1, h2, h3, h4]
    rfl
  · rintro ⟨i, x, y, h1, h2, h3, h4⟩
    cases h1
    cases h2
    cases h3
    simp only [toM_zero, M3.mul_one] at h4
    exact toM_z_ne_one h4.symm

/-- A chain of three views with two different relative rotations and an isolated pair. -/
noncomputable def chainOps : List (ViewGraph.Op Info) :=
  [.addEdge 1 2 ⟨1, 1, V3.zero, ⟨0, 0, 1⟩, 5, 0, 0⟩, .addEdge 7 2 ⟨1, 1, V3.zero, ⟨1, 0, 0⟩, 9, 0, 0⟩,
   .addEdge 3 4 ⟨1, 1, V3.zero, ⟨0, 1, 0⟩, 3, 0, 0⟩]

/-- Orientations from which the chain comes. -/
noncomputable def chainR (v : Nat) : M3 ℝ :=
  if v = 2 then toM ⟨0, 0, 1⟩ else if v = 7 then (toM ⟨1, 0, 0⟩).mul (toM ⟨0, 0, 1⟩)
  else if v = 4 then toM ⟨0, 1, 0⟩ else M3.one

example : (ViewGraph.run chainOps).allEdges ≠ [] ∧ (∀ v ∈ (ViewGraph.run chainOps).viewIds, v < maxViewId) ∧
    (∀ v, (chainR v).IsRotation) ∧
    (∀ a b i, a < b → (ViewGraph.run chainOps).getEdge a b = some i →
      toM i.rotation = (chainR b).mul (chainR a).transpose) := by
  refine ⟨(by intro h; cases h), ?_, ?_, ?_⟩
  · have : (ViewGraph.run chainOps).viewIds = [1, 2, 7, 3, 4] := rfl
    rw [this]
    unfold maxViewId
    simp
  · intro v
    unfold chainR
    split
    · exact isRotation_toM _
    · split
      · exact (isRotation_toM _).mul (isRotation_toM _)
      · split
        · exact isRotation_toM _
        · exact M3.IsRotation.one
  · intro a b i hab h
    have hm := ((C09_counts chainOps).2.2.2.2.2 a b i).2 ⟨hab, h⟩
    have hall : (ViewGraph.run chainOps).allEdges = [((1, 2), ⟨1, 1, V3.zero, ⟨0, 0, 1⟩, 5, 0, 0⟩),
      ((2, 7), ⟨1, 1, V3.zero, ⟨1, 0, 0⟩, 9, 0, 0⟩), ((3, 4), ⟨1, 1, V3.zero, ⟨0, 1, 0⟩, 3, 0, 0⟩)] := rfl
    rw [hall] at hm
    have hone : (M3.one : M3 ℝ).transpose = M3.one := rfl
    simp only [List.mem_cons, Prod.mk.injEq, List.not_mem_nil, or_false] at hm
    rcases hm with ⟨⟨rfl, rfl⟩, rfl⟩ | ⟨⟨rfl, rfl⟩, rfl⟩ | ⟨⟨rfl, rfl⟩, rfl⟩
    · simp only [chainR]
      norm_num
      rw [hone, M3.mul_one]
    · simp only [chainR]
      norm_num
      rw [M3.mul_assoc, (isRotation_toM _).right, M3.mul_one]
    · simp only [chainR]
      norm_num
      rw [hone, M3.mul_one]

end Theia
