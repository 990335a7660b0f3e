import Verif.Proof.ViewGraphSub

/-! # Properties C09-C11: the view graph -/

namespace Theia
open Spec ViewGraph

variable {I : Type}

/-- A non-trivial example graph: a triangle 0-1-2, an edge 4-5, an isolated view 3. -/
def demoGraphOps : List (ViewGraph.Op Nat) :=
  [.addEdge 0 1 10, .addEdge 2 1 12, .addEdge 0 2 20, .addEdge 3 0 99, .removeEdge 0 3, .addEdge 5 4 45,
   .addEdge 7 7 0, .setEdge 1 0 11, .addEdge 6 5 1, .removeView 6]

/-- The graph of `demoGraphOps`. -/
def demoGraph : ViewGraph Nat := ViewGraph.run demoGraphOps

example : demoGraph.viewIds = [0, 1, 2, 3, 5, 4] ∧ demoGraph.getEdge 1 0 = some 11 := by decide

/-- **C09.** After any history, `GetEdge`, `HasEdge`, `HasView` and the neighbour sets answer as the
symmetric edge map obtained by applying the calls one after the other. -/
theorem C09_refines_edge_map (ops : List (ViewGraph.Op I)) :
    let g := ViewGraph.run ops
    let s := EdgeMap.run ops
    (∀ a b, g.getEdge a b = s.edge a b) ∧
    (∀ a b, g.hasEdge a b = true ↔ ∃ i, s.edge a b = some i) ∧
    (∀ v, g.hasView v = true ↔ s.view v) ∧
    (∀ v, g.neighbors v = none ↔ ¬ s.view v) ∧
    (∀ v l, g.neighbors v = some l → l.Nodup ∧ ∀ b, b ∈ l ↔ ∃ i, s.edge v b = some i) := by
  have h := rep_run ops
  refine ⟨h.edge, ?_, ?_, ?_, ?_⟩
  · intro a b
    rw [← h.edge, hasEdge, getEdge, AMap.contains_iff, AMap.mem_keys_iff]
  · intro v; rw [hasView, AMap.contains_iff, h.view]
  · intro v; rw [neighbors, AMap.get_eq_none_iff, h.view]
  · intro v l hl
    refine ⟨h.inv.nd v l hl, ?_⟩
    intro b
    rw [h.inv.adj v l b hl, ← h.edge, getEdge, AMap.mem_keys_iff]

/-- **C09.** Edges are undirected and never join a view to itself; both ends of an edge are views. -/
theorem C09_symmetric_irreflexive (ops : List (ViewGraph.Op I)) (a b : Nat) :
    (ViewGraph.run ops).getEdge a b = (ViewGraph.run ops).getEdge b a ∧
    (ViewGraph.run ops).getEdge a a = none ∧
    (∀ i, (ViewGraph.run ops).getEdge a b = some i →
      (ViewGraph.run ops).hasView a = true ∧ (ViewGraph.run ops).hasView b = true) := by
  have h := rep_run ops
  refine ⟨by simp [getEdge, ordPair_comm a b], AMap.get_eq_none_iff.2 (h.inv.irrefl a), ?_⟩
  intro i hi
  have hm : ordPair a b ∈ (ViewGraph.run ops).edges.keys := AMap.mem_keys_iff.2 ⟨i, hi⟩
  exact ⟨AMap.contains_iff.2 (h.inv.dom a b hm), AMap.contains_iff.2 (h.inv.dom' hm)⟩

/-- **C09.** `NumViews` and `NumEdges` count each view and each unordered pair once: `ViewIds` and
`GetAllEdges` list them without repetition, the latter with the smaller id first. -/
theorem C09_counts (ops : List (ViewGraph.Op I)) :
    let g := ViewGraph.run ops
    g.numViews = g.viewIds.length ∧ g.viewIds.Nodup ∧ (∀ v, v ∈ g.viewIds ↔ g.hasView v = true) ∧
    g.numEdges = g.allEdges.length ∧ (g.allEdges.map (·.1)).Nodup ∧
    (∀ a b i, ((a, b), i) ∈ g.allEdges ↔ a < b ∧ g.getEdge a b = some i) := by
  have h := rep_run ops
  refine ⟨AMap.size_eq_length_keys _, h.inv.wfV, ?_, rfl, h.inv.wfE, ?_⟩
  · intro v; rw [hasView, AMap.contains_iff]; rfl
  · intro a b i
    unfold allEdges
    rw [← AMap.get_eq_some_iff h.inv.wfE]
    constructor
    · intro hg
      have hlt := h.inv.lt (a, b) (AMap.mem_keys_iff.2 ⟨i, hg⟩)
      exact ⟨hlt, by rw [getEdge, ordPair_of_lt hlt]; exact hg⟩
    · rintro ⟨hlt, hg⟩
      rw [getEdge, ordPair_of_lt hlt] at hg
      exact hg

/-- **C09.** `RemoveEdge` and `RemoveView` report whether there was something to remove. -/
theorem C09_return_values (ops : List (ViewGraph.Op I)) :
    (∀ a b, ((ViewGraph.run ops).removeEdge a b).1 = (ViewGraph.run ops).hasEdge a b) ∧
    (∀ v, ((ViewGraph.run ops).removeView v).1 = (ViewGraph.run ops).hasView v) := by
  have h := rep_run ops
  constructor
  · intro a b
    by_cases hm : ordPair a b ∈ (ViewGraph.run ops).edges.keys
    · rw [(removeEdge_spec h.inv hm).1, eq_comm]; exact AMap.contains_iff.2 hm
    · rw [removeEdge_unknown hm, eq_comm]
      exact Bool.eq_false_iff.2 (fun hc => hm (AMap.contains_iff.1 hc))
  · intro v
    by_cases hm : v ∈ (ViewGraph.run ops).vertices.keys
    · rw [(removeView_spec h.inv hm).1, eq_comm]; exact AMap.contains_iff.2 hm
    · rw [removeView_unknown hm, eq_comm]
      exact Bool.eq_false_iff.2 (fun hc => hm (AMap.contains_iff.1 hc))

/-- **C10.** A subgraph has exactly the edges with both ends among the chosen views, with their
values, and exactly the views that have such an edge; extraction never aborts. -/
theorem C10_subgraph_exact (ops : List (ViewGraph.Op I)) (s : List Nat) :
    ∃ sub, (ViewGraph.run ops).extractSubgraph s ViewGraph.empty = .ok sub ∧
      (∀ a b, sub.getEdge a b = if a ∈ s ∧ b ∈ s then (ViewGraph.run ops).getEdge a b else none) ∧
      (∀ v, sub.hasView v = true ↔ ∃ w i, sub.getEdge v w = some i) := by
  obtain ⟨sub, e, _, h1, h2⟩ := extractSubgraph_spec (rep_run ops).inv s
  refine ⟨sub, e, h1, ?_⟩
  intro v
  rw [hasView, AMap.contains_iff, h2]
  simp only [getEdge, AMap.mem_keys_iff]

example : ∃ sub, demoGraph.extractSubgraph [1, 2, 5] ViewGraph.empty = .ok sub ∧
    sub.allEdges = [((1, 2), 12)] := ⟨_, rfl, rfl⟩

/-- **C10.** On a graph with an edge, `GetLargestConnectedComponentIds` returns the set of all views
connected to some view with an edge, and no set of pairwise connected views with edges is
larger. -/
theorem C10_largest_component (ops : List (ViewGraph.Op I))
    (hids : ∀ v ∈ (ViewGraph.run ops).viewIds, v < maxViewId)
    (hne : (ViewGraph.run ops).allEdges ≠ []) :
    let E := (ViewGraph.run ops).allEdges.map (·.1)
    ∃ C, (ViewGraph.run ops).largestCC = .ok C ∧ C ≠ [] ∧ C.Nodup ∧
      (∀ x ∈ C, IsNode E x ∧ ∀ y, y ∈ C ↔ Connected E x y) ∧
      (∀ D : List Nat, D.Nodup → (∀ x ∈ D, IsNode E x) → (∀ x ∈ D, ∀ y ∈ D, Connected E x y) →
        D.length ≤ C.length) := by
  have h := (rep_run ops).inv
  obtain ⟨c, comps, c', e1, e2, hwf, hn, hc, hdis⟩ := components_spec h hids
  have hne' : (ViewGraph.run ops).edges.keys ≠ [] := by
    intro hk; apply hne
    exact List.map_eq_nil_iff.1 hk
  obtain ⟨r, C, hl, hg, h1, h2, h3, h4⟩ := largest_spec comps hwf hn hc hne'
  exact ⟨C, by simp [largestCC, e1, e2, hl, hg], h1, h2, h3, h4⟩

example : demoGraph.largestCC = .ok [0, 1, 2] := rfl

/-- **C10.** On a graph without edges `GetLargestConnectedComponentIds` aborts (even if it has
views). -/
theorem C10_largest_component_aborts_without_edges (ops : List (ViewGraph.Op I))
    (hne : (ViewGraph.run ops).allEdges = []) : (ViewGraph.run ops).largestCC = .abort := by
  unfold largestCC
  rw [hne]
  rfl

/-- **C11.** `RemoveDisconnectedViewPairs` keeps exactly the edges of a largest connected component
`C`: the removed views are exactly the other views that had an edge, views without edges stay,
and any two views that still have an edge are connected by surviving edges. -/
theorem C11_keeps_one_largest_component (ops : List (ViewGraph.Op I))
    (hids : ∀ v ∈ (ViewGraph.run ops).viewIds, v < maxViewId)
    (hne : (ViewGraph.run ops).allEdges ≠ []) :
    let g := ViewGraph.run ops
    let E := g.allEdges.map (·.1)
    ∃ g' removed C, g.removeDisconnected = .ok (g', removed) ∧ C ≠ [] ∧ C.Nodup ∧ removed.Nodup ∧
      (∀ x ∈ C, IsNode E x ∧ ∀ y, y ∈ C ↔ Connected E x y) ∧
      (∀ D : List Nat, D.Nodup → (∀ x ∈ D, IsNode E x) → (∀ x ∈ D, ∀ y ∈ D, Connected E x y) →
        D.length ≤ C.length) ∧
      (∀ v, v ∈ removed ↔ IsNode E v ∧ v ∉ C) ∧
      (∀ a b, g'.getEdge a b = if a ∈ C ∧ b ∈ C then g.getEdge a b else none) ∧
      (∀ v, g'.hasView v = true ↔ g.hasView v = true ∧ v ∉ removed) ∧
      (∀ x y, IsNode (g'.allEdges.map (·.1)) x → IsNode (g'.allEdges.map (·.1)) y →
        Connected (g'.allEdges.map (·.1)) x y) := by
  intro g E
  have h : g.Inv := (rep_run ops).inv
  obtain ⟨c, comps, c', e1, e2, hwf, hn, hc, hdis⟩ := components_spec h hids
  have hne' : g.edges.keys ≠ [] := by
    intro hk; apply hne
    exact List.map_eq_nil_iff.1 hk
  obtain ⟨r, C, hl, hg, h1, h2, h3, h4⟩ := largest_spec comps hwf hn hc hne'
  obtain ⟨b1, b2, b3, b4, b5⟩ := removeComps_spec (some r) comps.entries g [] h
  -- nodes outside the kept component
  have hrem : ∀ x, (∃ e ∈ comps.entries, some e.1 ≠ some r ∧ x ∈ e.2) ↔ IsNode g.edges.keys x ∧ x ∉ C := by
    intro x
    constructor
    · rintro ⟨⟨r', l⟩, he, hr, hx⟩
      have hg' := AMap.get_of_mem_entries hwf he
      refine ⟨(hn x).2 ⟨r', l, hg', hx⟩, ?_⟩
      intro hxC
      exact hr (congrArg some (hdis r' l r C x hg' hg hx hxC))
    · rintro ⟨hx, hxC⟩
      obtain ⟨r', l, hg', hxl⟩ := (hn x).1 hx
      refine ⟨(r', l), AMap.mem_entries_of_get hg', ?_, hxl⟩
      intro hr
      cases hr
      rw [hg] at hg'; cases hg'
      exact hxC hxl
  have hClosed : ∀ x ∈ C, ∀ y, Connected g.edges.keys x y → y ∈ C := fun x hx y hxy => ((h3 x hx).2 y).2 hxy
  have hNode : ∀ p ∈ g.edges.keys, IsNode g.edges.keys p.1 ∧ IsNode g.edges.keys p.2 ∧
      Adjacent g.edges.keys p.1 p.2 := fun p hp => ⟨⟨p, hp, Or.inl rfl⟩, ⟨p, hp, Or.inr rfl⟩, Or.inl hp⟩
  have hE : ∀ p, (removeComps (some r) comps.entries g []).1.edges.get p =
      if p.1 ∈ C ∧ p.2 ∈ C then g.edges.get p else none := by
    intro p
    rw [b2]
    by_cases hp : p ∈ g.edges.keys
    · obtain ⟨n1, n2, ad⟩ := hNode p hp
      have hiff : (∃ e ∈ comps.entries, some e.1 ≠ some r ∧ (p.1 ∈ e.2 ∨ p.2 ∈ e.2)) ↔
          ¬ (p.1 ∈ C ∧ p.2 ∈ C) := by
        have hsplit : (∃ e ∈ comps.entries, some e.1 ≠ some r ∧ (p.1 ∈ e.2 ∨ p.2 ∈ e.2)) ↔
            (∃ e ∈ comps.entries, some e.1 ≠ some r ∧ p.1 ∈ e.2) ∨
            (∃ e ∈ comps.entries, some e.1 ≠ some r ∧ p.2 ∈ e.2) := by
          constructor
          · rintro ⟨e, he, hr, h | h⟩
            · exact Or.inl ⟨e, he, hr, h⟩
            · exact Or.inr ⟨e, he, hr, h⟩
          · rintro (⟨e, he, hr, h⟩ | ⟨e, he, hr, h⟩)
            · exact ⟨e, he, hr, Or.inl h⟩
            · exact ⟨e, he, hr, Or.inr h⟩
        rw [hsplit, hrem, hrem]
        simp only [n1, n2, true_and]
        rw [Classical.not_and_iff_not_or_not]
      by_cases hpC : p.1 ∈ C ∧ p.2 ∈ C
      · rw [if_neg (by rw [hiff]; simpa using hpC), if_pos hpC]
      · rw [if_pos (hiff.2 hpC), if_neg hpC]
    · rw [AMap.get_eq_none_iff.2 hp]; simp
  have hEK : ∀ p, p ∈ (removeComps (some r) comps.entries g []).1.edges.keys ↔
      p ∈ g.edges.keys ∧ p.1 ∈ C ∧ p.2 ∈ C := by
    intro p
    rw [← AMap.isSome_get_iff, hE, ← AMap.isSome_get_iff]
    split <;> simp [*]
  refine ⟨(removeComps (some r) comps.entries g []).1, (removeComps (some r) comps.entries g []).2, C,
    by unfold removeDisconnected; simp only [e1, e2, hl], h1, h2, b5 List.nodup_nil, h3, h4, ?_, ?_,
    ?_, ?_⟩
  · intro v; rw [b4, hrem]; simp only [List.not_mem_nil, or_false]; rfl
  · intro a b
    unfold getEdge
    rw [hE]
    have : ((ordPair a b).1 ∈ C ∧ (ordPair a b).2 ∈ C) ↔ a ∈ C ∧ b ∈ C := by
      unfold ordPair; split <;> simp [and_comm]
    simp only [this]
  · intro v
    rw [hasView, hasView, AMap.contains_iff, AMap.contains_iff, b3, b4]
    simp [and_comm]
  · intro x y hx hy
    change Connected (removeComps (some r) comps.entries g []).1.edges.keys x y
    have inC : ∀ z, IsNode ((removeComps (some r) comps.entries g []).1.allEdges.map (·.1)) z → z ∈ C := by
      rintro z ⟨p, hp, hz⟩
      have := (hEK p).1 hp
      rcases hz with rfl | rfl
      · exact this.2.1
      · exact this.2.2
    have hxC := inC x hx
    have hyC := inC y hy
    have hxy := ((h3 x hxC).2 y).1 hyC
    clear hy hyC
    induction hxy with
    | refl => exact .refl
    | step hab hbc ih =>
      rename_i b c'
      have hb : b ∈ C := hClosed x hxC b hab
      have hc' : c' ∈ C := hClosed x hxC c' (hab.step hbc)
      refine Connected.step ih ?_
      rcases hbc with hbc | hbc
      · exact Or.inl ((hEK _).2 ⟨hbc, hb, hc'⟩)
      · exact Or.inr ((hEK _).2 ⟨hbc, hc', hb⟩)

example : ∃ g', demoGraph.removeDisconnected = .ok (g', [4, 5]) ∧ g'.viewIds = [0, 1, 2, 3] := ⟨_, rfl, rfl⟩

/-- **C11.** Without edges nothing is removed. -/
theorem C11_no_edges_unchanged (ops : List (ViewGraph.Op I))
    (hne : (ViewGraph.run ops).allEdges = []) :
    (ViewGraph.run ops).removeDisconnected = .ok (ViewGraph.run ops, []) := by
  unfold removeDisconnected
  rw [hne]
  rfl

end Theia
