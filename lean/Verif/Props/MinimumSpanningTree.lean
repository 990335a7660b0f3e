import Verif.Proof.MinimumSpanningTree

/-!
# C14: minimum spanning trees
-/

namespace Theia

open Spec MST

variable {T W : Type} [LinearOrder T] [LinearOrder W]

omit [LinearOrder W] in
/-- The nodes counted by the code are the ends of edges. -/
theorem mem_nodes_iff (edges : List (MST.Edge T W)) (a : T) :
    a ∈ (edges.map (fun e => e.2.1) ++ edges.map (fun e => e.2.2)).dedup ↔
      IsNode (pairs edges) a := by
  rw [List.mem_dedup, isNode_pairs, List.mem_append, List.mem_map, List.mem_map]
  constructor
  · rintro (⟨e, he, rfl⟩ | ⟨e, he, rfl⟩)
    · exact ⟨e, he, Or.inl rfl⟩
    · exact ⟨e, he, Or.inr rfl⟩
  · rintro ⟨e, he, rfl | rfl⟩
    · exact Or.inl ⟨e, he, rfl⟩
    · exact Or.inr ⟨e, he, rfl⟩

/-- C14: for a graph without self edges and with no more nodes than the node type can count,
`Extract` into an empty set always terminates normally; it returns true exactly if the graph has an
edge and is connected; the edges returned come from the graph and connect whatever the graph
connects; and if it returns true they are a spanning tree whose total weight is minimal among all
spanning trees. -/
theorem C14_minimum_spanning_tree [AddCommMonoid W] [IsOrderedAddMonoid W]
    (limit : Nat) (hl : 0 < limit) (edges : List (W × (T × T)))
    (hself : ∀ e ∈ edges, e.2.1 ≠ e.2.2)
    (nodes : List T) (hnodes : ∀ a, IsNode (pairs edges) a → a ∈ nodes)
    (hlimit : nodes.length ≤ limit) :
    ∃ (ok : Bool) (tree : List (W × (T × T))),
      MST.extract limit edges [] = .ok (ok, pairs tree) ∧
      (∀ e ∈ tree, e ∈ edges) ∧
      (∀ a b, Connected (pairs edges) a b ↔ Connected (pairs tree) a b) ∧
      (ok = true ↔ edges ≠ [] ∧
        ∀ a b, IsNode (pairs edges) a → IsNode (pairs edges) b → Connected (pairs edges) a b) ∧
      (ok = true → IsSpanningTree edges tree ∧
        ∀ t, IsSpanningTree edges t → (tree.map (·.1)).sum ≤ (t.map (·.1)).sum) := by
  unfold MST.extract
  by_cases h0 : edges.length = 0
  · rw [if_pos h0]
    have hnil : edges = [] := List.length_eq_zero_iff.1 h0
    exact ⟨false, [], rfl, by simp, by simp [hnil], by simp [hnil], by simp⟩
  rw [if_neg h0]
  have hne : edges ≠ [] := fun h => h0 (by simp [h])
  generalize hNl : (edges.map (fun e => e.2.1) ++ edges.map (fun e => e.2.2)).dedup = Nl
  have hN : ∀ a, a ∈ Nl ↔ IsNode (pairs edges) a := fun a => hNl ▸ mem_nodes_iff edges a
  have hnd : Nl.Nodup := hNl ▸ List.nodup_dedup _
  have hcount : countNodes edges = Nl.length := by rw [← hNl]; rfl
  have hNlen : Nl.length ≤ limit :=
    le_trans (List.Nodup.length_le_of_subset hnd (fun a ha => hnodes a ((hN a).1 ha))) hlimit
  have hcard : Nl.toFinset.card = Nl.length := List.toFinset_card_of_nodup hnd
  generalize hall : edges.mergeSort edgeLe = all
  have hperm : all.Perm edges := hall ▸ List.mergeSort_perm edges edgeLe
  have hmem : ∀ e, e ∈ all ↔ e ∈ edges := fun e => hperm.mem_iff
  have hsorted : all.Pairwise (fun e f => edgeLe e f = true) :=
    hall ▸ List.pairwise_mergeSort edgeLe_trans edgeLe_total edges
  have hallN : ∀ e ∈ all, e.2.1 ∈ Nl ∧ e.2.2 ∈ Nl ∧ e.2.1 ≠ e.2.2 := by
    intro e he
    have he' := (hmem e).1 he
    exact ⟨(hN _).2 (isNode_pairs.2 ⟨e, he', Or.inl rfl⟩),
      (hN _).2 (isNode_pairs.2 ⟨e, he', Or.inr rfl⟩), hself e he'⟩
  obtain ⟨res, hres, hg, hdone⟩ := loop_spec limit hl Nl hNlen all hallN (countNodes edges) all [] []
    rfl hsorted ⟨limit, .empty⟩ (CC.complete_empty limit)
    ⟨by simp, by simp [pairs, compCount_nil], by simp⟩ (by simp)
  change loop (countNodes edges) all ⟨limit, .empty⟩ [] = _ at hres
  simp only [hres]
  have hlenp : (pairs res).length = res.length := by simp [pairs]
  have hsub : ∀ e ∈ res, e ∈ edges := fun e he => (hmem e).1 (hg.sub e he)
  have hnonempty : Nl.toFinset.Nonempty := by
    obtain ⟨e, he⟩ := List.exists_mem_of_ne_nil _ hne
    exact ⟨e.2.1, List.mem_toFinset.2 ((hN _).2 (isNode_pairs.2 ⟨e, he, Or.inl rfl⟩))⟩
  have hpos := compCount_pos Nl.toFinset (pairs res) hnonempty
  have hrank := hg.rank
  have hspan : ∀ e ∈ all, Connected (pairs res) e.2.1 e.2.2 := by
    rcases hdone with h | h
    · have h1 : compCount Nl.toFinset (pairs res) ≤ 1 := by omega
      intro e he
      exact (compCount_le_one_iff _ _).1 h1 _ (List.mem_toFinset.2 (hallN e he).1) _
        (List.mem_toFinset.2 (hallN e he).2.1)
    · exact h
  have hconn : ∀ a b, Connected (pairs edges) a b ↔ Connected (pairs res) a b := by
    intro a b
    constructor
    · refine Connected.le (R := fun a b => Connected (pairs res) a b)
        (fun _ => .refl) (fun h => h.symm) (fun h h' => h.trans h') ?_
      intro p hp
      simp only [pairs, List.mem_map] at hp
      obtain ⟨e, he, rfl⟩ := hp
      exact hspan e ((hmem e).2 he)
    · intro h
      refine h.mono ?_
      intro p hp
      simp only [pairs, List.mem_map] at hp ⊢
      obtain ⟨e, he, rfl⟩ := hp
      exact ⟨e, hsub e he, rfl⟩
  refine ⟨_, res, rfl, hsub, hconn, ?_, ?_⟩
  · rw [decide_eq_true_eq, hlenp, hcount]
    constructor
    · intro hlen
      refine ⟨hne, fun a b ha hb => ?_⟩
      rw [hconn]
      have h1 : compCount Nl.toFinset (pairs res) ≤ 1 := by omega
      exact (compCount_le_one_iff _ _).1 h1 _ (List.mem_toFinset.2 ((hN a).2 ha)) _
        (List.mem_toFinset.2 ((hN b).2 hb))
    · rintro ⟨_, h⟩
      have h1 : compCount Nl.toFinset (pairs res) ≤ 1 := by
        rw [compCount_le_one_iff]
        intro x hx y hy
        rw [← hconn]
        exact h x y ((hN x).1 (List.mem_toFinset.1 hx)) ((hN y).1 (List.mem_toFinset.1 hy))
      omega
  · rw [decide_eq_true_eq, hlenp, hcount]
    intro hlen
    have hlen1 : res.length + 1 = Nl.length := by omega
    have h1 : compCount Nl.toFinset (pairs res) ≤ 1 := by omega
    refine ⟨⟨hsub, ?_, ⟨Nl, hnd, hN, hlen1⟩⟩, ?_⟩
    · intro a b ha hb
      exact (compCount_le_one_iff _ _).1 h1 _ (List.mem_toFinset.2 ((hN a).2 ha)) _
        (List.mem_toFinset.2 ((hN b).2 hb))
    · intro t ht
      obtain ⟨Nt, hNtd, hNt, hNtlen⟩ := ht.card
      have hNN : Nt.length = Nl.length :=
        ((List.perm_ext_iff_of_nodup hNtd hnd).2 (fun a => (hNt a).trans (hN a).symm)).length_eq
      generalize hts : t.mergeSort edgeLe = ts
      have htp : ts.Perm t := hts ▸ List.mergeSort_perm t edgeLe
      have htsorted : ts.Pairwise (fun e f => e.1 ≤ f.1) :=
        (hts ▸ List.pairwise_mergeSort edgeLe_trans edgeLe_total t :
          ts.Pairwise (fun e f => edgeLe e f = true)).imp (fun h => edgeLe_weight h)
      have htlen : ts.length = res.length := by
        have := htp.length_eq
        omega
      have hsum : (t.map (·.1)).sum = (ts.map (·.1)).sum := (htp.map _).sum_eq.symm
      rw [hsum]
      refine sum_le_sum_of_get _ _ (by simp [htlen]) ?_
      intro k hk
      rw [List.getElem_map, List.getElem_map]
      refine greedy_light Nl.toFinset hg htlen (by omega) ?_ ?_ htsorted k (by simpa using hk)
      · intro e he
        exact (hmem e).2 (ht.sub e (htp.mem_iff.1 he))
      · intro a ha b hb
        have := ht.conn a b ((hN a).1 (List.mem_toFinset.1 ha)) ((hN b).1 (List.mem_toFinset.1 hb))
        refine this.mono ?_
        intro p hp
        simp only [pairs, List.mem_map] at hp ⊢
        obtain ⟨e, he, rfl⟩ := hp
        exact ⟨e, htp.mem_iff.2 he, rfl⟩

/-- A square with a diagonal meets the hypotheses of `C14_minimum_spanning_tree`, and the tree found
has the three lightest edges. -/
example :
    MST.extract 100 [(5, ((1 : Nat), (2 : Nat))), ((1 : Nat), (2, 3)), (2, (3, 4)), (4, (4, 1)),
      (3, (1, 3))] [] = .ok (true, [(2, 3), (3, 4), (1, 3)]) := by
  unfold MST.extract
  have : List.mergeSort [(5, ((1 : Nat), (2 : Nat))), ((1 : Nat), (2, 3)), (2, (3, 4)), (4, (4, 1)),
      (3, (1, 3))] edgeLe = [((1 : Nat), ((2 : Nat), (3 : Nat))), (2, (3, 4)), (3, (1, 3)), (4, (4, 1)),
      (5, (1, 2))] := by simp [List.mergeSort, List.MergeSort.Internal.splitInTwo, edgeLe]
  simp only [this]
  decide

/-- C14, self edges: the call claims success (returns true) on the disconnected graph with the self
edge (0,0) and the edge (1,2), and the edges it returns do not connect nodes 0 and 1. -/
theorem C14_self_edge_counterexample :
    ∃ edges : List (Nat × (Nat × Nat)),
      MST.extract 100 edges [] = .ok (true, pairs edges) ∧
      ¬ ∀ a b, IsNode (pairs edges) a → IsNode (pairs edges) b → Connected (pairs edges) a b := by
  refine ⟨[(0, (0, 0)), (1, (1, 2))], ?_, ?_⟩
  · unfold MST.extract
    have : List.mergeSort [((0 : Nat), ((0 : Nat), (0 : Nat))), (1, (1, 2))] edgeLe =
        [(0, (0, 0)), (1, (1, 2))] := by
      apply List.mergeSort_of_pairwise; decide
    simp only [this]
    decide
  · intro h
    have h01 := h 0 1 ⟨(0, 0), by simp [pairs], by simp⟩ ⟨(1, 2), by simp [pairs], by simp⟩
    have := Connected.le (R := fun a b : Nat => a = 0 ↔ b = 0) (fun _ => Iff.rfl) (fun h => h.symm)
      (fun h h' => h.trans h') (by
        intro e he
        simp only [pairs, List.map_cons, List.map_nil, List.mem_cons, List.not_mem_nil, or_false] at he
        rcases he with rfl | rfl <;> simp) h01
    simp at this

end Theia
