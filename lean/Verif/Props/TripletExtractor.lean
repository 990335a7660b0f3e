import Mathlib.Order.Nat
import Verif.Proof.TripletExtractor
import Verif.Props.ConnectedComponents

/-!
# C15: triplet extraction
-/

namespace Theia

open Spec Triplets

variable {T : Type} [LinearOrder T]

/-- C15: for every edge set stored as (smaller, larger) pairs, in any iteration order, and with at
most `limit` triangles, `ExtractTriplets` terminates normally, appends groups to the output and sorts
it by decreasing size; no triangle is listed twice, within or across the new groups; exactly the triangles
of the graph are listed; no group is empty; and two listed triangles are in one group exactly if
they are linked by triangles sharing an edge. -/
theorem C15_triplets_exact (limit : Nat) (hl : 0 < limit) (E : List (T × T)) (hnd : E.Nodup)
    (hord : ∀ e ∈ E, e.1 < e.2)
    (hlimit : ∀ ts : List (T × T × T), ts.Nodup → (∀ t ∈ ts, IsTriangle E t) → ts.length ≤ limit)
    (out : List (List (T × T × T))) :
    ∃ res groups, Triplets.extract limit E out = .ok res ∧ res.Perm (out ++ groups) ∧
      res.Pairwise (fun g h => h.length ≤ g.length) ∧
      groups.flatten.Nodup ∧ (∀ t, t ∈ groups.flatten ↔ IsTriangle E t) ∧
      (∀ g ∈ groups, g ≠ []) ∧
      ∀ g ∈ groups, ∀ t ∈ g, ∀ u, u ∈ g ↔ TriangleConnected E t u := by
  obtain ⟨s, hs, ⟨hw, hne, hidx⟩, hsn, hsm⟩ := findLoop_spec E hord hnd E [] rfl (buildAdj E)
    (buildAdj_ok E) ⟨[], .empty⟩ ⟨by simp, by simp, by simp⟩ (by simp) (by simp)
  obtain ⟨L, hL, hLe, hLs⟩ := linkAll_spec s.edges.entries
    (fun e he => hne e.1 e.2 (AMap.get_of_mem_entries hw he))
  have hentry : ∀ p i, (∃ l, (p, l) ∈ s.edges.entries ∧ i ∈ l) ↔
      ∃ t, s.triplets[i]? = some t ∧ p ∈ sides t := by
    intro p i
    rw [← hidx]
    constructor
    · rintro ⟨l, hl, hi⟩; exact ⟨l, AMap.get_of_mem_entries hw hl, hi⟩
    · rintro ⟨l, hl, hi⟩; exact ⟨l, AMap.mem_entries_of_get hl, hi⟩
  have hnode : ∀ i, IsNode L i ↔ i < s.triplets.length := by
    intro i
    constructor
    · rintro ⟨p, hp, h⟩
      obtain ⟨e, he, h1, h2⟩ := hLe p hp
      have hi : i ∈ e.2 := by rcases h with rfl | rfl; exacts [h1, h2]
      obtain ⟨t, ht, _⟩ := (hentry e.1 i).1 ⟨e.2, he, hi⟩
      exact (List.getElem?_eq_some_iff.1 ht).1
    · intro hi
      obtain ⟨l, hl, hil⟩ := (hentry ((s.triplets[i]).1, (s.triplets[i]).2.1) i).2
        ⟨s.triplets[i], List.getElem?_eq_getElem hi, by simp [sides]⟩
      exact (hLs _ hl).1 i hil
  -- connectivity of numbers is connectivity of triangles
  have hconn : ∀ i j t u, s.triplets[i]? = some t → s.triplets[j]? = some u →
      (Connected L i j ↔ TriangleConnected E t u) := by
    intro i j t u hi hj
    constructor
    · intro h
      have htE : IsTriangle E t := (hsm t).1 (List.mem_of_getElem? hi)
      induction h generalizing u with
      | refl =>
        rw [hi] at hj; cases hj; exact Relation.ReflTransGen.refl
      | step _ hadj ih =>
        rename_i k j _
        have key : ∃ e ∈ s.edges.entries, k ∈ e.2 ∧ j ∈ e.2 := by
          rcases hadj with h | h
          · exact hLe _ h
          · obtain ⟨e, he, h1, h2⟩ := hLe _ h; exact ⟨e, he, h2, h1⟩
        obtain ⟨e, he, h1, h2⟩ := key
        obtain ⟨v, hv, hpv⟩ := (hentry e.1 k).1 ⟨e.2, he, h1⟩
        obtain ⟨u', hu', hpu⟩ := (hentry e.1 j).1 ⟨e.2, he, h2⟩
        rw [hj] at hu'; cases hu'
        have hvE : IsTriangle E v := (hsm v).1 (List.mem_of_getElem? hv)
        have huE : IsTriangle E u := (hsm u).1 (List.mem_of_getElem? hj)
        exact (ih v hv).tail ⟨hvE, huE, (shareEdge_iff hvE huE).2 ⟨e.1, hpv, hpu⟩⟩
    · intro h
      induction h generalizing j with
      | refl =>
        have hij : i = j :=
          (List.getElem?_inj (List.getElem?_eq_some_iff.1 hi).1 hsn).1 (hi.trans hj.symm)
        subst hij; exact .refl
      | tail _ hstep ih =>
        obtain ⟨hvE, huE, hsh⟩ := hstep
        obtain ⟨k, hk⟩ := List.mem_iff_getElem?.1 ((hsm _).2 hvE)
        obtain ⟨p, hp1, hp2⟩ := (shareEdge_iff hvE huE).1 hsh
        obtain ⟨l, hl1, hl2⟩ := (hentry p k).2 ⟨_, hk, hp1⟩
        obtain ⟨l', hl1', hl2'⟩ := (hentry p j).2 ⟨_, hj, hp2⟩
        have : l = l' := by
          have h1 := AMap.get_of_mem_entries hw hl1
          have h2 := AMap.get_of_mem_entries hw hl1'
          rw [h1] at h2; exact Option.some.inj h2
        subst this
        exact (ih k hk).trans ((hLs _ hl1).2 k hl2 j hl2')
  -- run the component analysis
  obtain ⟨c0, c, hc0, hc, -, comps, c', hex, hkeys, hcov, hcls, hdis⟩ :=
    C12_components_are_connectivity limit hl (L.map (fun p => CC.Op.addEdge p.1 p.2))
      (List.range s.triplets.length)
      (by rw [List.length_range]; exact hlimit _ hsn (fun t ht => (hsm t).1 ht))
      (by rw [edgesOf_map]; intro x hx; rw [List.mem_range]; exact (hnode x).1 hx)
  rw [edgesOf_map] at hcov hcls
  have hget : ∀ r l, (r, l) ∈ comps.entries → comps.get r = some l :=
    fun r l h => AMap.get_of_mem_entries hkeys h
  have hbound : ∀ e ∈ comps.entries, ∀ i ∈ e.2, i < s.triplets.length := by
    intro e he i hi
    exact (hnode i).1 ((hcov i).2 ⟨e.1, e.2, hget _ _ he, hi⟩)
  have hcol := collectAll_spec s.triplets comps.entries hbound
  generalize hgs : comps.entries.map (fun e => e.2.filterMap (fun i => s.triplets[i]?)) = groups at hcol
  have hinj : ∀ (i j : Nat) (t : Triplet T), t ∈ s.triplets[i]? → t ∈ s.triplets[j]? → i = j := by
    intro i j t hi hj
    rw [Option.mem_def] at hi hj
    exact (List.getElem?_inj (List.getElem?_eq_some_iff.1 hi).1 hsn).1 (hi.trans hj.symm)
  refine ⟨(out ++ groups).mergeSort (fun a b => decide (b.length ≤ a.length)), groups, ?_, List.mergeSort_perm _ _, ?_, ?_, ?_, ?_, ?_⟩
  · unfold Triplets.extract newGroups
    simp only [hs, hc0, hL, hc, hex, hcol]
  · refine (List.pairwise_mergeSort ?_ ?_ _).imp (fun h => of_decide_eq_true h)
    · intro a b c h1 h2
      simp only [decide_eq_true_eq] at *; omega
    · intro a b
      simp only [Bool.or_eq_true, decide_eq_true_eq]; omega
  · rw [List.nodup_flatten, ← hgs]
    constructor
    · intro g hg
      obtain ⟨e, he, rfl⟩ := List.mem_map.1 hg
      exact List.Nodup.filterMap hinj (hcls e.1 e.2 (hget _ _ he)).1
    · rw [List.pairwise_map]
      have hkp : comps.entries.Pairwise (fun e f => e.1 ≠ f.1) := List.pairwise_map.1 hkeys
      refine List.Pairwise.imp_of_mem ?_ hkp
      intro e f he hf hef t h1 h2
      obtain ⟨i, hi, hit⟩ := List.mem_filterMap.1 h1
      obtain ⟨j, hj, hjt⟩ := List.mem_filterMap.1 h2
      have : i = j := hinj i j t hit hjt
      subst this
      exact hef (hdis e.1 e.2 f.1 f.2 i (hget _ _ he) (hget _ _ hf) hi hj)
  · intro t
    rw [← hsm, ← hgs, List.mem_flatten]
    constructor
    · rintro ⟨g, hg, ht⟩
      obtain ⟨e, he, rfl⟩ := List.mem_map.1 hg
      obtain ⟨i, _, hit⟩ := List.mem_filterMap.1 ht
      exact List.mem_of_getElem? hit
    · intro ht
      obtain ⟨i, hi⟩ := List.mem_iff_getElem?.1 ht
      obtain ⟨r, l, hrl, hil⟩ := (hcov i).1 ((hnode i).2 (List.getElem?_eq_some_iff.1 hi).1)
      exact ⟨_, List.mem_map.2 ⟨(r, l), AMap.mem_entries_of_get hrl, rfl⟩,
        List.mem_filterMap.2 ⟨i, hil, hi⟩⟩
  · rw [← hgs]
    intro g hg
    obtain ⟨e, he, rfl⟩ := List.mem_map.1 hg
    have hr := (hcls e.1 e.2 (hget _ _ he)).2.1
    have hlt := hbound e he _ hr
    exact List.ne_nil_of_mem (List.mem_filterMap.2 ⟨e.1, hr, List.getElem?_eq_getElem hlt⟩)
  · rw [← hgs]
    intro g hg t ht u
    obtain ⟨e, he, rfl⟩ := List.mem_map.1 hg
    obtain ⟨i, hi, hit⟩ := List.mem_filterMap.1 ht
    have hcl := (hcls e.1 e.2 (hget _ _ he)).2.2 i hi
    rw [List.mem_filterMap]
    constructor
    · rintro ⟨j, hj, hju⟩
      exact (hconn i j t u hit hju).1 ((hcl j).1 hj)
    · intro h
      have huE : IsTriangle E u := by
        rcases Relation.ReflTransGen.cases_tail h with h | ⟨_, _, h⟩
        · rw [h]; exact (hsm t).1 (List.mem_of_getElem? hit)
        · exact h.2.1
      obtain ⟨j, hj⟩ := List.mem_iff_getElem?.1 ((hsm u).2 huE)
      exact ⟨j, (hcl j).2 ((hconn i j t u hit hj).2 h), hj⟩

/-- Two triangles sharing the edge (2,3) and a separate one meeting them in node 4 only: the graph is
ordered and without repetitions, and two groups are returned, the larger first. -/
example :
    (∀ e ∈ [((1 : Nat), (2 : Nat)), (1, 3), (2, 3), (2, 4), (3, 4), (4, 5), (4, 6), (5, 6)],
      e.1 < e.2) ∧
    Triplets.extract 100 [(1, 2), (1, 3), (2, 3), (2, 4), (3, 4), (4, 5), (4, 6), (5, 6)] [] =
      .ok [[(1, 2, 3), (2, 3, 4)], [((4 : Nat), 5, 6)]] := by
  refine ⟨by decide, ?_⟩
  have h : newGroups 100 [((1 : Nat), (2 : Nat)), (1, 3), (2, 3), (2, 4), (3, 4), (4, 5), (4, 6), (5, 6)]
      = .ok [[(1, 2, 3), (2, 3, 4)], [((4 : Nat), 5, 6)]] := by decide
  unfold Triplets.extract
  rw [h]
  simp only [List.nil_append]
  rw [List.mergeSort_of_pairwise (by decide)]

end Theia
