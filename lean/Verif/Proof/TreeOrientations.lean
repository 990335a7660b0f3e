import Verif.Model.TreeOrientations
import Verif.Proof.ViewGraph
import Mathlib.Algebra.BigOperators.Group.Finset.Basic
import Mathlib.Algebra.Order.BigOperators.Group.Finset

/-!
# Lemmas on orientations from a spanning tree
-/

namespace Theia
namespace TreeOrientations

open AngleAxis TwoView ViewGraph Spec

/-- The relative rotation of the edge `p` takes the first orientation to the second. -/
def Sat (g : ViewGraph Info) (o : AMap Nat (V3 ℝ)) (p : Nat × Nat) : Prop :=
  ∃ i x y, g.edges.get p = some i ∧ o.get p.1 = some x ∧ o.get p.2 = some y ∧
    toM y = (toM i.rotation).mul (toM x)

/-- Invariant of the main loop: `done` are the views oriented so far, `used` the edges used for that. -/
structure J (g : ViewGraph Info) (o0 : AMap Nat (V3 ℝ)) (root : Nat) (o : AMap Nat (V3 ℝ)) (heap : List HeapElement)
    (done : List Nat) (used : List (Nat × Nat)) : Prop where
  nd : done.Nodup
  rootIn : root ∈ done
  sub : ∀ v ∈ done, v ∈ g.vertices.keys
  len : used.length + 1 = done.length
  und : used.Nodup
  usub : ∀ p ∈ used, p ∈ g.edges.keys
  uin : ∀ p ∈ used, p.1 ∈ done ∧ p.2 ∈ done
  sat : ∀ p ∈ used, Sat g o p
  on : ∀ v ∈ done, ∃ x, o.get v = some x
  off : ∀ v, v ∉ done → o.get v = o0.get v
  hp : ∀ e ∈ heap, g.getEdge e.2.1 e.2.2 = some e.1 ∧ e.2.1 ∈ done
  front : ∀ v ∈ done, ∀ w, ordPair v w ∈ g.edges.keys → w ∈ done ∨ ∃ e ∈ heap, e.2 = (v, w)
  rt : o.get root = some V3.zero

theorem addEdgesLoop_spec (g : ViewGraph Info) (o : AMap Nat (V3 ℝ)) (v : Nat) :
    ∀ (ws : List Nat) (heap : List HeapElement), (∀ w ∈ ws, ordPair v w ∈ g.edges.keys) →
    ∃ new, addEdgesLoop g o v ws heap = .ok (heap ++ new) ∧ new.length ≤ ws.length ∧
      (∀ e ∈ new, g.getEdge e.2.1 e.2.2 = some e.1 ∧ e.2.1 = v) ∧
      (∀ w ∈ ws, o.get w = none → ∃ e ∈ new, e.2 = (v, w)) := by
  intro ws
  induction ws with
  | nil => intro heap _; exact ⟨[], by simp [addEdgesLoop], by simp, by simp, by simp⟩
  | cons w ws ih =>
    intro heap h
    unfold addEdgesLoop
    split
    · rename_i hc
      obtain ⟨new, e1, e2, e3, e4⟩ := ih heap (fun x hx => h x (List.mem_cons_of_mem _ hx))
      refine ⟨new, e1, by simp; omega, e3, ?_⟩
      intro x hx hn
      rcases List.mem_cons.1 hx with rfl | hx
      · unfold AMap.contains at hc
        rw [hn] at hc
        cases hc
      · exact e4 x hx hn
    · obtain ⟨i, hi⟩ := AMap.mem_keys_iff.1 (h w (List.mem_cons_self ..))
      have hg : g.getEdge v w = some i := hi
      simp only [hg]
      obtain ⟨new, e1, e2, e3, e4⟩ := ih (heap ++ [(i, (v, w))]) (fun x hx => h x (List.mem_cons_of_mem _ hx))
      refine ⟨(i, (v, w)) :: new, by rw [e1]; simp, by simp; omega, ?_, ?_⟩
      · intro e he
        rcases List.mem_cons.1 he with rfl | he
        · exact ⟨hg, rfl⟩
        · exact e3 e he
      · intro x hx hn
        rcases List.mem_cons.1 hx with rfl | hx
        · exact ⟨_, List.mem_cons_self .., rfl⟩
        · obtain ⟨e, he, he2⟩ := e4 x hx hn
          exact ⟨e, List.mem_cons_of_mem _ he, he2⟩

/-- Number of neighbours. -/
def deg (g : ViewGraph Info) (v : Nat) : Nat := ((g.vertices.get v).getD []).length

theorem addEdges_spec {g : ViewGraph Info} (hg : Inv g) (o : AMap Nat (V3 ℝ)) {v : Nat} (hv : v ∈ g.vertices.keys)
    (heap : List HeapElement) :
    ∃ new, addEdges g o v heap = .ok (heap ++ new) ∧ new.length ≤ deg g v ∧
      (∀ e ∈ new, g.getEdge e.2.1 e.2.2 = some e.1 ∧ e.2.1 = v) ∧
      (∀ w, ordPair v w ∈ g.edges.keys → o.get w = none → ∃ e ∈ new, e.2 = (v, w)) := by
  obtain ⟨ws, hws⟩ := AMap.mem_keys_iff.1 hv
  obtain ⟨new, e1, e2, e3, e4⟩ := addEdgesLoop_spec g o v ws heap (fun w hw => (hg.adj v ws w hws).1 hw)
  refine ⟨new, ?_, ?_, e3, ?_⟩
  · unfold addEdges neighbors
    rw [hws]
    exact e1
  · unfold deg
    rw [hws]
    exact e2
  · intro w hw hn
    exact e4 w ((hg.adj v ws w hws).2 hw) hn

/-- What is left to do. -/
def measure (g : ViewGraph Info) (done : List Nat) (heap : List HeapElement) : Nat :=
  heap.length + ∑ v ∈ g.vertices.keys.toFinset \ done.toFinset, deg g v

theorem measure_step (g : ViewGraph Info) {done : List Nat} {w : Nat} (hw : w ∈ g.vertices.keys) (hn : w ∉ done) :
    (∑ v ∈ g.vertices.keys.toFinset \ (w :: done).toFinset, deg g v) + deg g w =
      ∑ v ∈ g.vertices.keys.toFinset \ done.toFinset, deg g v := by
  have : g.vertices.keys.toFinset \ (w :: done).toFinset = (g.vertices.keys.toFinset \ done.toFinset).erase w := by
    ext x
    simp only [List.toFinset_cons, Finset.mem_sdiff, List.mem_toFinset, Finset.mem_insert, Finset.mem_erase]
    tauto
  rw [this, Finset.sum_erase_add]
  simp [hw, hn]

theorem toM_computeOrientation {ofM : M3 ℝ → V3 ℝ} (hlog : IsLog ofM) (source : V3 ℝ) (info : Info) (s n : Nat) :
    toM (computeOrientation ofM source info s n) =
      if s < n then (toM info.rotation).mul (toM source) else (toM info.rotation).transpose.mul (toM source) := by
  unfold computeOrientation
  split
  · exact (hlog _ ((isRotation_toM _).mul (isRotation_toM _))).1
  · exact (hlog _ ((isRotation_toM _).transpose.mul (isRotation_toM _))).1

/-- The main loop ends with the invariant and an empty heap. -/
theorem loop_spec {ofM : M3 ℝ → V3 ℝ} (hlog : IsLog ofM) {pick : List HeapElement → Nat}
    (hpick : ∀ l, l ≠ [] → pick l < l.length) {g : ViewGraph Info} (hg : Inv g) {o0 : AMap Nat (V3 ℝ)} {root : Nat}
    (h0 : ∀ v ∈ g.vertices.keys, o0.get v = none) :
    ∀ (fuel : Nat) (heap : List HeapElement) (o : AMap Nat (V3 ℝ)) (done : List Nat) (used : List (Nat × Nat)),
    J g o0 root o heap done used → measure g done heap < fuel →
    ∃ o' done' used', loop ofM pick g fuel heap o = .ok o' ∧ J g o0 root o' [] done' used' := by
  intro fuel
  induction fuel with
  | zero => intro heap o done used _ h; omega
  | succ fuel ih =>
    intro heap o done used hJ hm
    unfold loop
    split
    · rename_i hnil
      subst hnil
      exact ⟨o, done, used, rfl, hJ⟩
    · rename_i hne
      have hp := hpick heap hne
      have hlen := List.length_eraseIdx_of_lt hp
      rw [List.getElem?_eq_getElem hp]
      simp only
      generalize hnx : heap[pick heap] = next
      have hmem : next ∈ heap := hnx ▸ List.getElem_mem hp
      have hkeep : ∀ e ∈ heap, e = next ∨ e ∈ heap.eraseIdx (pick heap) := by
        intro e he
        obtain ⟨j, hj, rfl⟩ := List.getElem_of_mem he
        by_cases hjp : j = pick heap
        · subst hjp; exact Or.inl hnx
        · right
          rw [List.mem_eraseIdx_iff_getElem]
          exact ⟨j, hj, hjp, rfl⟩
      have hsub : ∀ e ∈ heap.eraseIdx (pick heap), e ∈ heap := fun e he => List.mem_of_mem_eraseIdx he
      obtain ⟨hedge, hsrc⟩ := hJ.hp next hmem
      have hkey : ordPair next.2.1 next.2.2 ∈ g.edges.keys := AMap.mem_keys_iff.2 ⟨_, hedge⟩
      have htgt : next.2.2 ∈ g.vertices.keys := hg.dom' hkey
      split
      · rename_i hc
        have hd : next.2.2 ∈ done := by
          by_contra hnd
          rw [AMap.contains_iff, AMap.mem_keys_iff, hJ.off _ hnd, h0 _ htgt] at hc
          obtain ⟨v, hv⟩ := hc
          cases hv
        refine ih _ o done used ?_ ?_
        · refine ⟨hJ.nd, hJ.rootIn, hJ.sub, hJ.len, hJ.und, hJ.usub, hJ.uin, hJ.sat, hJ.on, hJ.off,
            fun e he => hJ.hp e (hsub e he), ?_, hJ.rt⟩
          intro v hv w hw
          rcases hJ.front v hv w hw with h | ⟨e, he, he2⟩
          · exact Or.inl h
          · rcases hkeep e he with rfl | he'
            · left
              rw [he2] at hd
              exact hd
            · exact Or.inr ⟨e, he', he2⟩
        · unfold measure at hm ⊢
          rw [hlen]
          have := List.length_pos_of_mem hmem
          omega
      · rename_i hc
        have hnd : next.2.2 ∉ done := by
          intro hd
          obtain ⟨x, hx⟩ := hJ.on _ hd
          exact hc (by rw [AMap.contains_iff, AMap.mem_keys_iff]; exact ⟨x, hx⟩)
        obtain ⟨src, hs⟩ := hJ.on _ hsrc
        simp only [hs]
        generalize hval : computeOrientation ofM src next.1 next.2.1 next.2.2 = val
        have hvalM := toM_computeOrientation hlog src next.1 next.2.1 next.2.2
        rw [hval] at hvalM
        obtain ⟨new, e1, e2, e3, e4⟩ := addEdges_spec hg (o.insert next.2.2 val) htgt (heap.eraseIdx (pick heap))
        simp only [e1]
        have hne12 : next.2.1 ≠ next.2.2 := fun h => hnd (h ▸ hsrc)
        have hgo : ∀ x, x ∈ done → (o.insert next.2.2 val).get x = o.get x := by
          intro x hx
          rw [AMap.get_insert_ne]
          rintro rfl
          exact hnd hx
        refine ih _ _ (next.2.2 :: done) (ordPair next.2.1 next.2.2 :: used) ?_ ?_
        · refine ⟨List.nodup_cons.2 ⟨hnd, hJ.nd⟩, List.mem_cons_of_mem _ hJ.rootIn, ?_, ?_, ?_, ?_, ?_, ?_, ?_, ?_, ?_, ?_, ?_⟩
          · intro v hv
            rcases List.mem_cons.1 hv with rfl | hv
            · exact htgt
            · exact hJ.sub v hv
          · have := hJ.len
            simp only [List.length_cons]
            omega
          · refine List.nodup_cons.2 ⟨?_, hJ.und⟩
            intro hin
            obtain ⟨a, b⟩ := hJ.uin _ hin
            unfold ordPair at a b
            split at a
            · rw [if_pos ‹_›] at b; exact hnd b
            · exact hnd a
          · intro p hp
            rcases List.mem_cons.1 hp with rfl | hp
            · exact hkey
            · exact hJ.usub p hp
          · intro p hp
            rcases List.mem_cons.1 hp with rfl | hp
            · unfold ordPair
              split
              · exact ⟨List.mem_cons_of_mem _ hsrc, List.mem_cons_self ..⟩
              · exact ⟨List.mem_cons_self .., List.mem_cons_of_mem _ hsrc⟩
            · exact ⟨List.mem_cons_of_mem _ (hJ.uin p hp).1, List.mem_cons_of_mem _ (hJ.uin p hp).2⟩
          · intro p hp
            rcases List.mem_cons.1 hp with rfl | hp
            · unfold getEdge at hedge
              by_cases hlt : next.2.1 < next.2.2
              · rw [ordPair_of_lt hlt] at hedge ⊢
                refine ⟨next.1, src, val, hedge, ?_, AMap.get_insert_self .., ?_⟩
                · rw [hgo _ hsrc]; exact hs
                · rw [hvalM, if_pos hlt]
              · have hgt : next.2.2 < next.2.1 := by omega
                rw [ordPair_comm, ordPair_of_lt hgt] at hedge
                rw [ordPair_comm, ordPair_of_lt hgt]
                refine ⟨next.1, val, src, hedge, AMap.get_insert_self .., ?_, ?_⟩
                · show (o.insert next.2.2 val).get next.2.1 = some src
                  rw [hgo _ hsrc]; exact hs
                · rw [hvalM, if_neg hlt, ← M3.mul_assoc, (isRotation_toM _).right, M3.one_mul]
            · obtain ⟨i, x, y, a1, a2, a3, a4⟩ := hJ.sat p hp
              refine ⟨i, x, y, a1, ?_, ?_, a4⟩
              · rw [hgo _ (hJ.uin p hp).1]; exact a2
              · rw [hgo _ (hJ.uin p hp).2]; exact a3
          · intro v hv
            rcases List.mem_cons.1 hv with rfl | hv
            · exact ⟨val, AMap.get_insert_self ..⟩
            · rw [hgo v hv]; exact hJ.on v hv
          · intro v hv
            rw [List.mem_cons, not_or] at hv
            rw [AMap.get_insert_ne _ _ hv.1]
            exact hJ.off v hv.2
          · intro e he
            rcases List.mem_append.1 he with he | he
            · obtain ⟨a, b⟩ := hJ.hp e (hsub e he)
              exact ⟨a, List.mem_cons_of_mem _ b⟩
            · obtain ⟨a, b⟩ := e3 e he
              exact ⟨a, by rw [b]; exact List.mem_cons_self ..⟩
          · intro v hv w hw
            by_cases hwd : w ∈ next.2.2 :: done
            · exact Or.inl hwd
            · right
              have hwn : (o.insert next.2.2 val).get w = none := by
                rw [List.mem_cons, not_or] at hwd
                rw [AMap.get_insert_ne _ _ hwd.1, hJ.off w hwd.2]
                exact h0 w (hg.dom' hw)
              rcases List.mem_cons.1 hv with rfl | hv
              · obtain ⟨e, he, he2⟩ := e4 w hw hwn
                exact ⟨e, List.mem_append_right _ he, he2⟩
              · rcases hJ.front v hv w hw with h | ⟨e, he, he2⟩
                · exact absurd (List.mem_cons_of_mem _ h) hwd
                · rcases hkeep e he with rfl | he'
                  · rw [he2] at hwd
                    exact absurd (List.mem_cons_self ..) hwd
                  · exact ⟨e, List.mem_append_left _ he', he2⟩
          · rw [hgo _ hJ.rootIn]; exact hJ.rt
        · have hms := measure_step g htgt hnd
          unfold measure at hm ⊢
          rw [List.length_append, hlen]
          have := List.length_pos_of_mem hmem
          omega

/-- Chaining along a connected graph orients all its views; along a tree it satisfies all its edges. -/
theorem chain_spec {ofM : M3 ℝ → V3 ℝ} (hlog : IsLog ofM) {pick : List HeapElement → Nat}
    (hpick : ∀ l, l ≠ [] → pick l < l.length) {g : ViewGraph Info} (hg : Inv g) {o0 : AMap Nat (V3 ℝ)} {root : Nat}
    (h0 : ∀ v ∈ g.vertices.keys, o0.get v = none) (hroot : root ∈ g.vertices.keys)
    (hconn : ∀ v ∈ g.vertices.keys, Connected g.edges.keys root v)
    (htree : g.edges.keys.length + 1 = g.vertices.keys.length) :
    ∃ N, ∀ fuel ≥ N, ∃ o, chain ofM pick fuel g root o0 = .ok o ∧ o.get root = some V3.zero ∧
      (∀ v ∈ g.vertices.keys, ∃ x, o.get v = some x) ∧
      (∀ v, v ∉ g.vertices.keys → o.get v = o0.get v) ∧
      (∀ p ∈ g.edges.keys, Sat g o p) := by
  obtain ⟨new, e1, e2, e3, e4⟩ := addEdges_spec hg (o0.insert root V3.zero) hroot []
  refine ⟨measure g [root] new + 1, ?_⟩
  intro fuel hf
  have hJ : J g o0 root (o0.insert root V3.zero) new [root] [] := by
    refine ⟨by simp, by simp, by simpa using hroot, by simp, by simp, by simp, by simp, by simp, ?_, ?_, ?_, ?_, ?_⟩
    · intro v hv
      rw [List.mem_singleton] at hv
      subst hv
      exact ⟨_, AMap.get_insert_self ..⟩
    · intro v hv
      rw [List.mem_singleton] at hv
      exact AMap.get_insert_ne _ _ hv
    · intro e he
      obtain ⟨a, b⟩ := e3 e he
      exact ⟨a, by simp [b]⟩
    · intro v hv w hw
      rw [List.mem_singleton] at hv
      subst hv
      by_cases hwv : w = v
      · left; simp [hwv]
      · right
        exact e4 w hw (by rw [AMap.get_insert_ne _ _ hwv]; exact h0 w (hg.dom' hw))
    · exact AMap.get_insert_self ..
  obtain ⟨o, done, used, h1, h2⟩ := loop_spec hlog hpick hg h0 fuel new _ [root] [] hJ (by omega)
  have hall : ∀ v ∈ g.vertices.keys, v ∈ done := by
    intro v hv
    have := hconn v hv
    clear hv
    induction this with
    | refl => exact h2.rootIn
    | @step b c _ hadj ih =>
      have hk : ordPair b c ∈ g.edges.keys := by
        rcases hadj with h | h
        · rw [ordPair_of_lt (hg.lt _ h)]; exact h
        · rw [ordPair_comm, ordPair_of_lt (hg.lt _ h)]; exact h
      rcases h2.front b ih c hk with h | ⟨e, he, _⟩
      · exact h
      · cases he
  have hcount : g.edges.keys.length ≤ used.length := by
    have : g.vertices.keys.length ≤ done.length := hg.wfV.length_le_of_subset hall
    have := h2.len
    omega
  have husedAll : ∀ p ∈ g.edges.keys, p ∈ used := by
    have hsp : List.Subperm used g.edges.keys := List.subperm_of_subset h2.und h2.usub
    have := hsp.perm_of_length_le hcount
    intro p hp
    exact this.mem_iff.2 hp
  refine ⟨o, ?_, h2.rt, fun v hv => h2.on v (hall v hv), ?_, fun p hp => h2.sat p (husedAll p hp)⟩
  · unfold chain
    simp only [e1, List.nil_append]
    exact h1
  · intro v hv
    exact h2.off v (fun h => hv (h2.sub v h))

/-- The view graph made of a list of edges of another one. -/
theorem treeGraph_spec (sub : ViewGraph Info) : ∀ (ps : List (Nat × Nat)) (g : ViewGraph Info), Inv g →
    (∀ p ∈ ps, p.1 < p.2 ∧ p ∈ sub.edges.keys) → ps.Nodup → (∀ p ∈ ps, p ∉ g.edges.keys) →
    ∃ t, treeGraph sub ps g = .ok t ∧ Inv t ∧
      (∀ p, t.edges.get p = if p ∈ ps then sub.edges.get p else g.edges.get p) ∧
      (∀ v, v ∈ t.vertices.keys ↔ v ∈ g.vertices.keys ∨ ∃ p ∈ ps, p.1 = v ∨ p.2 = v) ∧
      t.edges.keys.length = g.edges.keys.length + ps.length := by
  intro ps
  induction ps with
  | nil => intro g h _ _ _; exact ⟨g, rfl, h, by simp, by simp, by simp⟩
  | cons p ps ih =>
    intro g h hk hnd hnew
    obtain ⟨hlt, hps⟩ := hk p (List.mem_cons_self ..)
    obtain ⟨i, hi⟩ := AMap.mem_keys_iff.1 hps
    have hop : ordPair p.1 p.2 = p := ordPair_of_lt hlt
    have hget : sub.getEdge p.1 p.2 = some i := by
      unfold getEdge; rw [hop]; exact hi
    unfold treeGraph
    simp only [hget]
    have hne : p.1 ≠ p.2 := by omega
    have hedges := addEdge_edges g hne i
    rw [hop] at hedges
    obtain ⟨hpnot, hnd'⟩ := List.nodup_cons.1 hnd
    have hkeys : (g.addEdge p.1 p.2 i).edges.keys.length = g.edges.keys.length + 1 := by
      unfold addEdge
      rw [if_neg hne]
      simp only
      rw [hop, AMap.keys_insert, if_neg (hnew p (List.mem_cons_self ..))]
      simp
    obtain ⟨t, t1, t2, t3, t4, t5⟩ := ih (g.addEdge p.1 p.2 i) (inv_addEdge h _ _ _)
      (fun q hq => hk q (List.mem_cons_of_mem _ hq)) hnd' (by
        intro q hq hqk
        obtain ⟨x, hx⟩ := AMap.mem_keys_iff.1 hqk
        rw [hedges, if_neg (by rintro rfl; exact hpnot hq)] at hx
        exact hnew q (List.mem_cons_of_mem _ hq) (AMap.mem_keys_iff.2 ⟨x, hx⟩))
    refine ⟨t, t1, t2, ?_, ?_, ?_⟩
    · intro q
      rw [t3, hedges]
      by_cases hq : q = p
      · subst hq
        simp [hpnot, hi]
      · simp [hq]
    · intro v
      rw [t4]
      have : v ∈ (g.addEdge p.1 p.2 i).vertices.keys ↔ v ∈ g.vertices.keys ∨ p.1 = v ∨ p.2 = v := by
        rw [AMap.mem_keys_iff, addEdge_vertices g hne i v]
        by_cases h2 : v = p.2
        · rw [if_pos h2]; simp [h2]
        · by_cases h1 : v = p.1
          · rw [if_neg h2, if_pos h1]; simp [h1]
          · rw [if_neg h2, if_neg h1, ← AMap.mem_keys_iff]
            constructor
            · exact Or.inl
            · rintro (h | h | h)
              · exact h
              · exact absurd h.symm h1
              · exact absurd h.symm h2
      rw [this]
      simp only [List.mem_cons, exists_eq_or_imp, or_assoc]
    · rw [t5, hkeys]
      simp only [List.length_cons]
      omega

end TreeOrientations
end Theia
