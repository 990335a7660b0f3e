import Verif.Proof.ConnectedComponents

/-! # Properties C12 and C13: connected components -/

namespace Theia
open CC Spec

variable {T : Type} [DecidableEq T]

/-- **C12.** As long as the graph has at most `limit` nodes (the default limit is the largest value
of the node type), no call aborts, two nodes are reported to be in the same component iff both
occur in an edge and a path of added edges joins them, and `Extract` returns a partition of the
nodes into exactly the classes of connected nodes. -/
theorem C12_components_are_connectivity (limit : Nat) (hlim : 0 < limit) (ops : List (Op T))
    (nodes : List T) (hlen : nodes.length ≤ limit) (hnodes : ∀ x, IsNode (edgesOf ops) x → x ∈ nodes) :
    ∃ c0 c, create limit = .ok c0 ∧ run c0 ops = .ok c ∧
      (∀ a b, ∃ ans c', c.nodesInSame a b = .ok (ans, c') ∧
        (ans = true ↔ IsNode (edgesOf ops) a ∧ IsNode (edgesOf ops) b ∧ Connected (edgesOf ops) a b)) ∧
      ∃ out c', c.extract = .ok (out, c') ∧ out.keys.Nodup ∧
        (∀ x, IsNode (edgesOf ops) x ↔ ∃ r l, out.get r = some l ∧ x ∈ l) ∧
        (∀ r l, out.get r = some l → l.Nodup ∧ r ∈ l ∧ ∀ x ∈ l, ∀ y, y ∈ l ↔ Connected (edgesOf ops) x y) ∧
        (∀ r l r' l' x, out.get r = some l → out.get r' = some l' → x ∈ l → x ∈ l' → r = r') := by
  obtain ⟨c, rep, depth, he, hs, hcomp⟩ := state_complete hlim (state_empty (T := T) limit)
    (by simp) ops nodes hlen (by simpa using hnodes)
  simp only [List.nil_append] at hs hcomp
  have hconn : ∀ x y, rep x = rep y ↔ Connected (edgesOf ops) x y := by
    intro x y
    refine ⟨hs.conn x y, ?_⟩
    exact fun h => Connected.le (R := fun x y => rep x = rep y) (fun _ => rfl) (fun h => h.symm)
      (fun h h' => h.trans h') hcomp h
  refine ⟨⟨limit, .empty⟩, c, by simp [create, hlim], he, ?_, ?_⟩
  · intro a b
    obtain ⟨c', e, _⟩ := nodesInSame_spec c hs.forest a b
    exact ⟨_, c', e, by simp [hs.keys, hconn]⟩
  · obtain ⟨out, c', e, _, _, _, hcol⟩ := extract_spec c hs.forest
    refine ⟨out, c', e, hcol.1, ?_, ?_, ?_⟩
    · intro x
      rw [← hs.keys]
      constructor
      · intro hx
        have hk : rep x ∈ out.keys := (hcol.2.1 _).2 ⟨x, hx, rfl⟩
        obtain ⟨l, hl⟩ := AMap.mem_keys_iff.1 hk
        refine ⟨rep x, l, hl, ?_⟩
        rw [hcol.2.2 _ _ hl]
        simp [hx]
      · rintro ⟨r, l, hl, hx⟩
        rw [hcol.2.2 _ _ hl] at hx
        simp only [List.mem_filter] at hx
        exact hx.1
    · intro r l hl
      have hr := (hcol.2.1 r).1 (AMap.mem_keys_iff.2 ⟨l, hl⟩)
      obtain ⟨z, hz, rfl⟩ := hr
      have := hcol.2.2 _ _ hl
      subst this
      refine ⟨hs.forest.wf.sublist List.filter_sublist, ?_, ?_⟩
      · simp [hs.forest.rep_mem hz, hs.forest.rep_rep]
      · intro x hx y
        simp only [List.mem_filter, decide_eq_true_eq] at hx ⊢
        rw [← hconn]
        constructor
        · rintro ⟨_, h⟩; rw [hx.2, h]
        · intro h
          refine ⟨?_, by rw [← h, hx.2]⟩
          apply Classical.byContradiction
          intro hy
          have := (hs.forest.out y hy).1
          rw [this] at h
          exact hy (h ▸ hs.forest.rep_mem hx.1)
    · intro r l r' l' x hl hl' hx hx'
      rw [hcol.2.2 _ _ hl] at hx
      rw [hcol.2.2 _ _ hl'] at hx'
      simp only [List.mem_filter, decide_eq_true_eq] at hx hx'
      exact hx.2.symm.trans hx'.2

example : ∃ c, run (⟨5, .empty⟩ : CC Nat) [.addEdge 1 2, .addEdge 3 4, .query 1 4, .addEdge 2 4] = .ok c ∧
    ∃ c', c.nodesInSame 1 3 = .ok (true, c') := ⟨_, rfl, _, rfl⟩

/-- **C13.** With limit `m`, after any history no call aborts, every component returned has at most
`m` nodes, any two of them connected by added edges that stay inside the component, and every node
of an added edge is in exactly one component. -/
theorem C13_size_limit_respected (m : Nat) (hm : 0 < m) (ops : List (Op T)) :
    ∃ c0 c, create m = .ok c0 ∧ run c0 ops = .ok c ∧ ∃ out c', c.extract = .ok (out, c') ∧
      (∀ r l, out.get r = some l → l.length ≤ m ∧ l.Nodup ∧ r ∈ l ∧
        ∀ x ∈ l, ∀ y ∈ l, Connected ((edgesOf ops).filter (fun e => decide (e.1 ∈ l ∧ e.2 ∈ l))) x y) ∧
      (∀ x, IsNode (edgesOf ops) x ↔ ∃ r l, out.get r = some l ∧ x ∈ l) ∧
      (∀ r l r' l' x, out.get r = some l → out.get r' = some l' → x ∈ l → x ∈ l' → r = r') := by
  obtain ⟨c, rep, depth, he, hs⟩ := state_run hm (state_empty (T := T) m) ops
  simp only [List.nil_append] at hs
  obtain ⟨out, c', e, _, _, _, hcol⟩ := extract_spec c hs.forest
  refine ⟨⟨m, .empty⟩, c, by simp [create, hm], he, out, c', e, ?_, ?_, ?_⟩
  · intro r l hl
    obtain ⟨z, hz, rfl⟩ := (hcol.2.1 r).1 (AMap.mem_keys_iff.2 ⟨l, hl⟩)
    have := hcol.2.2 _ _ hl
    subst this
    refine ⟨hs.cap z hz, hs.forest.wf.sublist List.filter_sublist, ?_, ?_⟩
    · simp [hs.forest.rep_mem hz, hs.forest.rep_rep]
    · intro x hx y hy
      have hx' := List.mem_filter.1 hx
      have hy' := List.mem_filter.1 hy
      simp only [decide_eq_true_eq] at hx' hy'
      have hin := hs.connIn x y (hx'.2.trans hy'.2.symm)
      generalize hl' : c.set.keys.filter (fun x => decide (rep x = rep z)) = l at hx hy
      have hml : ∀ w, w ∈ l ↔ w ∈ c.set.keys ∧ rep w = rep z := by
        intro w; rw [← hl', List.mem_filter, decide_eq_true_eq]
      have key : ∀ w, Connected ((edgesOf ops).filter (fun e => decide (rep e.1 = rep e.2))) x w →
          rep w = rep x ∧
            Connected ((edgesOf ops).filter (fun e => decide (e.1 ∈ l ∧ e.2 ∈ l))) x w := by
        intro w hw
        induction hw with
        | refl => exact ⟨rfl, .refl⟩
        | step _ hadj ih =>
          rcases hadj with hadj | hadj
          all_goals
            have hm := List.mem_filter.1 hadj
            simp only [decide_eq_true_eq] at hm
            have k1 := (hs.keys _).2 ⟨_, hm.1, Or.inl rfl⟩
            have k2 := (hs.keys _).2 ⟨_, hm.1, Or.inr rfl⟩
          · have e2 := hm.2.symm.trans ih.1
            refine ⟨e2, ih.2.step (Or.inl (List.mem_filter.2 ⟨hm.1, ?_⟩))⟩
            simp only [decide_eq_true_eq, hml]
            exact ⟨⟨k1, ih.1.trans hx'.2⟩, k2, e2.trans hx'.2⟩
          · have e2 := hm.2.trans ih.1
            refine ⟨e2, ih.2.step (Or.inr (List.mem_filter.2 ⟨hm.1, ?_⟩))⟩
            simp only [decide_eq_true_eq, hml]
            exact ⟨⟨k1, e2.trans hx'.2⟩, k2, ih.1.trans hx'.2⟩
      exact (key y hin).2
  · intro x
    rw [← hs.keys]
    constructor
    · intro hx
      obtain ⟨l, hl⟩ := AMap.mem_keys_iff.1 ((hcol.2.1 _).2 ⟨x, hx, rfl⟩)
      refine ⟨rep x, l, hl, ?_⟩
      rw [hcol.2.2 _ _ hl]
      simp [hx]
    · rintro ⟨r, l, hl, hx⟩
      rw [hcol.2.2 _ _ hl] at hx
      simp only [List.mem_filter] at hx
      exact hx.1
  · intro r l r' l' x hl hl' hx hx'
    rw [hcol.2.2 _ _ hl] at hx
    rw [hcol.2.2 _ _ hl'] at hx'
    simp only [List.mem_filter, decide_eq_true_eq] at hx hx'
    exact hx.2.symm.trans hx'.2

/-- **C13.** Immediately after `AddEdge(a, b)`, `a` and `b` are in different components only if
those two components together would exceed the limit. -/
theorem C13_refused_only_when_too_large (m : Nat) (hm : 0 < m) (ops : List (Op T)) (a b : T) :
    ∃ c out c', run (⟨m, .empty⟩ : CC T) (ops ++ [.addEdge a b]) = .ok c ∧ c.extract = .ok (out, c') ∧
      ∀ ra la rb lb, out.get ra = some la → a ∈ la → out.get rb = some lb → b ∈ lb →
        ra = rb ∨ m < la.length + lb.length := by
  obtain ⟨c1, rep, depth, he, hs⟩ := state_run hm (state_empty (T := T) m) ops
  obtain ⟨c, rep', depth', he', hs', _, hor⟩ := state_addEdge hm hs a b
  obtain ⟨out, c', e, _, _, _, hcol⟩ := extract_spec c hs'.forest
  refine ⟨c, out, c', ?_, e, ?_⟩
  · have : ∀ (c0 : CC T) (xs ys : List (Op T)), run c0 (xs ++ ys) = (run c0 xs).bind fun c => run c ys := by
      intro c0 xs ys
      induction xs generalizing c0 with
      | nil => rfl
      | cons op xs ih =>
        simp only [List.cons_append, run]
        cases hst : c0.step op with
        | ok c1 => simp only [Outcome.bind]; exact ih c1
        | abort => rfl
        | ub => rfl
    rw [this, he]
    simp [run, step, he', Outcome.bind]
  · intro ra la rb lb hla ha hlb hb
    rw [hcol.2.2 _ _ hla] at ha
    rw [hcol.2.2 _ _ hlb] at hb
    simp only [List.mem_filter, decide_eq_true_eq] at ha hb
    rcases hor with h | h
    · left; rw [← ha.2, ← hb.2, h]
    · right
      rw [hcol.2.2 _ _ hla, hcol.2.2 _ _ hlb, ← ha.2, ← hb.2]
      exact h

/-- **C13.** Components are never split: nodes once reported together stay together under all
further calls. -/
theorem C13_components_only_grow (m : Nat) (hm : 0 < m) (ops more : List (Op T)) (a b : T)
    (c c1 : CC T) (h : run (⟨m, .empty⟩ : CC T) ops = .ok c) (hq : c.nodesInSame a b = .ok (true, c1)) :
    ∃ c2 c3, run c more = .ok c2 ∧ c2.nodesInSame a b = .ok (true, c3) := by
  obtain ⟨c', rep, depth, he, hs⟩ := state_run hm (state_empty (T := T) m) ops
  rw [h] at he; cases he
  obtain ⟨c4, e, _⟩ := nodesInSame_spec c hs.forest a b
  rw [hq] at e
  injection e with e
  injection e with e _
  have e := of_decide_eq_true e.symm
  have key : ∀ (more : List (Op T)) (E : List (T × T)) (c : CC T) (rep : T → T) (depth : T → Nat),
      State m E c rep depth → (a ∈ c.set.keys ∧ b ∈ c.set.keys ∧ rep a = rep b) →
      ∃ c2 E' rep' depth', run c more = .ok c2 ∧ State m E' c2 rep' depth' ∧
        (a ∈ c2.set.keys ∧ b ∈ c2.set.keys ∧ rep' a = rep' b) := by
    intro more
    induction more with
    | nil => intro E c rep depth hs hh; exact ⟨c, E, rep, depth, rfl, hs, hh⟩
    | cons op more ih =>
      intro E c rep depth hs hh
      obtain ⟨c1, r1, d1, e1, s1, k1⟩ := state_step hm hs op
      have hka : ∀ x, x ∈ c.set.keys → x ∈ c1.set.keys := by
        intro x hx
        rw [s1.keys, isNode_append]
        exact Or.inl ((hs.keys x).1 hx)
      obtain ⟨c2, E', r2, d2, e2, s2, k2⟩ := ih _ c1 r1 d1 s1
        ⟨hka a hh.1, hka b hh.2.1, k1 _ _ hh.2.2⟩
      exact ⟨c2, E', r2, d2, by simp [run, e1, Outcome.bind, e2], s2, k2⟩
  obtain ⟨c2, E', rep', depth', e2, s2, k2⟩ := key more _ c rep depth hs e
  obtain ⟨c3, e3, _⟩ := nodesInSame_spec c2 s2.forest a b
  exact ⟨c2, c3, e2, by rw [e3]; simp [k2]⟩

/-- With limit 3 the edge (2,3) between two pairs is refused. -/
example : ∃ c out c', run (⟨3, .empty⟩ : CC Nat) [.addEdge 1 2, .addEdge 3 4, .addEdge 2 3] = .ok c ∧
    c.extract = .ok (out, c') ∧ out = ⟨[(1, [1, 2]), (3, [3, 4])]⟩ := ⟨_, _, _, rfl, rfl, rfl⟩

end Theia
