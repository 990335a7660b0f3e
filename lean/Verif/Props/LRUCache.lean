import Verif.Proof.LRUCache

/-!
# C17: the LRU cache
-/

namespace Theia

open Spec LRU

variable {K V : Type} [DecidableEq K]

/-- The work for C17: refinement, from any state reflecting a history. -/
theorem lru_refines (m : Nat) (hm : 0 < m) (f : K → V) (ops : List (LRU.Op K V))
    (uses : List (K × V)) (c : LRU K V) (h : Reflects m uses c) :
    (lruRun m f uses ops = none → LRU.run f c ops = .abort) ∧
    (∀ rs uses', lruRun m f uses ops = some (rs, uses') → ∃ c', LRU.run f c ops = .ok (rs, c') ∧
      Reflects m uses' c' ∧
      c'.misses = c.misses + (rs.map (fun r => r.2.length)).sum ∧
      c'.misses + c'.hits + (rs.filter (fun r => r.1.isNone)).length = c.misses + c.hits + rs.length) := by
  induction ops generalizing uses c with
  | nil =>
    refine ⟨by simp [lruRun], ?_⟩
    intro rs uses' he
    simp only [lruRun, Option.some.injEq, Prod.mk.injEq] at he
    obtain ⟨rfl, rfl⟩ := he
    exact ⟨c, rfl, h, by simp, by simp⟩
  | cons op ops ih =>
    cases op with
    | fetch k =>
      by_cases hk : k ∈ recent m uses
      · obtain ⟨v, c1, hlv, he, hR, hmi, hhi⟩ := (fetch_spec hm f h k).1 hk
        obtain ⟨i1, i2⟩ := ih _ c1 hR
        simp only [lruRun, if_pos hk, hlv, LRU.run, he]
        constructor
        · intro hnone
          rw [Option.map_eq_none_iff] at hnone
          rw [i1 hnone]
        · intro rs uses' hs
          rw [Option.map_eq_some_iff] at hs
          obtain ⟨x, hx, hx'⟩ := hs
          cases hx'
          obtain ⟨c', e', r', m', n'⟩ := i2 _ _ hx
          refine ⟨c', by rw [e'], r', ?_, ?_⟩
          · simp only [List.map_cons, List.sum_cons, List.length_nil]; omega
          · simp only [List.filter_cons, Option.isNone_some, List.length_cons]
            simp only [Bool.false_eq_true, if_false]; omega
      · obtain ⟨c1, he, hR, hmi, hhi⟩ := (fetch_spec hm f h k).2 hk
        obtain ⟨i1, i2⟩ := ih _ c1 hR
        simp only [lruRun, if_neg hk, LRU.run, he]
        constructor
        · intro hnone
          rw [Option.map_eq_none_iff] at hnone
          rw [i1 hnone]
        · intro rs uses' hs
          rw [Option.map_eq_some_iff] at hs
          obtain ⟨x, hx, hx'⟩ := hs
          cases hx'
          obtain ⟨c', e', r', m', n'⟩ := i2 _ _ hx
          refine ⟨c', by rw [e'], r', ?_, ?_⟩
          · simp only [List.map_cons, List.sum_cons, List.length_cons, List.length_nil]; omega
          · simp only [List.filter_cons, Option.isNone_some, List.length_cons]
            simp only [Bool.false_eq_true, if_false]; omega
    | insert k v =>
      by_cases hk : k ∈ recent m uses
      · simp only [lruRun, if_pos hk, LRU.run]
        constructor
        · intro _
          have : c.insertIntoCache k v = .abort := by
            unfold insertIntoCache
            rw [if_pos (by simpa using (h.keys k).2 hk)]
          rw [this]
        · intro rs uses' hs; cases hs
      · obtain ⟨c1, he, hR, hmi, hhi⟩ := insert_spec hm h k v hk
        obtain ⟨i1, i2⟩ := ih _ c1 hR
        simp only [lruRun, if_neg hk, LRU.run, he]
        constructor
        · intro hnone
          rw [Option.map_eq_none_iff] at hnone
          rw [i1 hnone]
        · intro rs uses' hs
          rw [Option.map_eq_some_iff] at hs
          obtain ⟨x, hx, hx'⟩ := hs
          cases hx'
          obtain ⟨c', e', r', m', n'⟩ := i2 _ _ hx
          refine ⟨c', by rw [e'], r', ?_, ?_⟩
          · simp only [List.map_cons, List.sum_cons, List.length_nil]; omega
          · simp only [List.filter_cons, Option.isNone_none, List.length_cons]
            simp only [if_true, List.length_cons]; omega

theorem reflects_empty (m : Nat) : Reflects m ([] : List (K × V)) ⟨m, [], .empty, 0, 0⟩ :=
  ⟨rfl, by simp [recent], by simp, by simp [recent], by simp [recent, AMap.size, AMap.empty],
    by simp [recent]⟩

/-- C17: from a new cache of capacity `m`, any sequence of `Fetch` and `Insert` calls behaves as the
history-based description says: same returned values, same calls of the entry function, and an abort
exactly when a key that is among the `m` most recently used ones is inserted. Afterwards the cache
holds exactly the `m` most recently used keys, at most `m`; the miss counter is the number of calls
of the entry function and misses and hits add up to the number of fetches. -/
theorem C17_cache_refines_history (m : Nat) (hm : 0 < m) (f : K → V) (ops : List (LRU.Op K V)) :
    ∃ c, LRU.create m = .ok c ∧
    match lruRun m f [] ops with
    | none => LRU.run f c ops = .abort
    | some (rs, uses) => ∃ c', LRU.run f c ops = .ok (rs, c') ∧
        (∀ k, c'.exists_ k = true ↔ k ∈ recent m uses) ∧ c'.map.size ≤ m ∧
        c'.misses = (rs.map (fun r => r.2.length)).sum ∧
        c'.misses + c'.hits + (rs.filter (fun r => r.1.isNone)).length = rs.length := by
  refine ⟨⟨m, [], .empty, 0, 0⟩, by simp [LRU.create, hm], ?_⟩
  obtain ⟨h1, h2⟩ := lru_refines m hm f ops [] ⟨m, [], .empty, 0, 0⟩ (reflects_empty m)
  cases hs : lruRun m f [] ops with
  | none => exact h1 hs
  | some x =>
    obtain ⟨c', e, hR, hmi, hhi⟩ := h2 x.1 x.2 hs
    refine ⟨c', e, ?_, ?_, by simpa using hmi, by simpa using hhi⟩
    · intro k; unfold LRU.exists_; rw [AMap.contains_iff]; exact hR.keys k
    · rw [hR.size]; exact recent_length_le _ _

/-- The description, for fetches only: it never fails, every fetch returns `f` of its key, and each call of
the entry function is on the fetched key. -/
theorem lruRun_fetches (m : Nat) (f : K → V) (ks : List K) (uses : List (K × V))
    (hu : ∀ u ∈ uses, u.2 = f u.1) :
    ∃ rs uses', lruRun m f uses (ks.map LRU.Op.fetch) = some (rs, uses') ∧
      rs.map (·.1) = ks.map (fun k => some (f k)) ∧ uses' = uses ++ ks.map (fun k => (k, f k)) := by
  induction ks generalizing uses with
  | nil => exact ⟨[], uses, rfl, rfl, by simp⟩
  | cons k ks ih =>
    have hu' : ∀ u ∈ uses ++ [(k, f k)], u.2 = f u.1 := by
      intro u h
      rcases List.mem_append.1 h with h | h
      · exact hu u h
      · rw [List.mem_singleton.1 h]
    obtain ⟨rs, uses', he, h1, h2⟩ := ih _ hu'
    simp only [List.map_cons, lruRun]
    by_cases hk : k ∈ recent m uses
    · have hlv : lastValue uses k = some (f k) := by
        have hmem : k ∈ uses.map (·.1) := by
          unfold recent at hk
          exact List.mem_dedup.1 (List.mem_of_mem_drop hk)
        obtain ⟨u, hu1, hu2⟩ := List.mem_map.1 hmem
        unfold lastValue
        cases hf : uses.reverse.find? (fun u => decide (u.1 = k)) with
        | none =>
          rw [List.find?_eq_none] at hf
          exact absurd hu2 (by simpa using hf u (by simpa using hu1))
        | some w =>
          have hw1 := List.find?_some hf
          have hw2 := List.mem_of_find?_eq_some hf
          simp only [decide_eq_true_eq] at hw1
          rw [Option.map_some, hu w (by simpa using hw2), hw1]
      rw [if_pos hk, hlv]
      simp only [he, Option.map_some]
      exact ⟨_, _, rfl, by simp [h1], by simp [h2]⟩
    · rw [if_neg hk, he]
      simp only [Option.map_some]
      exact ⟨_, _, rfl, by simp [h1], by simp [h2]⟩

/-- C17, transparency: with fetches only, the calls never abort, every fetch returns the value of the
entry function, and the cache afterwards holds exactly the `m` most recently fetched keys. -/
theorem C17_fetches_transparent (m : Nat) (hm : 0 < m) (f : K → V) (ks : List K) :
    ∃ c c' rs, LRU.create m = .ok c ∧ LRU.run f c (ks.map LRU.Op.fetch) = .ok (rs, c') ∧
      rs.map (·.1) = ks.map (fun k => some (f k)) ∧
      (∀ k, c'.exists_ k = true ↔ k ∈ ks.dedup.drop (ks.dedup.length - m)) ∧ c'.map.size ≤ m := by
  obtain ⟨rs, uses', he, h1, h2⟩ := lruRun_fetches m f ks [] (by simp)
  obtain ⟨c, hc, hrun⟩ := C17_cache_refines_history m hm f (ks.map LRU.Op.fetch)
  rw [he] at hrun
  obtain ⟨c', e, hex, hsz, _⟩ := hrun
  refine ⟨c, c', rs, hc, e, h1, ?_, hsz⟩
  intro k
  rw [hex, h2]
  simp [recent, Function.comp_def]

/-- A cache of capacity two: the third key evicts the least recently *used* one. -/
example : (LRU.run (fun k : Nat => k * 10) ⟨2, [], .empty, 0, 0⟩
    [.fetch 1, .fetch 2, .fetch 1, .fetch 3, .fetch 1, .fetch 2]).bind
      (fun x => .ok (x.1.map (·.2), x.2.list, x.2.misses, x.2.hits)) =
    .ok ([[1], [2], [], [3], [], [2]], [1, 2], 4, 2) := by decide

end Theia
