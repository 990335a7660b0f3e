import Verif.Spec.LRUCache

/-! # Lemmas on the LRU cache -/

namespace Theia
namespace LRU

open Spec

variable {K V : Type} [DecidableEq K]

theorem dedup_append_singleton (l : List K) (k : K) :
    (l ++ [k]).dedup = l.dedup.filter (fun x => decide (x ≠ k)) ++ [k] := by
  induction l with
  | nil => simp
  | cons a l ih =>
    rw [List.cons_append]
    by_cases ha : a ∈ l
    · rw [List.dedup_cons_of_mem (by simp [ha]), List.dedup_cons_of_mem ha, ih]
    · by_cases hak : a = k
      · rw [List.dedup_cons_of_mem (by simp [hak]), List.dedup_cons_of_notMem ha, ih,
          List.filter_cons_of_neg (by simpa using hak)]
      · rw [List.dedup_cons_of_notMem (by simp [ha, hak]), List.dedup_cons_of_notMem ha, ih,
          List.filter_cons_of_pos (by simpa using hak), List.cons_append]

theorem filter_ne_eq_self {l : List K} {k : K} (h : k ∉ l) :
    l.filter (fun x => decide (x ≠ k)) = l := by
  rw [List.filter_eq_self]
  intro a ha
  simp only [decide_eq_true_eq]
  exact fun e => h (e ▸ ha)

theorem length_filter_ne {l : List K} (hn : l.Nodup) {k : K} (h : k ∈ l) :
    (l.filter (fun x => decide (x ≠ k))).length + 1 = l.length := by
  induction l with
  | nil => simp at h
  | cons a l ih =>
    rw [List.nodup_cons] at hn
    by_cases hak : a = k
    · subst hak
      rw [List.filter_cons_of_neg (by simp), filter_ne_eq_self hn.1, List.length_cons]
    · rw [List.filter_cons_of_pos (by simpa using hak), List.length_cons, List.length_cons,
        ih hn.2 (by rcases List.mem_cons.1 h with h | h; exact absurd h.symm hak; exact h)]

theorem recent_nodup (m : Nat) (uses : List (K × V)) : (recent m uses).Nodup := by
  unfold recent
  exact (List.nodup_dedup _).sublist (List.drop_sublist _ _)

theorem recent_length_le (m : Nat) (uses : List (K × V)) : (recent m uses).length ≤ m := by
  unfold recent
  simp only [List.length_drop]
  omega

/-- A repeated use moves the key to the end. -/
theorem recent_hit (m : Nat) (uses : List (K × V)) (k : K) (v : V) (h : k ∈ recent m uses) :
    recent m (uses ++ [(k, v)]) = (recent m uses).filter (fun x => decide (x ≠ k)) ++ [k] := by
  unfold recent at *
  simp only [List.map_append, List.map_cons, List.map_nil, dedup_append_singleton] at *
  generalize hl : (uses.map (·.1)).dedup = l at *
  have hn : l.Nodup := hl ▸ List.nodup_dedup _
  have hsplit := List.take_append_drop (l.length - m) l
  have hn' := hn
  rw [← hsplit, List.nodup_append] at hn'
  have hk1 : k ∉ l.take (l.length - m) := fun hk => hn'.2.2 k hk k h rfl
  have hf : l.filter (fun x => decide (x ≠ k)) =
      l.take (l.length - m) ++ (l.drop (l.length - m)).filter (fun x => decide (x ≠ k)) := by
    conv => lhs; rw [← hsplit]
    rw [List.filter_append, filter_ne_eq_self hk1]
  have hlen := length_filter_ne hn'.2.1 h
  have hlt := List.length_take (i := l.length - m) (l := l)
  have hld := List.length_drop (i := l.length - m) (l := l)
  rw [hf, List.append_assoc]
  have : (l.take (l.length - m) ++ ((l.drop (l.length - m)).filter (fun x => decide (x ≠ k)) ++ [k])).length
      - m = (l.take (l.length - m)).length := by
    simp only [List.length_append, List.length_singleton]
    omega
  rw [this, List.drop_left']
  rfl

/-- A new key is put at the end; the oldest leaves if `m` keys were present. -/
theorem recent_miss (m : Nat) (hm : 0 < m) (uses : List (K × V)) (k : K) (v : V)
    (h : k ∉ recent m uses) :
    recent m (uses ++ [(k, v)]) =
      (if (recent m uses).length = m then (recent m uses).drop 1 else recent m uses) ++ [k] := by
  unfold recent at *
  simp only [List.map_append, List.map_cons, List.map_nil, dedup_append_singleton] at *
  generalize hl : (uses.map (·.1)).dedup = l at *
  have hn : l.Nodup := hl ▸ List.nodup_dedup _
  have hld := List.length_drop (i := l.length - m) (l := l)
  have hsplit := List.take_append_drop (l.length - m) l
  have hf : l.filter (fun x => decide (x ≠ k)) =
      (l.take (l.length - m)).filter (fun x => decide (x ≠ k)) ++ l.drop (l.length - m) := by
    conv => lhs; rw [← hsplit]
    rw [List.filter_append, filter_ne_eq_self h]
  rw [hf]
  generalize hA : (l.take (l.length - m)).filter (fun x => decide (x ≠ k)) = A
  generalize hB : l.drop (l.length - m) = B at *
  by_cases hfull : B.length = m
  · rw [if_pos hfull]
    cases B with
    | nil => simp at hfull; omega
    | cons b B =>
      simp only [List.length_cons] at hfull
      have : (A ++ b :: B ++ [k]).length - m = (A ++ [b]).length := by
        simp only [List.length_append, List.length_cons, List.length_nil]; omega
      rw [this]
      have e : A ++ b :: B ++ [k] = (A ++ [b]) ++ (B ++ [k]) := by simp
      rw [e, List.drop_left']
      · simp
      · rfl
  · rw [if_neg hfull]
    have hA0 : A = [] := by
      have : l.length - m = 0 := by omega
      rw [← hA, this]; simp
    subst hA0
    have hBm : B.length < m := by omega
    rw [List.nil_append]
    have : (B ++ [k]).length - m = 0 := by
      simp only [List.length_append, List.length_singleton]; omega
    rw [this, List.drop_zero]

theorem lastValue_append (uses : List (K × V)) (k k' : K) (v : V) :
    lastValue (uses ++ [(k, v)]) k' = if k = k' then some v else lastValue uses k' := by
  unfold lastValue
  rw [List.reverse_append]
  simp only [List.reverse_cons, List.reverse_nil, List.nil_append, List.singleton_append,
    List.find?_cons]
  by_cases h : k = k'
  · simp [h]
  · simp [h]

/-- The cache reflects the history. -/
structure Reflects (m : Nat) (uses : List (K × V)) (c : LRU K V) : Prop where
  max : c.max = m
  list : c.list = recent m uses
  wf : c.map.WF
  keys : ∀ k, k ∈ c.map.keys ↔ k ∈ recent m uses
  size : c.map.size = (recent m uses).length
  value : ∀ k ∈ recent m uses, c.map.get k = lastValue uses k

omit [DecidableEq K] in
theorem keys_length_of (l : List K) (hl : l.Nodup) (m : AMap K V) (hw : m.WF)
    (h : ∀ k, k ∈ m.keys ↔ k ∈ l) : m.size = l.length := by
  rw [AMap.size_eq_length_keys]
  apply Nat.le_antisymm
  · exact List.Nodup.length_le_of_subset hw (fun k hk => (h k).1 hk)
  · exact List.Nodup.length_le_of_subset hl (fun k hk => (h k).2 hk)

theorem insert_spec {m : Nat} (hm : 0 < m) {uses : List (K × V)} {c : LRU K V}
    (h : Reflects m uses c) (k : K) (v : V) (hk : k ∉ recent m uses) :
    ∃ c', c.insertIntoCache k v = .ok c' ∧ Reflects m (uses ++ [(k, v)]) c' ∧
      c'.misses = c.misses ∧ c'.hits = c.hits := by
  have hkm : k ∉ c.map.keys := fun hh => hk ((h.keys k).1 hh)
  unfold insertIntoCache
  rw [if_neg (by simpa using hkm)]
  have hr := recent_miss m hm uses k v hk
  have hnd := recent_nodup m (uses ++ [(k, v)])
  by_cases hfull : c.map.size = c.max
  · rw [if_pos hfull]
    have hlen : (recent m uses).length = m := by rw [← h.size, hfull, h.max]
    rw [if_pos hlen] at hr
    cases hrec : recent m uses with
    | nil => rw [hrec] at hlen; simp at hlen; omega
    | cons b rest =>
      have hcl : c.list = b :: rest := by rw [h.list, hrec]
      have hev : c.evict = .ok { c with list := rest, map := c.map.erase b } := by
        unfold evict
        rw [if_pos ⟨by simp [hcl], by rw [hfull, h.max]; exact hm⟩]
        simp [hcl]
      simp only [hev]
      rw [hrec] at hr
      simp only [List.drop_succ_cons, List.drop_zero] at hr
      have hbn : b ∉ rest := by
        have := recent_nodup m uses
        rw [hrec, List.nodup_cons] at this
        exact this.1
      have hkb : k ≠ b := by rintro rfl; exact hk (by rw [hrec]; simp)
      have hke : k ∉ (c.map.erase b).keys := by
        rw [AMap.mem_keys_erase]; exact fun hh => hkm (by tauto)
      have hkeys : ∀ x, x ∈ ((c.map.erase b).emplace k v).keys ↔
          x ∈ recent m (uses ++ [(k, v)]) := by
        intro x
        rw [AMap.mem_keys_emplace, AMap.mem_keys_erase, h.keys, hr, hrec]
        simp only [List.mem_cons, List.mem_append, List.not_mem_nil, or_false]
        constructor
        · rintro (rfl | h)
          · exact Or.inr rfl
          · left
            rcases h with ⟨h1, h2⟩
            tauto
        · rintro (h | rfl)
          · right
            have : x ≠ b := by rintro rfl; exact hbn h
            tauto
          · exact Or.inl rfl
      refine ⟨_, rfl, ⟨h.max, ?_, AMap.wf_emplace (AMap.wf_erase h.wf _) _ _, hkeys, ?_, ?_⟩, rfl, rfl⟩
      · simp only [hr]
      · exact keys_length_of _ hnd _ (AMap.wf_emplace (AMap.wf_erase h.wf _) _ _) hkeys
      · intro x hx
        rw [lastValue_append]
        simp only
        rw [AMap.emplace_eq_insert hke, AMap.get_insert]
        by_cases hxk : x = k
        · subst hxk; simp
        · rw [if_neg hxk, if_neg (fun e => hxk e.symm), AMap.get_erase]
          rw [hr] at hx
          have hx' : x ∈ rest := by simpa [hxk] using hx
          have hxb : x ≠ b := by rintro rfl; exact hbn hx'
          rw [if_neg hxb]
          exact h.value x (by rw [hrec]; simp [hx'])
  · rw [if_neg hfull]
    have hlen : (recent m uses).length ≠ m := by rw [← h.size, ← h.max]; exact hfull
    rw [if_neg hlen] at hr
    have hkeys : ∀ x, x ∈ (c.map.emplace k v).keys ↔ x ∈ recent m (uses ++ [(k, v)]) := by
      intro x
      rw [AMap.mem_keys_emplace, h.keys, hr]
      simp only [List.mem_append, List.mem_singleton]
      exact or_comm
    refine ⟨_, rfl, ⟨h.max, by simp only [h.list, hr], AMap.wf_emplace h.wf _ _, hkeys, ?_, ?_⟩, rfl, rfl⟩
    · exact keys_length_of _ hnd _ (AMap.wf_emplace h.wf _ _) hkeys
    · intro x hx
      rw [lastValue_append]
      simp only
      rw [AMap.emplace_eq_insert hkm, AMap.get_insert]
      by_cases hxk : x = k
      · subst hxk; simp
      · rw [if_neg hxk, if_neg (fun e => hxk e.symm)]
        rw [hr] at hx
        exact h.value x (by simpa [hxk] using hx)

theorem fetch_spec {m : Nat} (hm : 0 < m) (f : K → V) {uses : List (K × V)} {c : LRU K V}
    (h : Reflects m uses c) (k : K) :
    (k ∈ recent m uses → ∃ v c', lastValue uses k = some v ∧ c.fetch f k = .ok (v, [], c') ∧
      Reflects m (uses ++ [(k, v)]) c' ∧ c'.misses = c.misses ∧ c'.hits = c.hits + 1) ∧
    (k ∉ recent m uses → ∃ c', c.fetch f k = .ok (f k, [k], c') ∧
      Reflects m (uses ++ [(k, f k)]) c' ∧ c'.misses = c.misses + 1 ∧ c'.hits = c.hits) := by
  constructor
  · intro hk
    obtain ⟨v, hv⟩ := AMap.mem_keys_iff.1 ((h.keys k).2 hk)
    have hlv : lastValue uses k = some v := by rw [← h.value k hk]; exact hv
    have hr := recent_hit m uses k v hk
    unfold fetch
    simp only [hv]
    rw [if_pos (by rw [h.list]; exact hk)]
    refine ⟨v, _, hlv, rfl, ⟨h.max, ?_, h.wf, ?_, ?_, ?_⟩, rfl, rfl⟩
    · simp only [hr, h.list]
    · intro x
      simp only
      rw [h.keys, hr]
      simp only [List.mem_append, List.mem_filter, decide_eq_true_eq, List.mem_singleton]
      constructor
      · intro hx
        by_cases hxk : x = k
        · exact Or.inr hxk
        · exact Or.inl ⟨hx, hxk⟩
      · rintro (hx | rfl)
        · exact hx.1
        · exact hk
    · simp only
      rw [h.size, hr, List.length_append, List.length_singleton,
        length_filter_ne (recent_nodup m uses) hk]
    · intro x hx
      rw [lastValue_append]
      simp only
      by_cases hxk : x = k
      · subst hxk; simp [hv]
      · rw [if_neg (fun e => hxk e.symm)]
        rw [hr] at hx
        simp only [List.mem_append, List.mem_filter, List.mem_singleton, hxk, or_false] at hx
        exact h.value x hx.1
  · intro hk
    have hn : c.map.get k = none := AMap.get_eq_none_iff.2 (fun hh => hk ((h.keys k).1 hh))
    have h' : Reflects m uses { c with misses := c.misses + 1 } :=
      ⟨h.max, h.list, h.wf, h.keys, h.size, h.value⟩
    obtain ⟨c', e, hR, hm', hh'⟩ := insert_spec hm h' k (f k) hk
    unfold fetch
    simp only [hn, e]
    exact ⟨c', rfl, hR, hm', hh'⟩

end LRU
end Theia
