import Mathlib.Data.List.Nodup
import Mathlib.Tactic.Tauto
import Verif.Spec.PriorityQueue

/-! # Lemmas on the mutable priority queue -/

namespace Theia
namespace MPQ

open Spec

variable {K V : Type} [DecidableEq K] {A : HeapAlgo} {cmp : V → V → Bool}

/-- The front of a heap is maximal. -/
theorem heap_front_max {α : Type} {lt : α → α → Bool} {x : α} {l : List α}
    (hs : StrictWeakOn lt (x :: l)) (hh : IsHeap lt (x :: l)) : ∀ y ∈ x :: l, lt x y = false := by
  have key : ∀ (n : Nat) (y : α), (x :: l)[n]? = some y → lt x y = false := by
    intro n
    induction n using Nat.strongRecOn with
    | _ n ih =>
      intro y hy
      by_cases hn : n = 0
      · subst hn
        simp only [List.getElem?_cons_zero, Option.some.injEq] at hy
        subst hy
        cases h : lt x x with
        | false => rfl
        | true => rw [← hs.asymm x (by simp) x (by simp) h, h]
      · have hlt : n < (x :: l).length := by
          rw [List.getElem?_eq_some_iff] at hy; exact hy.1
        have hp : (n - 1) / 2 < n := by omega
        have hpl : (n - 1) / 2 < (x :: l).length := by omega
        have hpe : (x :: l)[(n - 1) / 2]? = some (x :: l)[(n - 1) / 2] :=
          List.getElem?_eq_getElem hpl
        have h1 := ih _ hp _ hpe
        have h2 := hh n _ y (by omega) hpe hy
        exact hs.negTrans x (by simp) _ (List.getElem_mem _) y (List.mem_of_getElem? hy) h1 h2
  intro y hy
  obtain ⟨n, hn⟩ := List.mem_iff_getElem?.1 hy
  exact key n y hn

/-- The invariant of the queue. -/
structure Inv (cmp : V → V → Bool) (q : MPQ K V) : Prop where
  nodup : q.heap.Nodup
  live : ∀ p ∈ q.heap, ∃ kv, q.mem.get p = some kv
  fresh : ∀ p ∈ q.mem.keys, p < q.next
  index : ∀ k p, q.index.get k = some p ↔ p ∈ q.heap ∧ ∃ v, q.mem.get p = some (k, v)
  heap : IsHeap (ptrComp cmp q.mem) q.heap

/-- The value stored for a key. -/
def lookup (q : MPQ K V) (k : K) : Option V := ((q.index.get k).bind q.mem.get).map (·.2)

theorem lookup_eq_some {q : MPQ K V} (h : Inv cmp q) {k : K} {v : V} :
    q.lookup k = some v ↔ ∃ p ∈ q.heap, q.mem.get p = some (k, v) := by
  unfold lookup
  constructor
  · intro hl
    cases hk : q.index.get k with
    | none => simp [hk] at hl
    | some p =>
      obtain ⟨hp, v', hv'⟩ := (h.index k p).1 hk
      simp only [hk, Option.bind_some, hv', Option.map_some, Option.some.injEq] at hl
      exact ⟨p, hp, by rw [hv', hl]⟩
  · rintro ⟨p, hp, hv⟩
    rw [(h.index k p).2 ⟨hp, v, hv⟩]
    simp [hv]

theorem find_eq (q : MPQ K V) (h : Inv cmp q) (k : K) :
    q.find k = match q.lookup k with | some v => .ok v | none => .abort := by
  unfold find lookup
  cases hk : q.index.get k with
  | none => simp
  | some p =>
    obtain ⟨hp, v', hv'⟩ := (h.index k p).1 hk
    simp [hv']

theorem contains_eq (q : MPQ K V) (h : Inv cmp q) (k : K) : q.contains k = (q.lookup k).isSome := by
  unfold contains lookup AMap.contains
  cases hk : q.index.get k with
  | none => simp
  | some p =>
    obtain ⟨hp, v', hv'⟩ := (h.index k p).1 hk
    simp [hv']

omit [DecidableEq K] in
theorem strictWeakOn_ptr (hc : StrictWeak cmp) (mem : AMap Nat (K × V)) (l : List Nat)
    (hl : ∀ p ∈ l, ∃ kv, mem.get p = some kv) : StrictWeakOn (ptrComp cmp mem) l := by
  constructor
  · intro a ha b hb
    obtain ⟨x, hx⟩ := hl a ha
    obtain ⟨y, hy⟩ := hl b hb
    simp only [ptrComp, hx, hy]
    exact hc.asymm _ _
  · intro a ha b hb c hcc
    obtain ⟨x, hx⟩ := hl a ha
    obtain ⟨y, hy⟩ := hl b hb
    obtain ⟨z, hz⟩ := hl c hcc
    simp only [ptrComp, hx, hy, hz]
    exact hc.negTrans _ _ _

theorem inv_create : Inv cmp (create : MPQ K V) := by
  constructor <;> simp [create, IsHeap]

omit [DecidableEq K] in
theorem withLive_ok {mem : AMap Nat (K × V)} {ps r : List Nat}
    (h : ∀ p ∈ ps, ∃ kv, mem.get p = some kv) : withLive mem ps r = .ok r := by
  unfold withLive
  rw [if_pos]
  rw [List.all_eq_true]
  intro p hp
  obtain ⟨kv, hkv⟩ := h p hp
  simp [AMap.contains, hkv]

theorem ne_next {q : MPQ K V} (h : Inv cmp q) {p : Nat} (hp : p ∈ q.heap) : p ≠ q.next := by
  rintro rfl
  obtain ⟨kv, hkv⟩ := h.live _ hp
  exact absurd (h.fresh _ (AMap.mem_keys_iff.2 ⟨kv, hkv⟩)) (by omega)

theorem isHeap_congr {α : Type} {lt lt' : α → α → Bool} {l : List α}
    (he : ∀ a ∈ l, ∀ b ∈ l, lt a b = lt' a b) (h : IsHeap lt l) : IsHeap lt' l := by
  intro i p c hi hp hc
  rw [← he p (List.mem_of_getElem? hp) c (List.mem_of_getElem? hc)]
  exact h i p c hi hp hc

theorem insert_spec (hA : HeapLaws A) (hc : StrictWeak cmp) {q : MPQ K V} (h : Inv cmp q) (k : K)
    (v : V) (hk : q.contains k = false) :
    ∃ q', q.insert A cmp k v = .ok q' ∧ Inv cmp q' ∧ q'.size = q.size + 1 ∧
      ∀ k', q'.lookup k' = if k' = k then some v else q.lookup k' := by
  have hold : ∀ p ∈ q.heap, (q.mem.insert q.next (k, v)).get p = q.mem.get p := fun p hp =>
    AMap.get_insert_ne _ _ (ne_next h hp)
  have hlive : ∀ p ∈ q.heap ++ [q.next], ∃ kv, (q.mem.insert q.next (k, v)).get p = some kv := by
    intro p hp
    rcases List.mem_append.1 hp with hp | hp
    · rw [hold p hp]; exact h.live p hp
    · rw [List.mem_singleton.1 hp]; exact ⟨_, AMap.get_insert_self _ _ _⟩
  have hperm := hA.push_perm (ptrComp cmp (q.mem.insert q.next (k, v))) (q.heap ++ [q.next])
  have hin : ∀ p, p ∈ A.push (ptrComp cmp (q.mem.insert q.next (k, v))) (q.heap ++ [q.next]) ↔
      p ∈ q.heap ∨ p = q.next := by
    intro p; rw [hperm.mem_iff]; simp
  have hinv : Inv cmp (⟨q.mem.insert q.next (k, v), q.next + 1,
      A.push (ptrComp cmp (q.mem.insert q.next (k, v))) (q.heap ++ [q.next]),
      q.index.insert k q.next⟩ : MPQ K V) := by
    constructor
    · refine hperm.nodup_iff.2 ?_
      rw [List.nodup_append]
      refine ⟨h.nodup, by simp, ?_⟩
      intro a ha b hb
      rw [List.mem_singleton.1 hb]
      exact ne_next h ha
    · intro p hp
      exact hlive p (hperm.mem_iff.1 hp)
    · intro p hp
      simp only [AMap.mem_keys_insert] at hp
      rcases hp with hp | hp
      · subst hp; exact Nat.lt_succ_self _
      · exact Nat.lt_succ_of_lt (h.fresh p hp)
    · intro k' p
      simp only [hin]
      rw [AMap.get_insert]
      by_cases hk' : k' = k
      · subst hk'
        rw [if_pos rfl]
        constructor
        · intro e
          cases e
          exact ⟨Or.inr rfl, v, AMap.get_insert_self _ _ _⟩
        · rintro ⟨hp | hp, v', hv'⟩
          · rw [hold p hp] at hv'
            have := (h.index k' p).2 ⟨hp, v', hv'⟩
            rw [contains, AMap.contains, this] at hk
            simp at hk
          · rw [hp]
      · rw [if_neg hk', h.index]
        constructor
        · rintro ⟨hp, v', hv'⟩
          exact ⟨Or.inl hp, v', by rw [hold p hp]; exact hv'⟩
        · rintro ⟨hp | hp, v', hv'⟩
          · exact ⟨hp, v', by rw [← hold p hp]; exact hv'⟩
          · subst hp
            rw [AMap.get_insert_self] at hv'
            cases hv'
            exact absurd rfl hk'
    · refine hA.push_heap _ _ _ (strictWeakOn_ptr hc _ _ hlive) ?_
      refine isHeap_congr ?_ h.heap
      intro a ha b hb
      simp only [ptrComp, hold a ha, hold b hb]
  refine ⟨_, ?_, hinv, ?_, ?_⟩
  · unfold insert
    simp only [withLive_ok hlive]
  · simp [size, hperm.length_eq]
  · intro k'
    apply Option.ext
    intro v'
    rw [lookup_eq_some hinv]
    simp only [hin]
    constructor
    · rintro ⟨p, hp | hp, hv'⟩
      · rw [hold p hp] at hv'
        have hne : k' ≠ k := by
          rintro rfl
          have := (h.index k' p).2 ⟨hp, v', hv'⟩
          rw [contains, AMap.contains, this] at hk
          simp at hk
        rw [if_neg hne, lookup_eq_some h]
        exact ⟨p, hp, hv'⟩
      · subst hp
        rw [AMap.get_insert_self] at hv'
        cases hv'
        simp
    · intro hl
      by_cases hk' : k' = k
      · subst hk'
        rw [if_pos rfl] at hl
        cases hl
        exact ⟨q.next, Or.inr rfl, AMap.get_insert_self _ _ _⟩
      · rw [if_neg hk', lookup_eq_some h] at hl
        obtain ⟨p, hp, hv'⟩ := hl
        exact ⟨p, Or.inl hp, by rw [hold p hp]; exact hv'⟩

theorem update_spec (hA : HeapLaws A) (hc : StrictWeak cmp) {q : MPQ K V} (h : Inv cmp q) (k : K)
    (v : V) (hk : q.contains k = true) :
    ∃ q', q.update A cmp k v = .ok q' ∧ Inv cmp q' ∧ q'.size = q.size ∧
      ∀ k', q'.lookup k' = if k' = k then some v else q.lookup k' := by
  obtain ⟨kv, hkv⟩ := AMap.mem_keys_iff.1 (AMap.contains_iff.1 hk)
  obtain ⟨hkvh, v0, hv0⟩ := (h.index k kv).1 hkv
  have hget : ∀ p, (q.mem.modify kv (fun p => (p.1, v))).get p =
      if p = kv then some (k, v) else q.mem.get p := by
    intro p
    rw [AMap.get_modify]
    by_cases hp : p = kv
    · subst hp; simp [hv0]
    · simp [hp]
  have hlive : ∀ p ∈ q.heap, ∃ x, (q.mem.modify kv (fun p => (p.1, v))).get p = some x := by
    intro p hp
    rw [hget]
    by_cases hpk : p = kv
    · exact ⟨_, if_pos hpk⟩
    · rw [if_neg hpk]; exact h.live p hp
  have hperm := hA.make_perm (ptrComp cmp (q.mem.modify kv (fun p => (p.1, v)))) q.heap
  have hkey : ∀ p k', (∃ v', (q.mem.modify kv (fun p => (p.1, v))).get p = some (k', v')) ↔
      ∃ v', q.mem.get p = some (k', v') := by
    intro p k'
    rw [hget]
    by_cases hpk : p = kv
    · subst hpk
      rw [if_pos rfl, hv0]
      constructor
      · rintro ⟨v', e⟩; cases e; exact ⟨v0, rfl⟩
      · rintro ⟨v', e⟩; cases e; exact ⟨v, rfl⟩
    · rw [if_neg hpk]
  have hinv : Inv cmp (⟨q.mem.modify kv (fun p => (p.1, v)), q.next,
      A.make (ptrComp cmp (q.mem.modify kv (fun p => (p.1, v)))) q.heap, q.index⟩ : MPQ K V) := by
    constructor
    · exact hperm.nodup_iff.2 h.nodup
    · intro p hp; exact hlive p (hperm.mem_iff.1 hp)
    · intro p hp; simp only [AMap.keys_modify] at hp; exact h.fresh p hp
    · intro k' p
      simp only [hperm.mem_iff, hkey]
      exact h.index k' p
    · exact hA.make_heap _ _ (strictWeakOn_ptr hc _ _ hlive)
  refine ⟨_, ?_, hinv, ?_, ?_⟩
  · unfold update
    simp only [hkv]
    rw [if_pos (by simp [AMap.contains, hv0])]
    simp only [withLive_ok hlive]
  · simp [size, hperm.length_eq]
  · intro k'
    apply Option.ext
    intro v'
    rw [lookup_eq_some hinv]
    simp only [hperm.mem_iff, hget]
    constructor
    · rintro ⟨p, hp, e⟩
      by_cases hpk : p = kv
      · rw [if_pos hpk] at e; cases e; simp
      · rw [if_neg hpk] at e
        have hne : k' ≠ k := by
          rintro rfl
          have := (h.index k' p).2 ⟨hp, v', e⟩
          rw [hkv] at this
          exact hpk (Option.some.inj this).symm
        rw [if_neg hne, lookup_eq_some h]
        exact ⟨p, hp, e⟩
    · intro hl
      by_cases hk' : k' = k
      · subst hk'
        rw [if_pos rfl] at hl
        cases hl
        exact ⟨kv, hkvh, by simp⟩
      · rw [if_neg hk', lookup_eq_some h] at hl
        obtain ⟨p, hp, e⟩ := hl
        refine ⟨p, hp, ?_⟩
        have : p ≠ kv := by rintro rfl; rw [hv0] at e; cases e; exact hk' rfl
        rw [if_neg this]; exact e

/-- Removing one live pair. -/
theorem remove_spec {q : MPQ K V} (h : Inv cmp q) {kv : Nat} {k : K}
    (hkv : q.index.get k = some kv) (hp' : List Nat) (hperm : hp'.Perm (q.heap.erase kv))
    (hheap : IsHeap (ptrComp cmp (q.mem.erase kv)) hp') :
    Inv cmp { q with mem := q.mem.erase kv, heap := hp', index := q.index.erase k } ∧
    hp'.length + 1 = q.heap.length ∧
    ∀ k', lookup { q with mem := q.mem.erase kv, heap := hp', index := q.index.erase k } k' =
      if k' = k then none else q.lookup k' := by
  obtain ⟨hkvh, v0, hv0⟩ := (h.index k kv).1 hkv
  have hin : ∀ p, p ∈ hp' ↔ p ≠ kv ∧ p ∈ q.heap := by
    intro p; rw [hperm.mem_iff, h.nodup.mem_erase_iff]
  have hget : ∀ p, p ≠ kv → (q.mem.erase kv).get p = q.mem.get p := by
    intro p hp; rw [AMap.get_erase, if_neg hp]
  have hinv : Inv cmp { q with mem := q.mem.erase kv, heap := hp', index := q.index.erase k } := by
    constructor
    · exact hperm.nodup_iff.2 (h.nodup.erase _)
    · intro p hp
      obtain ⟨h1, h2⟩ := (hin p).1 hp
      simp only [hget p h1]
      exact h.live p h2
    · intro p hp
      simp only [AMap.mem_keys_erase] at hp
      exact h.fresh p (by tauto)
    · intro k' p
      simp only [hin]
      rw [AMap.get_erase]
      by_cases hk' : k' = k
      · subst hk'
        rw [if_pos rfl]
        constructor
        · intro e; cases e
        · rintro ⟨⟨h1, h2⟩, v', hv'⟩
          rw [hget p h1] at hv'
          have := (h.index k' p).2 ⟨h2, v', hv'⟩
          rw [hkv] at this
          exact absurd (Option.some.inj this).symm h1
      · rw [if_neg hk', h.index]
        constructor
        · rintro ⟨h2, v', hv'⟩
          have h1 : p ≠ kv := by rintro rfl; rw [hv0] at hv'; cases hv'; exact hk' rfl
          exact ⟨⟨h1, h2⟩, v', by rw [hget p h1]; exact hv'⟩
        · rintro ⟨⟨h1, h2⟩, v', hv'⟩
          exact ⟨h2, v', by rw [← hget p h1]; exact hv'⟩
    · exact hheap
  refine ⟨hinv, ?_, ?_⟩
  · rw [hperm.length_eq, List.length_erase_of_mem hkvh]
    have := List.length_pos_of_mem hkvh
    omega
  · intro k'
    apply Option.ext
    intro v'
    rw [lookup_eq_some hinv]
    simp only [hin]
    constructor
    · rintro ⟨p, ⟨h1, h2⟩, e⟩
      rw [hget p h1] at e
      have hne : k' ≠ k := by
        rintro rfl
        have := (h.index k' p).2 ⟨h2, v', e⟩
        rw [hkv] at this
        exact h1 (Option.some.inj this).symm
      rw [if_neg hne, lookup_eq_some h]
      exact ⟨p, h2, e⟩
    · intro hl
      by_cases hk' : k' = k
      · rw [if_pos hk'] at hl; cases hl
      · rw [if_neg hk', lookup_eq_some h] at hl
        obtain ⟨p, hp, e⟩ := hl
        have h1 : p ≠ kv := by rintro rfl; rw [hv0] at e; cases e; exact hk' rfl
        exact ⟨p, ⟨h1, hp⟩, by rw [hget p h1]; exact e⟩

theorem erase_spec (hA : HeapLaws A) (hc : StrictWeak cmp) {q : MPQ K V} (h : Inv cmp q) (k : K) :
    ∃ q', q.erase A cmp k = .ok q' ∧ Inv cmp q' ∧
      q'.size + (if q.contains k then 1 else 0) = q.size ∧
      ∀ k', q'.lookup k' = if k' = k then none else q.lookup k' := by
  unfold erase
  cases hkv : q.index.get k with
  | none =>
    refine ⟨q, rfl, h, by simp [contains, AMap.contains, hkv], ?_⟩
    intro k'
    by_cases hk' : k' = k
    · subst hk'; simp [lookup, hkv]
    · rw [if_neg hk']
  | some kv =>
    obtain ⟨hkvh, v0, hv0⟩ := (h.index k kv).1 hkv
    have hlive : ∀ p ∈ q.heap.erase kv, ∃ x, q.mem.get p = some x := fun p hp =>
      h.live p (List.mem_of_mem_erase hp)
    have hne : ∀ p ∈ q.heap.erase kv, p ≠ kv := fun p hp =>
      ((h.nodup.mem_erase_iff).1 hp).1
    have hperm := hA.make_perm (ptrComp cmp q.mem) (q.heap.erase kv)
    have hheap : IsHeap (ptrComp cmp (q.mem.erase kv))
        (A.make (ptrComp cmp q.mem) (q.heap.erase kv)) := by
      refine isHeap_congr ?_ (hA.make_heap _ _ (strictWeakOn_ptr hc _ _ hlive))
      intro a ha b hb
      have h1 := hne a (hperm.mem_iff.1 ha)
      have h2 := hne b (hperm.mem_iff.1 hb)
      simp only [ptrComp, AMap.get_erase, if_neg h1, if_neg h2]
    obtain ⟨i1, i2, i3⟩ := remove_spec h hkv _ hperm hheap
    simp only [if_pos hkvh, withLive_ok hlive]
    exact ⟨_, rfl, i1, by simpa [contains, AMap.contains, hkv, size] using i2, i3⟩

theorem top_spec (hc : StrictWeak cmp) {q : MPQ K V} (h : Inv cmp q) (hne : q.isEmpty = false) :
    ∃ k v, q.top = .ok (k, v) ∧ q.lookup k = some v ∧
      ∀ k' v', q.lookup k' = some v' → cmp v v' = false := by
  cases hq : q.heap with
  | nil => simp [isEmpty, hq] at hne
  | cons p rest =>
    obtain ⟨⟨k, v⟩, hkv⟩ := h.live p (by simp [hq])
    refine ⟨k, v, by simp [top, hq, hkv], (lookup_eq_some h).2 ⟨p, by simp [hq], hkv⟩, ?_⟩
    intro k' v' hl
    obtain ⟨p', hp', hv'⟩ := (lookup_eq_some h).1 hl
    have hs := strictWeakOn_ptr hc q.mem q.heap h.live
    have hh := h.heap
    rw [hq] at hs hh hp'
    have := heap_front_max hs hh p' hp'
    simpa [ptrComp, hkv, hv'] using this

theorem pop_spec (hA : HeapLaws A) (hc : StrictWeak cmp) {q : MPQ K V} (h : Inv cmp q)
    {k : K} {v : V} (ht : q.top = .ok (k, v)) :
    ∃ q', q.pop A cmp = .ok q' ∧ Inv cmp q' ∧ q'.size + 1 = q.size ∧
      ∀ k', q'.lookup k' = if k' = k then none else q.lookup k' := by
  unfold top at ht
  cases hq : q.heap with
  | nil => simp [hq] at ht
  | cons p rest =>
    simp only [hq] at ht
    cases hkv : q.mem.get p with
    | none => simp [hkv] at ht
    | some kv =>
      simp only [hkv, Outcome.ok.injEq] at ht
      subst ht
      have hidx : q.index.get k = some p := (h.index k p).2 ⟨by simp [hq], v, hkv⟩
      have hnd := h.nodup
      rw [hq, List.nodup_cons] at hnd
      have hne : ∀ x ∈ rest, x ≠ p := by rintro x hx rfl; exact hnd.1 hx
      have hlive : ∀ x ∈ rest, ∃ y, (q.mem.erase p).get x = some y := by
        intro x hx
        rw [AMap.get_erase, if_neg (hne x hx)]
        exact h.live x (by simp [hq, hx])
      have hperm := hA.pop_perm (ptrComp cmp (q.mem.erase p)) rest
      have hheap : IsHeap (ptrComp cmp (q.mem.erase p)) (A.pop (ptrComp cmp (q.mem.erase p)) rest) := by
        refine hA.pop_heap _ p rest (strictWeakOn_ptr hc _ _ hlive) ?_
        intro i a b hi ha hb
        have := h.heap i a b hi (by rw [hq]; exact ha) (by rw [hq]; exact hb)
        by_cases hap : a = p
        · subst hap; simp [ptrComp, AMap.get_erase]
        · by_cases hbp : b = p
          · subst hbp; simp only [ptrComp, AMap.get_erase]; cases (if a = b then none else q.mem.get a) <;> simp
          · simpa only [ptrComp, AMap.get_erase, if_neg hap, if_neg hbp] using this
      have herase : q.heap.erase p = rest := by rw [hq, List.erase_cons_head]
      obtain ⟨i1, i2, i3⟩ := remove_spec h hidx _ (by rw [herase]; exact hperm) hheap
      unfold pop
      simp only [hq, hkv, withLive_ok hlive]
      exact ⟨_, rfl, i1, i2, i3⟩

theorem clear_spec {q : MPQ K V} (h : Inv cmp q) :
    Inv cmp q.clear ∧ q.clear.size = 0 ∧ ∀ k, q.clear.lookup k = none := by
  have hsub : ∀ (ps : List Nat) (m : AMap Nat (K × V)), ∀ p ∈ (ps.foldl (fun m p => m.erase p) m).keys, p ∈ m.keys := by
    intro ps
    induction ps with
    | nil => intro m p hp; exact hp
    | cons a ps ih =>
      intro m p hp
      have := ih _ p hp
      rw [AMap.mem_keys_erase] at this
      tauto
  refine ⟨⟨by simp [clear], by simp [clear], ?_, by simp [clear], by simp [clear, IsHeap]⟩,
    rfl, by simp [lookup, clear]⟩
  intro p hp
  exact h.fresh p (hsub _ _ p hp)

end MPQ
end Theia
