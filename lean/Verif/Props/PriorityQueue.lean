import Verif.Proof.PriorityQueue

/-!
# C48: the mutable priority queue
-/

namespace Theia

open Spec MPQ

variable {K V : Type} [DecidableEq K]

/-- The queues reachable from an empty one by calls that return, inserting only keys not contained. -/
inductive MPQ.Reachable (A : HeapAlgo) (cmp : V → V → Bool) : MPQ K V → Prop
  | create : Reachable A cmp MPQ.create
  | step {q q' : MPQ K V} (op : MPQ.Op K V) (h : Reachable A cmp q)
      (hnew : ∀ k v, op = .insert k v → q.contains k = false)
      (hstep : q.step A cmp op = .ok q') : Reachable A cmp q'

variable {A : HeapAlgo} {cmp : V → V → Bool}

theorem MPQ.inv_of_reachable (hA : HeapLaws A) (hc : StrictWeak cmp) {q : MPQ K V}
    (h : MPQ.Reachable A cmp q) : Inv cmp q := by
  induction h with
  | create => exact inv_create
  | @step q q' op _ hnew hstep ih =>
    cases op with
    | insert k v =>
      obtain ⟨_, e, i, _⟩ := insert_spec hA hc ih k v (hnew k v rfl)
      rw [MPQ.step, e] at hstep; cases hstep; exact i
    | update k v =>
      by_cases hk : q.contains k = true
      · obtain ⟨_, e, i, _⟩ := update_spec hA hc ih k v hk
        rw [MPQ.step, e] at hstep; cases hstep; exact i
      · have : q.index.get k = none := by
          rw [AMap.get_eq_none_iff]; exact fun hh => hk (AMap.contains_iff.2 hh)
        simp [MPQ.step, MPQ.update, this] at hstep
    | erase k =>
      obtain ⟨_, e, i, _⟩ := erase_spec hA hc ih k
      rw [MPQ.step, e] at hstep; cases hstep; exact i
    | pop =>
      by_cases hne : q.isEmpty = true
      · have : q.heap = [] := by simpa [MPQ.isEmpty] using hne
        simp [MPQ.step, MPQ.pop, this] at hstep
      · obtain ⟨k, v, ht, _⟩ := top_spec hc ih (by simpa using hne)
        obtain ⟨_, e, i, _⟩ := pop_spec hA hc ih ht
        rw [MPQ.step, e] at hstep; cases hstep; exact i
    | clear =>
      simp only [MPQ.step, Outcome.ok.injEq] at hstep
      subst hstep
      exact (clear_spec ih).1

theorem MPQ.find_ok_iff {q : MPQ K V} (h : Inv cmp q) (k : K) (v : V) :
    q.find k = .ok v ↔ q.lookup k = some v := by
  rw [find_eq q h]
  cases q.lookup k <;> simp

omit [DecidableEq K] in
theorem MPQ.choose_keys (l : List Nat) (hn : l.Nodup) (r : Nat → K → Prop)
    (hex : ∀ p ∈ l, ∃ k, r p k) (hfun : ∀ p k k', r p k → r p k' → k = k')
    (hinj : ∀ p p' k, p ∈ l → p' ∈ l → r p k → r p' k → p = p') :
    ∃ keys : List K, keys.Nodup ∧ keys.length = l.length ∧ ∀ k, k ∈ keys ↔ ∃ p ∈ l, r p k := by
  induction l with
  | nil => exact ⟨[], by simp, rfl, by simp⟩
  | cons a l ih =>
    rw [List.nodup_cons] at hn
    obtain ⟨keys, h1, h2, h3⟩ := ih hn.2 (fun p hp => hex p (by simp [hp]))
      (fun p p' k hp hp' => hinj p p' k (by simp [hp]) (by simp [hp']))
    obtain ⟨k, hk⟩ := hex a (by simp)
    refine ⟨k :: keys, ?_, by simp [h2], ?_⟩
    · rw [List.nodup_cons]
      refine ⟨?_, h1⟩
      rw [h3]
      rintro ⟨p, hp, hr⟩
      have := hinj a p k (by simp) (by simp [hp]) hk hr
      exact hn.1 (this ▸ hp)
    · intro k'
      rw [List.mem_cons, h3]
      constructor
      · rintro (rfl | ⟨p, hp, hr⟩)
        · exact ⟨a, by simp, hk⟩
        · exact ⟨p, by simp [hp], hr⟩
      · rintro ⟨p, hp, hr⟩
        rcases List.mem_cons.1 hp with rfl | hp
        · exact Or.inl (hfun p k' k hr hk)
        · exact Or.inr ⟨p, hp, hr⟩

/-- C48, queries: on every reachable queue, a key is contained exactly when it has a value, `size`
counts the contained keys, the queue is empty exactly when it contains no key, and `top` is a
contained key with its value such that no contained key has a higher priority. -/
theorem C48_queries (hA : HeapLaws A) (hc : StrictWeak cmp) {q : MPQ K V}
    (h : MPQ.Reachable A cmp q) :
    (∀ k, q.contains k = true ↔ ∃ v, q.find k = .ok v) ∧
    (∃ keys : List K, keys.Nodup ∧ keys.length = q.size ∧ ∀ k, k ∈ keys ↔ q.contains k = true) ∧
    (q.isEmpty = true ↔ ∀ k, q.contains k = false) ∧
    (q.isEmpty = false → ∃ k v, q.top = .ok (k, v) ∧ q.find k = .ok v ∧
      ∀ k' v', q.find k' = .ok v' → cmp v v' = false) := by
  have hi := inv_of_reachable hA hc h
  refine ⟨?_, ?_, ?_, ?_⟩
  · intro k
    rw [contains_eq q hi, Option.isSome_iff_exists]
    simp only [find_ok_iff hi]
  · obtain ⟨keys, h1, h2, h3⟩ := choose_keys q.heap hi.nodup
      (fun p k => ∃ v, q.mem.get p = some (k, v))
      (fun p hp => by obtain ⟨⟨k, v⟩, e⟩ := hi.live p hp; exact ⟨k, v, e⟩)
      (fun p k k' h1 h2 => by
        obtain ⟨v, e⟩ := h1
        obtain ⟨v', e'⟩ := h2
        rw [e] at e'; cases e'; rfl)
      (fun p p' k hp hp' h1 h2 => by
        have e := (hi.index k p).2 ⟨hp, h1⟩
        have e' := (hi.index k p').2 ⟨hp', h2⟩
        rw [e] at e'; exact Option.some.inj e')
    refine ⟨keys, h1, h2, ?_⟩
    intro k
    rw [h3, contains_eq q hi, Option.isSome_iff_exists]
    simp only [lookup_eq_some hi]
    constructor
    · rintro ⟨p, hp, v, e⟩; exact ⟨v, p, hp, e⟩
    · rintro ⟨v, p, hp, e⟩; exact ⟨p, hp, v, e⟩
  · constructor
    · intro he k
      have hq : q.heap = [] := by simpa [MPQ.isEmpty] using he
      rw [contains_eq q hi]
      cases hl : q.lookup k with
      | none => rfl
      | some v =>
        obtain ⟨p, hp, _⟩ := (lookup_eq_some hi).1 hl
        simp [hq] at hp
    · intro he
      cases hq : q.heap with
      | nil => simp [MPQ.isEmpty, hq]
      | cons p l =>
        obtain ⟨⟨k, v⟩, e⟩ := hi.live p (by simp [hq])
        have := (lookup_eq_some hi).2 ⟨p, by simp [hq], e⟩
        have hk := he k
        rw [contains_eq q hi, this] at hk
        simp at hk
  · intro hne
    obtain ⟨k, v, h1, h2, h3⟩ := top_spec hc hi hne
    refine ⟨k, v, h1, (find_ok_iff hi k v).2 h2, ?_⟩
    intro k' v' h'
    exact h3 k' v' ((find_ok_iff hi k' v').1 h')

theorem MPQ.find_congr {q q' : MPQ K V} (h : Inv cmp q) (h' : Inv cmp q') (k : K) :
    (q'.find k = q.find k ↔ q'.lookup k = q.lookup k) := by
  rw [find_eq q h, find_eq q' h']
  cases q.lookup k <;> cases q'.lookup k <;> simp

/-- C48, effects: on every reachable queue, inserting a new key, updating a contained key, erasing,
popping a non-empty queue and clearing all succeed, and change the value of exactly the key concerned;
`pop` removes exactly the key `top` showed; updating a key that is not contained aborts and changes
nothing. -/
theorem C48_effects (hA : HeapLaws A) (hc : StrictWeak cmp) {q : MPQ K V}
    (h : MPQ.Reachable A cmp q) :
    (∀ k v, q.contains k = false → ∃ q', q.insert A cmp k v = .ok q' ∧ q'.size = q.size + 1 ∧
      q'.find k = .ok v ∧ ∀ k', k' ≠ k → q'.find k' = q.find k') ∧
    (∀ k v, q.contains k = true → ∃ q', q.update A cmp k v = .ok q' ∧ q'.size = q.size ∧
      q'.find k = .ok v ∧ ∀ k', k' ≠ k → q'.find k' = q.find k') ∧
    (∀ k v, q.contains k = false → q.update A cmp k v = .abort) ∧
    (∀ k, ∃ q', q.erase A cmp k = .ok q' ∧ q'.size + (if q.contains k then 1 else 0) = q.size ∧
      q'.contains k = false ∧ ∀ k', k' ≠ k → q'.find k' = q.find k') ∧
    (q.isEmpty = false → ∃ k v q', q.top = .ok (k, v) ∧ q.pop A cmp = .ok q' ∧ q'.size + 1 = q.size ∧
      q'.contains k = false ∧ ∀ k', k' ≠ k → q'.find k' = q.find k') ∧
    (q.clear.isEmpty = true ∧ ∀ k, q.clear.contains k = false) := by
  have hi := inv_of_reachable hA hc h
  refine ⟨?_, ?_, ?_, ?_, ?_, ?_⟩
  · intro k v hk
    obtain ⟨q', e, i, s, l⟩ := insert_spec hA hc hi k v hk
    refine ⟨q', e, s, (find_ok_iff i k v).2 (by rw [l]; simp), ?_⟩
    intro k' hk'
    rw [find_congr hi i, l, if_neg hk']
  · intro k v hk
    obtain ⟨q', e, i, s, l⟩ := update_spec hA hc hi k v hk
    refine ⟨q', e, s, (find_ok_iff i k v).2 (by rw [l]; simp), ?_⟩
    intro k' hk'
    rw [find_congr hi i, l, if_neg hk']
  · intro k v hk
    have : q.index.get k = none := by
      rw [AMap.get_eq_none_iff]
      intro hh
      rw [MPQ.contains, AMap.contains_iff.2 hh] at hk
      cases hk
    simp [MPQ.update, this]
  · intro k
    obtain ⟨q', e, i, s, l⟩ := erase_spec hA hc hi k
    refine ⟨q', e, s, by rw [contains_eq q' i, l]; simp, ?_⟩
    intro k' hk'
    rw [find_congr hi i, l, if_neg hk']
  · intro hne
    obtain ⟨k, v, ht, _⟩ := top_spec hc hi hne
    obtain ⟨q', e, i, s, l⟩ := pop_spec hA hc hi ht
    refine ⟨k, v, q', ht, e, s, by rw [contains_eq q' i, l]; simp, ?_⟩
    intro k' hk'
    rw [find_congr hi i, l, if_neg hk']
  · obtain ⟨i, s, l⟩ := clear_spec hi
    refine ⟨by simp [MPQ.isEmpty, MPQ.clear], ?_⟩
    intro k
    rw [contains_eq _ i, l]; rfl

/-! A concrete lawful heap algorithm (sorting), for the examples and the counterexample. -/

/-- Insert before the first smaller entry. -/
def sortInsert (lt : Nat → Nat → Bool) (x : Nat) : List Nat → List Nat
  | [] => [x]
  | y :: l => if lt y x then x :: y :: l else y :: sortInsert lt x l

/-- Sort, largest first. -/
def sortDesc (lt : Nat → Nat → Bool) : List Nat → List Nat
  | [] => []
  | x :: l => sortInsert lt x (sortDesc lt l)

/-- Heap algorithms that sort. -/
def sortingAlgo : HeapAlgo := ⟨sortDesc, sortDesc, sortDesc⟩

theorem sortInsert_perm (lt : Nat → Nat → Bool) (x : Nat) (l : List Nat) :
    (sortInsert lt x l).Perm (x :: l) := by
  induction l with
  | nil => exact List.Perm.refl _
  | cons y l ih =>
    unfold sortInsert
    split
    · exact List.Perm.refl _
    · exact (List.Perm.cons y ih).trans (List.Perm.swap x y l)

theorem sortDesc_perm (lt : Nat → Nat → Bool) (l : List Nat) : (sortDesc lt l).Perm l := by
  induction l with
  | nil => exact List.Perm.refl _
  | cons x l ih => exact (sortInsert_perm lt x _).trans (List.Perm.cons x ih)

theorem sortInsert_sorted (lt : Nat → Nat → Bool) (x : Nat) (l : List Nat)
    (hs : StrictWeakOn lt (x :: l)) (h : l.Pairwise (fun a b => lt a b = false)) :
    (sortInsert lt x l).Pairwise (fun a b => lt a b = false) := by
  induction l with
  | nil => simp [sortInsert]
  | cons y l ih =>
    rw [List.pairwise_cons] at h
    unfold sortInsert
    split
    · rename_i hlt
      refine List.pairwise_cons.2 ⟨?_, List.pairwise_cons.2 h⟩
      intro z hz
      have hxy := hs.asymm y (by simp) x (by simp) hlt
      rcases List.mem_cons.1 hz with rfl | hz
      · exact hxy
      · exact hs.negTrans x (by simp) y (by simp) z (by simp [hz]) hxy (h.1 z hz)
    · rename_i hlt
      refine List.pairwise_cons.2 ⟨?_, ih ?_ h.2⟩
      · intro z hz
        rcases List.mem_cons.1 ((sortInsert_perm lt x l).mem_iff.1 hz) with rfl | hz
        · simpa using hlt
        · exact h.1 z hz
      · exact ⟨fun a ha b hb => hs.asymm a (by simp at ha ⊢; tauto) b (by simp at hb ⊢; tauto),
          fun a ha b hb c hc => hs.negTrans a (by simp at ha ⊢; tauto) b (by simp at hb ⊢; tauto)
            c (by simp at hc ⊢; tauto)⟩

theorem sortDesc_heap (lt : Nat → Nat → Bool) (l : List Nat) (hs : StrictWeakOn lt l) :
    IsHeap lt (sortDesc lt l) := by
  have hp : (sortDesc lt l).Pairwise (fun a b => lt a b = false) := by
    induction l with
    | nil => simp [sortDesc]
    | cons x l ih =>
      have hsub : ∀ a ∈ x :: sortDesc lt l, a ∈ x :: l := by
        intro a ha
        rcases List.mem_cons.1 ha with h | h
        · simp [h]
        · simp [(sortDesc_perm lt l).mem_iff.1 h]
      refine sortInsert_sorted lt x _ ⟨fun a ha b hb => hs.asymm a (hsub a ha) b (hsub b hb),
        fun a ha b hb c hc => hs.negTrans a (hsub a ha) b (hsub b hb) c (hsub c hc)⟩ (ih ?_)
      exact ⟨fun a ha b hb => hs.asymm a (by simp [ha]) b (by simp [hb]),
        fun a ha b hb c hc => hs.negTrans a (by simp [ha]) b (by simp [hb]) c (by simp [hc])⟩
  intro i p c hi hpp hcc
  rw [List.getElem?_eq_some_iff] at hpp hcc
  obtain ⟨h1, e1⟩ := hpp
  obtain ⟨h2, e2⟩ := hcc
  rw [← e1, ← e2]
  exact List.pairwise_iff_getElem.1 hp _ _ h1 h2 (by omega)

/-- The laws can be met. -/
theorem sortingAlgo_laws : HeapLaws sortingAlgo :=
  ⟨sortDesc_perm, sortDesc_heap, sortDesc_perm, fun lt _ _ hs _ => sortDesc_heap lt _ hs, sortDesc_perm,
    fun lt _ _ hs _ => sortDesc_heap lt _ hs⟩

/-- The default comparator `std::greater` is a strict weak order. -/
theorem greater_strictWeak : StrictWeak (fun a b : Nat => decide (b < a)) := by
  constructor
  · intro a b h; simp at h ⊢; omega
  · intro a b c h h'; simp at h h' ⊢; omega

/-- A run with inserts, an update, an erase and a pop: the smallest value is on top. -/
example : (do
    let q ← (MPQ.create : MPQ Nat Nat).insert sortingAlgo (fun a b => decide (b < a)) 1 50
    let q ← q.insert sortingAlgo (fun a b => decide (b < a)) 2 20
    let q ← q.insert sortingAlgo (fun a b => decide (b < a)) 3 30
    let q ← q.update sortingAlgo (fun a b => decide (b < a)) 1 10
    let t ← q.top
    let q ← q.pop sortingAlgo (fun a b => decide (b < a))
    let q ← q.erase sortingAlgo (fun a b => decide (b < a)) 2
    let t' ← q.top
    pure (t, t', q.size)) = (.ok ((1, 10), (3, 30), 1) : Outcome _) := by decide

/-- C48 needs new keys: inserting a contained key leaves the old entry on the heap, so that after one
`pop` the queue shows an entry for a key it says it does not contain. -/
theorem C48_duplicate_insert_counterexample :
    ∃ q1 q2 q3 : MPQ Nat Nat,
      (MPQ.create : MPQ Nat Nat).insert sortingAlgo (fun a b => decide (b < a)) 1 5 = .ok q1 ∧
      q1.insert sortingAlgo (fun a b => decide (b < a)) 1 3 = .ok q2 ∧
      q2.pop sortingAlgo (fun a b => decide (b < a)) = .ok q3 ∧
      q3.contains 1 = false ∧ q3.size = 1 ∧ q3.top = .ok (1, 5) := by
  refine ⟨_, _, _, rfl, rfl, rfl, ?_, ?_, ?_⟩ <;> decide

end Theia
