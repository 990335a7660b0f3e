import Mathlib.Data.List.Nodup
import Mathlib.Data.List.Induction
import Mathlib.Algebra.BigOperators.Ring.List
import Mathlib.Tactic.FieldSimp
import Mathlib.Tactic.Ring
import Mathlib.Tactic.Linarith
import Verif.Spec.Reservoir

namespace Theia

open Spec

theorem prob_bind {α β : Type} (d : Dist α) (f : α → Dist β) (e : β → Bool) :
    prob (d.bind f) e = (d.map fun q => q.1 * prob (f q.2) e).sum := by
  induction d with
  | nil => simp [Dist.bind, prob]
  | cons q d ih =>
    have h1 : Dist.bind (q :: d) f = ((f q.2).map fun r => (q.1 * r.1, r.2)) ++ Dist.bind d f := by
      simp [Dist.bind]
    have h2 : prob ((f q.2).map fun r => (q.1 * r.1, r.2)) e = q.1 * prob (f q.2) e := by
      unfold prob
      rw [List.map_map, ← List.sum_map_mul_left]
      congr 1
      apply List.map_congr_left
      intro r _
      simp only [Function.comp]
      split <;> simp
    have h3 : ∀ (a b : Dist β), prob (a ++ b) e = prob a e + prob b e := by
      intro a b
      simp [prob]
    rw [h1, h3, h2, ih, List.map_cons, List.sum_cons]

theorem prob_uniform (n : Nat) (e : Nat → Bool) :
    prob (uniformUpTo n) e = ((List.range (n + 1)).countP e : ℚ) / ((n : ℚ) + 1) := by
  unfold prob uniformUpTo
  rw [List.map_map]
  generalize List.range (n + 1) = l
  induction l with
  | nil => simp
  | cons r l ih =>
    rw [List.map_cons, List.sum_cons, ih, List.countP_cons]
    simp only [Function.comp]
    split
    · push_cast; ring
    · push_cast; ring

theorem countP_lt_range (k n : Nat) (h : k ≤ n) : (List.range n).countP (fun r => decide (r < k)) = k := by
  induction n with
  | zero => simp; omega
  | succ n ih =>
    rw [List.range_succ, List.countP_append]
    rcases Nat.lt_or_ge n k with h1 | h1
    · have hk : k = n + 1 := by omega
      subst hk
      have : (List.range n).countP (fun r => decide (r < n + 1)) = (List.range n).length := by
        rw [List.countP_eq_length]
        intro r hr
        exact decide_eq_true (by have := List.mem_range.1 hr; omega)
      rw [this]
      simp
    · rw [ih h1]
      have h2 : ¬ n < k := by omega
      simp [h2]

theorem countP_ne_range (i n : Nat) (h : i ≤ n) :
    (List.range (n + 1)).countP (fun r => decide (r ≠ i)) = n := by
  have h1 := List.length_eq_countP_add_countP (fun r => decide (r = i)) (l := List.range (n + 1))
  have h2 : (List.range (n + 1)).countP (fun r => decide (r = i)) = 1 := by
    have := List.count_eq_one_of_mem (List.nodup_range (n := n + 1)) (List.mem_range.2 (by omega : i < n + 1))
    rw [List.count] at this
    refine Eq.trans ?_ this
    apply List.countP_congr
    intro x _
    simp
  rw [List.length_range, h2] at h1
  have h3 : (List.range (n + 1)).countP (fun r => decide (r ≠ i)) =
      (List.range (n + 1)).countP (fun r => decide ¬ decide (r = i) = true) := by
    apply List.countP_congr
    intro x _
    simp
  omega

namespace Reservoir

variable {α : Type}

theorem step_ok (x : α) (s : Reservoir α) : reservoirStep x (.ok s) =
    if s.draws then (uniformUpTo s.numElementsAdded).map fun q => (q.1, s.add x q.2)
      else [(1, s.add x 0)] := rfl

/-- What holds of the sampler after the elements `xs`. -/
structure Good (k : Nat) (xs : List α) (s : Reservoir α) : Prop where
  size : s.numElementsToSample = k
  added : s.numElementsAdded = xs.length
  len : s.samples.length = min k xs.length
  nodup : xs.Nodup → s.samples.Nodup
  sub : ∀ x ∈ s.samples, x ∈ xs
  all : xs.length ≤ k → s.samples = xs

theorem nodup_set {l : List α} (hl : l.Nodup) {x : α} (hx : x ∉ l) (r : Nat) : (l.set r x).Nodup := by
  rw [List.nodup_iff_getElem?_ne_getElem?]
  intro i j hij hj
  rw [List.length_set] at hj
  rw [List.getElem?_set, List.getElem?_set]
  by_cases h1 : r = i
  · rw [if_pos h1, if_pos (by omega), if_neg (by omega)]
    intro h
    exact hx (List.mem_of_getElem? h.symm)
  · rw [if_neg h1]
    by_cases h2 : r = j
    · rw [if_pos h2, if_pos (by omega)]
      intro h
      exact hx (List.mem_of_getElem? h)
    · rw [if_neg h2]
      exact List.nodup_iff_getElem?_ne_getElem?.1 hl i j hij hj

theorem add_good {k : Nat} {xs : List α} {s : Reservoir α} (h : Good k xs s) (x : α) (r : Nat) :
    ∃ s', s.add x r = .ok s' ∧ Good k (xs ++ [x]) s' := by
  have hlen : (xs ++ [x]).length = xs.length + 1 := by simp
  unfold add
  rw [h.size, h.added]
  split
  · next hlt =>
    refine ⟨_, rfl, rfl, by simp, ?_, ?_, ?_, ?_⟩
    · simp only [List.length_append, h.len, List.length_singleton]; omega
    · intro hn
      simp only
      rw [h.all (by omega)]
      exact hn
    · intro y hy
      rcases List.mem_append.1 hy with hy | hy
      · exact List.mem_append_left _ (h.sub y hy)
      · exact List.mem_append_right _ hy
    · intro _
      simp only
      rw [h.all (by omega)]
  · next hge =>
    split
    · next hr =>
      have hl := h.len
      rw [if_pos (by omega)]
      refine ⟨_, rfl, rfl, by simp, ?_, ?_, ?_, ?_⟩
      · simp only [List.length_set, hl, hlen]; omega
      · intro hn
        obtain ⟨h1, _, h2⟩ := List.nodup_append'.1 hn
        exact nodup_set (h.nodup h1) (fun hx => h2 (h.sub x hx) (by simp)) r
      · intro y hy
        rcases List.mem_or_eq_of_mem_set hy with hy | hy
        · exact List.mem_append_left _ (h.sub y hy)
        · simp [hy]
      · intro hle; omega
    · refine ⟨_, rfl, rfl, by simp, ?_, ?_, ?_, ?_⟩
      · simp only [h.len, hlen]; omega
      · intro hn
        exact h.nodup (List.nodup_append'.1 hn).1
      · intro y hy
        exact List.mem_append_left _ (h.sub y hy)
      · intro hle; omega

theorem dist_append (k : Nat) (xs : List α) (x : α) :
    reservoirDist k (xs ++ [x]) = (reservoirDist k xs).bind (reservoirStep x) := by
  simp [reservoirDist]

theorem mem_step {x : α} {s : Reservoir α} {q : ℚ × Outcome (Reservoir α)}
    (h : q ∈ reservoirStep x (.ok s)) : ∃ r, q.2 = s.add x r := by
  rw [step_ok] at h
  split at h
  · obtain ⟨y, _, rfl⟩ := List.mem_map.1 h
    exact ⟨y.2, rfl⟩
  · rw [List.mem_singleton] at h
    exact ⟨0, by rw [h]⟩

theorem dist_good (k : Nat) (xs : List α) :
    ∀ q ∈ reservoirDist k xs, ∃ s, q.2 = .ok s ∧ Good k xs s := by
  induction xs using List.reverseRec with
  | nil =>
    intro q hq
    simp only [reservoirDist, List.foldl_nil, List.mem_singleton] at hq
    subst hq
    exact ⟨_, rfl, rfl, rfl, by simp [new], by simp [new], by simp [new], by simp [new]⟩
  | append_singleton xs x ih =>
    intro q hq
    rw [dist_append] at hq
    obtain ⟨a, ha, hq⟩ := List.mem_flatMap.1 hq
    obtain ⟨b, hb, rfl⟩ := List.mem_map.1 hq
    obtain ⟨s, hs, hg⟩ := ih a ha
    rw [hs] at hb
    obtain ⟨r, hr⟩ := mem_step hb
    obtain ⟨s', hs', hg'⟩ := add_good hg x r
    exact ⟨s', by simp only; rw [hr, hs'], hg'⟩

variable [DecidableEq α]

/-- The chance that an element is held after one more call. -/
theorem step_prob {k : Nat} {xs : List α} {s : Reservoir α} (h : Good k xs s) {x : α}
    (hn : (xs ++ [x]).Nodup) (hk : k ≤ xs.length) (y : α) :
    prob (reservoirStep x (.ok s)) (holds y) =
      if y = x then (k : ℚ) / ((xs.length : ℚ) + 1)
      else if y ∈ s.samples then (xs.length : ℚ) / ((xs.length : ℚ) + 1) else 0 := by
  obtain ⟨hn1, _, hn2⟩ := List.nodup_append'.1 hn
  have hx : x ∉ s.samples := fun hx => hn2 (h.sub x hx) (by simp)
  have hdraws : s.draws = true := by unfold draws; rw [h.size, h.added]; exact decide_eq_true hk
  have hslen : s.samples.length = k := by rw [h.len]; omega
  have h1 : prob (reservoirStep x (.ok s)) (holds y) =
      prob (uniformUpTo xs.length) (fun r => holds y (s.add x r)) := by
    rw [step_ok, if_pos hdraws, h.added]
    unfold prob
    rw [List.map_map]
    rfl
  have hadd : ∀ r, holds y (s.add x r) = decide (y ∈ if r < k then s.samples.set r x else s.samples) := by
    intro r
    unfold add
    rw [h.size, h.added, if_neg (by omega)]
    split
    · rw [if_pos (by omega)]; rfl
    · rfl
  rw [h1, prob_uniform]
  simp only [hadd]
  split
  · next hyx =>
    subst hyx
    have : (List.range (xs.length + 1)).countP
        (fun r => decide (y ∈ if r < k then s.samples.set r y else s.samples)) =
        (List.range (xs.length + 1)).countP (fun r => decide (r < k)) := by
      apply List.countP_congr
      intro r _
      simp only [decide_eq_true_eq]
      split
      · next hr => simp only [hr, iff_true]; exact List.mem_set (by omega) y
      · next hr => simp [hr, hx]
    rw [this, countP_lt_range k _ (by omega)]
  · next hyx =>
    split
    · next hy =>
      obtain ⟨i, hi, hiy⟩ := List.getElem_of_mem hy
      have : (List.range (xs.length + 1)).countP
          (fun r => decide (y ∈ if r < k then s.samples.set r x else s.samples)) =
          (List.range (xs.length + 1)).countP (fun r => decide (r ≠ i)) := by
        apply List.countP_congr
        intro r _
        simp only [decide_eq_true_eq]
        split
        · next hr =>
          constructor
          · intro hm hri
            subst hri
            obtain ⟨j, hj⟩ := List.getElem?_of_mem hm
            rw [List.getElem?_set] at hj
            split at hj
            · exact hyx (Option.some.inj hj).symm
            · next hne =>
              obtain ⟨hjl, hjy⟩ := List.getElem?_eq_some_iff.1 hj
              exact hne ((List.Nodup.getElem_inj_iff (h.nodup hn1)).1 (hiy.trans hjy.symm))
          · intro hne
            apply List.mem_of_getElem? (i := i)
            rw [List.getElem?_set_ne hne, List.getElem?_eq_getElem hi, hiy]
        · next hr => simp only [hy, true_iff]; omega
      rw [this, countP_ne_range i _ (by omega)]
    · next hy =>
      have : (List.range (xs.length + 1)).countP
          (fun r => decide (y ∈ if r < k then s.samples.set r x else s.samples)) = 0 := by
        rw [List.countP_eq_zero]
        intro r _
        simp only [decide_eq_true_eq]
        split
        · intro hm
          rcases List.mem_or_eq_of_mem_set hm with hm | hm
          · exact hy hm
          · exact hyx hm
        · exact hy
      rw [this]
      simp

omit [DecidableEq α] in
theorem prob_total (k : Nat) (xs : List α) : prob (reservoirDist k xs) (fun _ => true) = 1 := by
  induction xs using List.reverseRec with
  | nil => simp [reservoirDist, prob]
  | append_singleton xs x ih =>
    rw [dist_append, prob_bind]
    have : ∀ q ∈ reservoirDist k xs, q.1 * prob (reservoirStep x q.2) (fun _ => true) = q.1 := by
      intro q hq
      obtain ⟨s, hs, _⟩ := dist_good k xs q hq
      rw [hs]
      have : prob (reservoirStep x (.ok s)) (fun _ => true) = 1 := by
        rw [step_ok]
        split
        · have h2 := prob_uniform s.numElementsAdded (fun _ => true)
          rw [List.countP_eq_length.2 (by simp), List.length_range] at h2
          have h3 : ((s.numElementsAdded : ℚ) + 1) ≠ 0 := by positivity
          rw [Nat.cast_add, Nat.cast_one, div_self h3] at h2
          rw [← h2]
          unfold prob
          rw [List.map_map]
          rfl
        · simp [prob]
      rw [this, mul_one]
    rw [List.map_congr_left this]
    unfold prob at ih
    simpa using ih

theorem prob_holds (k : Nat) (xs : List α) (hn : xs.Nodup) (y : α) (hy : y ∈ xs) :
    (k ≤ xs.length → prob (reservoirDist k xs) (holds y) = (k : ℚ) / (xs.length : ℚ)) ∧
    (xs.length ≤ k → prob (reservoirDist k xs) (holds y) = 1) := by
  have hsmall : ∀ xs : List α, y ∈ xs → xs.length ≤ k → prob (reservoirDist k xs) (holds y) = 1 := by
    intro xs hy hle
    have ht := prob_total k xs
    rw [← ht]
    unfold prob
    congr 1
    apply List.map_congr_left
    intro q hq
    obtain ⟨s, hs, hg⟩ := dist_good k xs q hq
    rw [hs]
    simp [holds, hg.all hle, hy]
  refine ⟨?_, hsmall xs hy⟩
  induction xs using List.reverseRec generalizing y with
  | nil => simp at hy
  | append_singleton xs x ih =>
    intro hk
    have hlen : (xs ++ [x]).length = xs.length + 1 := by simp
    rw [hlen] at hk
    rcases Nat.lt_or_ge xs.length k with hlt | hge
    · have hke : k = xs.length + 1 := by omega
      rw [hsmall _ hy (by rw [hlen]; omega), hlen, hke]
      push_cast
      rw [div_self (by positivity)]
    · rw [dist_append, prob_bind]
      have hn1 := (List.nodup_append'.1 hn).1
      have hcongr : ∀ q ∈ reservoirDist k xs, q.1 * prob (reservoirStep x q.2) (holds y) =
          if y = x then ((k : ℚ) / ((xs.length : ℚ) + 1)) * (if (fun _ => true) q.2 then q.1 else 0)
          else ((xs.length : ℚ) / ((xs.length : ℚ) + 1)) * (if holds y q.2 then q.1 else 0) := by
        intro q hq
        obtain ⟨s, hs, hg⟩ := dist_good k xs q hq
        rw [hs, step_prob hg hn hge y]
        split
        · simp only [if_true]; ring
        · by_cases hm : y ∈ s.samples
          · simp only [hm, holds, decide_true, if_true]; ring
          · simp [hm, holds]
      rw [List.map_congr_left hcongr, hlen]
      push_cast
      by_cases hyx : y = x
      · simp only [if_pos hyx]
        rw [List.sum_map_mul_left]
        have ht := prob_total k xs
        unfold prob at ht
        simp only [if_true] at ht ⊢
        rw [ht, mul_one]
      · simp only [if_neg hyx]
        rw [List.sum_map_mul_left]
        have hyxs : y ∈ xs := by
          rcases List.mem_append.1 hy with h | h
          · exact h
          · exact absurd (List.mem_singleton.1 h) hyx
        have hp := ih hn1 y hyxs (hsmall := hsmall) hge
        unfold prob at hp
        rw [hp]
        have h0 : (xs.length : ℚ) ≠ 0 := by
          have := List.length_pos_of_mem hyxs
          positivity
        have h1 : (xs.length : ℚ) + 1 ≠ 0 := by positivity
        field_simp

omit [DecidableEq α] in
/-- Adding elements commutes with renaming them, so only positions matter. -/
theorem add_map {β : Type} (f : α → β) (s : Reservoir α) (x : α) (r : Nat) :
    (⟨s.numElementsToSample, s.numElementsAdded, s.samples.map f⟩ : Reservoir β).add (f x) r =
      match s.add x r with
      | .ok s => .ok ⟨s.numElementsToSample, s.numElementsAdded, s.samples.map f⟩
      | .abort => .abort
      | .ub => .ub := by
  unfold add
  simp only [List.length_map]
  split
  · simp
  · split
    · split
      · simp [List.map_set]
      · rfl
    · rfl

end Reservoir

namespace Histogram

variable {T : Type} [LinearOrder T]

theorem upperBound_cons (a : T) (b : List T) (v : T) :
    upperBound (a :: b) v = if a ≤ v then upperBound b v + 1 else 0 := by
  unfold upperBound
  rw [List.takeWhile_cons]
  by_cases h : a ≤ v
  · simp [h]
  · simp [h, not_le.1 h]

theorem upperBound_le (b : List T) (v : T) : upperBound b v ≤ b.length :=
  (List.takeWhile_sublist _).length_le

theorem upperBound_iff (b : List T) (hb : b.Pairwise (· ≤ ·)) (v : T) : ∀ k,
    upperBound b v = k + 1 ↔ inBucket b k v = true := by
  induction b with
  | nil => intro k; simp [upperBound, inBucket]
  | cons a b ih =>
    intro k
    obtain ⟨h1, h2⟩ := List.pairwise_cons.1 hb
    rw [upperBound_cons]
    by_cases h : a ≤ v
    · rw [if_pos h]
      cases k with
      | zero =>
        cases b with
        | nil => simp [upperBound, inBucket, h]
        | cons c b =>
          rw [upperBound_cons]
          by_cases hc : c ≤ v
          · simp [inBucket, h, hc, not_lt.2 hc]
          · simp [inBucket, h, hc, not_le.1 hc]
      | succ k =>
        rw [Nat.add_right_cancel_iff, ih h2 k]
        simp [inBucket]
    · rw [if_neg h]
      refine ⟨fun h0 => by omega, fun hb => ?_⟩
      exfalso
      rw [inBucket, Bool.and_eq_true] at hb
      obtain ⟨hk, _⟩ := hb
      cases hg : (a :: b)[k]? with
      | none => rw [hg] at hk; cases hk
      | some x =>
        rw [hg] at hk
        have hx : x ≤ v := of_decide_eq_true hk
        cases k with
        | zero =>
          simp only [List.getElem?_cons_zero, Option.some.injEq] at hg
          exact h (hg ▸ hx)
        | succ k =>
          rw [List.getElem?_cons_succ] at hg
          exact h (le_trans (h1 x (List.mem_of_getElem? hg)) hx)

theorem sum_set_succ (l : List Nat) : ∀ (i c : Nat), l[i]? = some c → (l.set i (c + 1)).sum = l.sum + 1 := by
  induction l with
  | nil => intro i c h; simp at h
  | cons a l ih =>
    intro i c h
    cases i with
    | zero =>
      simp only [List.getElem?_cons_zero, Option.some.injEq] at h
      subst h
      simp only [List.set_cons_zero, List.sum_cons]
      omega
    | succ i =>
      rw [List.getElem?_cons_succ] at h
      rw [List.set_cons_succ, List.sum_cons, List.sum_cons, ih i c h]
      omega

theorem addAll_spec (vs : List T) : ∀ h : Histogram T, h.counts.length = h.boundaries.length →
    (∀ v ∈ vs, 0 < upperBound h.boundaries v) →
    ∃ h', addAll vs h = .ok h' ∧ h'.boundaries = h.boundaries ∧ h'.counts.length = h.counts.length ∧
      h'.counts.sum = h.counts.sum + vs.length ∧
      ∀ (k c : Nat), h.counts[k]? = some c →
        h'.counts[k]? = some (c + vs.countP fun v => decide (upperBound h.boundaries v = k + 1)) := by
  induction vs with
  | nil => intro h _ _; exact ⟨h, rfl, rfl, rfl, rfl, fun k c hk => by simpa using hk⟩
  | cons v vs ih =>
    intro h hl hv
    have h0 := hv v List.mem_cons_self
    have h1 := upperBound_le h.boundaries v
    obtain ⟨i, hi⟩ : ∃ i, upperBound h.boundaries v = i + 1 :=
      ⟨upperBound h.boundaries v - 1, by omega⟩
    have hil : i < h.counts.length := by omega
    have hadd : h.add v = .ok ⟨h.boundaries, h.counts.set i (h.counts[i] + 1)⟩ := by
      rw [add, hi]
      simp only [List.getElem?_eq_getElem hil]
    obtain ⟨h', e1, e2, e3, e4, e5⟩ := ih ⟨h.boundaries, h.counts.set i (h.counts[i] + 1)⟩
      (by simpa using hl) (fun w hw => hv w (List.mem_cons_of_mem _ hw))
    refine ⟨h', by rw [addAll, hadd]; exact e1, e2, by simpa using e3, ?_, ?_⟩
    · rw [e4, sum_set_succ _ i _ (List.getElem?_eq_getElem hil), List.length_cons]
      omega
    · intro k c hk
      rw [List.countP_cons]
      by_cases hki : i = k
      · subst hki
        have hc : h.counts[i] = c := by
          rw [List.getElem?_eq_getElem hil] at hk
          exact Option.some.inj hk
        rw [e5 i (h.counts[i] + 1) (by simp [hil])]
        simp only [hi, decide_true, if_true, hc]
        congr 1
        omega
      · rw [e5 k c (by simp only; rw [List.getElem?_set_ne hki]; exact hk)]
        simp [hi, hki]

omit [LinearOrder T] in
/-- The printed ranges and the last bin add up. -/
theorem rangeRows_sum (bs : List T) : ∀ (cs : List Nat) (c : Nat), cs.length = bs.length → 2 ≤ bs.length →
    cs[bs.length - 2]? = some c → ((rangeRows bs cs).map Row.count).sum + c + cs.getLastD 0 = cs.sum := by
  induction bs with
  | nil => intro cs c _ h; simp at h
  | cons a bs ih =>
    intro cs c hl h2 hc
    cases cs with
    | nil => simp at hl
    | cons d cs =>
      cases bs with
      | nil => simp at h2
      | cons b bs =>
        cases bs with
        | nil =>
          obtain ⟨e, rfl⟩ : ∃ e, cs = [e] := by
            rw [List.length_cons, List.length_cons] at hl
            exact List.length_eq_one_iff.1 (by simpa using hl)
          simp only [List.length_cons, List.length_nil] at hc
          simp only [Nat.zero_add, Nat.reduceAdd, Nat.sub_self, List.getElem?_cons_zero,
            Option.some.injEq] at hc
          subst hc
          simp [rangeRows]
        | cons b' bs =>
          rw [rangeRows]
          simp only [List.map_cons, List.sum_cons, Row.count]
          have hl' : cs.length = (b :: b' :: bs).length := by simpa using hl
          have := ih cs c hl' (by simp) (by
            have e : (a :: b :: b' :: bs).length - 2 = ((b :: b' :: bs).length - 2) + 1 := by
              simp only [List.length_cons]; omega
            rw [e, List.getElem?_cons_succ] at hc
            exact hc)
          have hlast : (d :: cs).getLastD 0 = cs.getLastD 0 := by
            cases cs with
            | nil => simp at hl'
            | cons x xs => simp
          rw [hlast]
          omega

omit [LinearOrder T] in
theorem mem_rangeRows (bs : List T) : ∀ (cs : List Nat) (row : Row T), row ∈ rangeRows bs cs →
    ∃ (k : Nat) (x y : T) (c : Nat), row = .between x y c ∧ bs[k]? = some x ∧ bs[k + 1]? = some y ∧
      cs[k]? = some c := by
  induction bs with
  | nil => intro cs row h; simp [rangeRows] at h
  | cons a bs ih =>
    intro cs row h
    cases bs with
    | nil => simp [rangeRows] at h
    | cons b bs =>
      cases cs with
      | nil => simp [rangeRows] at h
      | cons d cs =>
        cases bs with
        | nil => simp [rangeRows] at h
        | cons b' bs =>
          rw [rangeRows] at h
          rcases List.mem_cons.1 h with h | h
          · exact ⟨0, a, b, d, h, rfl, rfl, rfl⟩
          · obtain ⟨k, x, y, c, h1, h2, h3, h4⟩ := ih cs row h
            exact ⟨k + 1, x, y, c, h1, by simpa using h2, by simpa using h3, by simpa using h4⟩

end Histogram
end Theia
