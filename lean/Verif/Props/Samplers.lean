import Mathlib.Tactic.NormNum
import Verif.Proof.Samplers

/-!
# C22: samplers
-/

namespace Theia

open Spec

/-- C22, random sampler, safety: initialisation fails iff there are fewer data than the sample size,
and afterwards every one of any number of calls returns a minimal sample, whatever the random numbers. -/
theorem C22_random_minimal (m n : Nat) :
    (n < m → RandomSampler.init m n = .abort) ∧
    (m ≤ n → ∃ l, RandomSampler.init m n = .ok l ∧
      ∀ ds : List (List Nat), (∀ d ∈ ds, DrawsInRange m n d) →
        ∃ ss, RandomSampler.samples ds l = .ok ss ∧ ss.length = ds.length ∧
          ∀ s ∈ ss, MinimalSample m n s) := by
  constructor
  · intro h
    rw [RandomSampler.init, if_neg (by omega)]
  · intro h
    exact ⟨List.range n, by rw [RandomSampler.init, if_pos h],
      fun ds hds => RandomSampler.samples_spec h ds _ (List.Perm.refl _) hds⟩

/-- C22, random sampler, uniformity: after any number of earlier calls, for each ordered minimal sample
exactly one choice of the random numbers makes the next call return it. So every sample can occur, and
all are equally likely when the numbers are drawn independently and uniformly. -/
theorem C22_random_uniform (m n : Nat) (hm : m ≤ n) (l : List Nat) (hl : RandomSampler.init m n = .ok l)
    (ds : List (List Nat)) (hds : ∀ d ∈ ds, DrawsInRange m n d) (t : List Nat) (ht : MinimalSample m n t) :
    ∃! d, DrawsInRange m n d ∧ ∃ ss, RandomSampler.samples (ds ++ [d]) l = .ok (ss ++ [t]) := by
  rw [RandomSampler.init, if_pos hm] at hl
  cases hl
  exact RandomSampler.samples_last hm t ht ds _ (List.Perm.refl _) hds

/-- Two successive samples of three data out of five. -/
example : RandomSampler.samples [[4, 1, 3], [2, 2, 2]] [0, 1, 2, 3, 4] = .ok [[4, 1, 3], [3, 4, 1]] ∧
    (∀ d ∈ [[4, 1, 3], [2, 2, 2]], DrawsInRange 3 5 d) ∧ MinimalSample 3 5 [3, 4, 1] := by
  refine ⟨by decide, ?_, by unfold MinimalSample; decide⟩
  intro d hd
  refine ⟨?_, ?_⟩
  · revert d; decide
  · intro i r h
    rcases i with _ | _ | _ | i <;> simp only [List.mem_cons, List.not_mem_nil, or_false] at hd <;>
      rcases hd with rfl | rfl <;> simp at h <;> omega

/-- C22, exhaustive sampler: the calls of a fresh sampler on `n ≥ 2` data go through a list of all
pairs again and again; the list has `n (n - 1) / 2` entries and contains each pair `i < j < n` once. -/
theorem C22_exhaustive_cycles (n : Nat) (hn : 2 ≤ n) (s : ExhaustiveSampler)
    (hs : ExhaustiveSampler.init ⟨0, 1, 0⟩ n = .ok s) :
    ∃ pairs : List (Nat × Nat), pairs.Nodup ∧ (∀ p, p ∈ pairs ↔ IsPair n p) ∧
      2 * pairs.length = n * (n - 1) ∧
      ∀ cycles, (ExhaustiveSampler.samples (cycles * pairs.length) s).1 =
        (List.replicate cycles pairs).flatten := by
  rw [ExhaustiveSampler.init, if_pos hn] at hs
  cases hs
  have hc : 0 + (n - 1) + 1 = n := by omega
  refine ⟨ExhaustiveSampler.rows n (n - 1) 0, ExhaustiveSampler.nodup_rows n _ 0 hc, ?_, ?_, ?_⟩
  · intro p
    rw [ExhaustiveSampler.mem_rows n _ 0 hc]
    simp [IsPair]
  · rw [ExhaustiveSampler.length_rows n _ 0 hc]
    have : n - 1 + 1 = n := by omega
    rw [this]
  · intro cycles
    rw [ExhaustiveSampler.samples_cycles (ExhaustiveSampler.samples_rows n _ 0 hc (by omega))]

example : (ExhaustiveSampler.samples 8 ⟨0, 1, 4⟩).1 =
    [(0, 1), (0, 2), (0, 3), (1, 2), (1, 3), (2, 3), (0, 1), (0, 2)] := by decide

/-- C22 fails for an exhaustive sampler used for a second, smaller data set: `Initialize` does not
reset the counters, so it returns indices outside the data. -/
theorem C22_exhaustive_reuse_counterexample :
    ∃ s s' : ExhaustiveSampler, ExhaustiveSampler.init ⟨0, 1, 0⟩ 6 = .ok s ∧
      ExhaustiveSampler.init (ExhaustiveSampler.samples 7 s).2 3 = .ok s' ∧
      ¬ IsPair 3 s'.sample.1 :=
  ⟨⟨0, 1, 6⟩, ⟨1, 4, 3⟩, by decide, by decide, by unfold IsPair; decide⟩

/-- C22, PROSAC: any sample returned consists of `m` different indices, and they are all in range
whenever the growth function has not yet reached the whole data set. Only the last index can be out of
range, and only by being equal to the number of data. -/
theorem C22_prosac_minimal (m n k : Nat) (hm : 1 ≤ m) (hn : m ≤ n) (draws s : List Nat)
    (hd : ∀ r ∈ draws, r < ProsacSampler.drawBound m n k)
    (hs : ProsacSampler.sample m n k draws = some s) :
    s.length = m ∧ s.Nodup ∧ (∀ x ∈ s.dropLast, x < n) ∧ (∀ x ∈ s, x ≤ n) ∧
      ((ProsacSampler.grow m n k).1 < n → MinimalSample m n s) := by
  obtain ⟨h1, h2⟩ := ProsacSampler.grow_bounds m n k hn
  unfold ProsacSampler.sample at hs
  unfold ProsacSampler.drawBound at hd
  split at hs
  · next h =>
    rw [if_pos h] at hd
    obtain ⟨e1, e2, e3⟩ := ProsacSampler.drawUnique_spec m [] draws _ s List.nodup_nil (by simp) hd hs
    have e4 : ∀ x ∈ s, x < n := fun x hx => lt_of_lt_of_le (e3 x hx) h2
    rw [List.length_nil, Nat.zero_add] at e1
    exact ⟨e1, e2, fun x hx => e4 x ((List.dropLast_sublist s).subset hx), fun x hx => (e4 x hx).le,
      fun _ => ⟨e1, e2, e4⟩⟩
  · next h =>
    rw [if_neg h] at hd
    rw [Option.map_eq_some_iff] at hs
    obtain ⟨u, hu, rfl⟩ := hs
    obtain ⟨e1, e2, e3⟩ := ProsacSampler.drawUnique_spec (m - 1) [] draws _ u List.nodup_nil (by simp)
      hd hu
    rw [List.length_nil, Nat.zero_add] at e1
    have l1 : (u ++ [(ProsacSampler.grow m n k).1]).length = m := by
      rw [List.length_append, List.length_singleton]; omega
    have l2 : (u ++ [(ProsacSampler.grow m n k).1]).Nodup := by
      rw [List.nodup_append']
      refine ⟨e2, by simp, ?_⟩
      intro x hx hx'
      rw [List.mem_singleton.1 hx'] at hx
      have := e3 _ hx
      omega
    refine ⟨l1, l2, ?_, ?_, ?_⟩
    · intro x hx
      rw [List.dropLast_concat] at hx
      have := e3 x hx
      omega
    · intro x hx
      rcases List.mem_append.1 hx with hx | hx
      · have := e3 x hx; omega
      · rw [List.mem_singleton.1 hx]; exact h2
    · intro hlt
      refine ⟨l1, l2, ?_⟩
      intro x hx
      rcases List.mem_append.1 hx with hx | hx
      · have := e3 x hx; omega
      · rw [List.mem_singleton.1 hx]; exact hlt

/-- C22, PROSAC, liveness: some numbers the generator may draw make the call return. -/
theorem C22_prosac_returns (m n k : Nat) (hm : 1 ≤ m) (hn : m ≤ n) :
    ∃ draws, (∀ r ∈ draws, r < ProsacSampler.drawBound m n k) ∧
      ∃ s, ProsacSampler.sample m n k draws = some s := by
  obtain ⟨h1, h2⟩ := ProsacSampler.grow_bounds m n k hn
  unfold ProsacSampler.sample ProsacSampler.drawBound
  split
  · refine ⟨List.range m, fun r hr => ?_, List.range m, ?_⟩
    · have := List.mem_range.1 hr; omega
    · have := ProsacSampler.drawUnique_exact (List.range m) [] (by simpa using List.nodup_range)
      simpa using this
  · refine ⟨List.range (m - 1), fun r hr => ?_,
      List.range (m - 1) ++ [(ProsacSampler.grow m n k).1], ?_⟩
    · have := List.mem_range.1 hr; omega
    · have := ProsacSampler.drawUnique_exact (List.range (m - 1)) []
        (by simpa using List.nodup_range)
      rw [List.length_range, List.nil_append] at this
      rw [this]
      rfl

/-- C22 is false for PROSAC: with exactly as many data as the sample needs, the first sample always
contains an index outside the data. -/
theorem C22_prosac_counterexample (m : Nat) (draws s : List Nat)
    (hs : ProsacSampler.sample m m 1 draws = some s) : m ∈ s := by
  have hg : ProsacSampler.grow m m 1 = (m, ProsacSampler.initialTn m m, 1) := by
    simp [ProsacSampler.grow, ProsacSampler.growStep]
  unfold ProsacSampler.sample ProsacSampler.allRandom at hs
  rw [hg] at hs
  simp only [Nat.cast_one, lt_self_iff_false, decide_false, Bool.false_eq_true, if_false,
    Option.map_eq_some_iff] at hs
  obtain ⟨u, _, rfl⟩ := hs
  simp

example : ProsacSampler.sample 2 2 1 [0] = some [0, 2] := by
  have hg : ProsacSampler.grow 2 2 1 = (2, ProsacSampler.initialTn 2 2, 1) := by
    simp [ProsacSampler.grow, ProsacSampler.growStep]
  unfold ProsacSampler.sample ProsacSampler.allRandom
  rw [hg]
  simp [ProsacSampler.drawUnique, ProsacSampler.reject]

/-- With a hundred data the second sample already draws from three of them. -/
example : (ProsacSampler.grow 2 100 2).1 = 3 := by
  simp [ProsacSampler.grow, ProsacSampler.growStep, List.range_succ]

end Theia
