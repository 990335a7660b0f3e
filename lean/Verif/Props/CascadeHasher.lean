import Mathlib.Data.List.Sort
import Mathlib.Data.Rat.Lemmas
import Mathlib.Algebra.Order.Field.Rat
import Verif.Proof.CascadeHasher
import Verif.Props.FeatureMatcher

/-!
# C32: cascade hashing
-/

namespace Theia

open Spec Cascade

variable {D K : Type}

/-- C32, hashing: for all projections and descriptors, hashing returns. Every descriptor has one bucket id
in each of the six groups: the ten sign bits read as a binary number, which is below 1024. Bucket `b` of
group `g` exists for every such `b` and lists the descriptors with that id, each once. -/
theorem C32_hashed (s : Signs D) (xs : List D) :
    ∃ img, createHashed s xs = .ok img ∧ img.descs.length = xs.length ∧ img.buckets.length = 6 ∧
      (∀ (i : Nat) x, xs[i]? = some x → ∃ h, img.descs[i]? = some h ∧ h.code.length = 128 ∧
        h.bucketIds.length = 6 ∧ ∀ g < 6, h.bucketIds[g]? = some (binary (s.secondary x g) 10) ∧
          binary (s.secondary x g) 10 < 1024) ∧
      ∀ g < 6, ∃ group, img.buckets[g]? = some group ∧ group.length = 1024 ∧
        ∀ b < 1024, ∃ bucket, group[b]? = some bucket ∧ bucket.Nodup ∧
          ∀ i : Nat, i ∈ bucket ↔ ∃ x, xs[i]? = some x ∧ binary (s.secondary x g) 10 = b := by
  obtain ⟨img, h1, h2⟩ := createHashed_ok s xs
  have hid : ∀ x g, idOf s x g = binary (s.secondary x g) 10 := fun x g => bucketId_eq _ _ (by decide)
  refine ⟨img, h1, by rw [h2.descs, List.length_map], h2.len, ?_, ?_⟩
  · intro i x hx
    refine ⟨hashDesc s x, ?_, ?_, ?_, ?_⟩
    · rw [h2.descs, List.getElem?_map, hx]; rfl
    · simp [hashDesc, hashCodeSize]
    · simp [hashDesc, numBucketGroups]
    · intro g hg
      refine ⟨?_, ?_⟩
      · rw [hashDesc_bucketIds s x g hg, hid]
      · exact binary_lt _ 10
  · intro g hg
    obtain ⟨bs, b1, b2, b3⟩ := h2.buckets g hg
    refine ⟨bs, b1, b2, ?_⟩
    intro b hb
    refine ⟨_, b3 b hb, nodup_sel _ _ _ _ _, ?_⟩
    intro i
    rw [mem_sel]
    constructor
    · rintro ⟨k, x, rfl, hx, hk⟩
      rw [hid] at hk
      exact ⟨x, by simpa using hx, hk⟩
    · rintro ⟨x, hx, hk⟩
      exact ⟨i, x, by omega, hx, by rw [hid]; exact hk⟩

variable [Field K] [LinearOrder K] [IsStrictOrderedRing K]

/-- C32, matching: for all projections, descriptors, distances and ratios, matching two hashed images never
reads out of range and returns. For each descriptor `x` of the first image it looks at up to eleven distinct
descriptors `T` of the second that share a bucket with it, those with the least code distance. If the number
of candidates, counted once per shared bucket, is above ten, then at least two of them are distinct, and `x`
is matched exactly to the one in `T` that is nearest and passes the ratio test against all others in `T`.
Otherwise it is not matched. No descriptor of the first image is matched twice. -/
theorem C32_match_images (ps : List (K × Nat) → List (K × Nat)) (hps : IsPairPartialSort ps) (dist : D → D → K)
    (ratio : K) (s1 s2 : Signs D) (xs ys : List D) (img1 img2 : HashedImage)
    (h1 : createHashed s1 xs = .ok img1) (h2 : createHashed s2 ys = .ok img2) :
    ∃ ms, matchImages ps dist ratio img1 xs img2 ys = .ok ms ∧
      (ms.map (·.feature1)).Pairwise (· < ·) ∧
      (∀ r ∈ ms, ∃ i : Nat, r.feature1 = i ∧ i < xs.length) ∧
      ∀ (i : Nat) x, xs[i]? = some x →
        ∃ T, TopEleven s1 s2 x ys T ∧ (10 < candidateCount s1 s2 x ys → 2 ≤ T.length) ∧
          ∀ r : Matcher.FMatch K, (r ∈ ms ∧ r.feature1 = i) ↔ 10 < candidateCount s1 s2 x ys ∧
            ∃ (j : Nat) (y : D), ys[j]? = some y ∧ r = ⟨i, j, dist y x⟩ ∧ Accepts dist ratio x ys T j := by
  obtain ⟨i1, e1, k1⟩ := createHashed_ok s1 xs
  obtain ⟨i2, e2, k2⟩ := createHashed_ok s2 ys
  rw [e1] at h1
  rw [e2] at h2
  cases h1
  cases h2
  obtain ⟨ms, m1, m2, m3, m4⟩ := matchLoop_ok hps dist ratio s1 s2 ys img2 k2 xs []
    (List.replicate ys.length false) (by simp)
  simp only [List.nil_append, List.length_nil, Nat.zero_le, forall_const, true_and] at m1 m3 m4
  by_cases hz : xs.length = 0 ∨ ys.length = 0
  · have hnil : ms = [] := by
      rw [List.eq_nil_iff_forall_not_mem]
      intro r hr
      obtain ⟨i, f1, f2⟩ := m3 r hr
      have hx : xs[i]? = some xs[i] := List.getElem?_eq_getElem f2
      obtain ⟨T, _, _, t3⟩ := m4 i _ hx
      obtain ⟨_, j, y, hy, _⟩ := (t3 r).1 ⟨hr, f1⟩
      have := (List.getElem?_eq_some_iff.1 hy).1
      omega
    refine ⟨ms, ?_, m2, m3, m4⟩
    rw [matchImages, if_pos hz, hnil]
  · refine ⟨ms, ?_, m2, m3, m4⟩
    rw [matchImages, if_neg hz, k1.descs, m1]

omit [Field K] [IsStrictOrderedRing K] in
/-- Sorting is a partial sort, so the hypothesis on `ps` can be met. -/
theorem isPairPartialSort_insertionSort :
    IsPairPartialSort (fun l : List (K × Nat) =>
      l.insertionSort (fun a b => a.1 < b.1 ∨ (a.1 = b.1 ∧ a.2 ≤ b.2))) := by
  intro l hl
  have hperm := List.perm_insertionSort (fun a b : K × Nat => a.1 < b.1 ∨ (a.1 = b.1 ∧ a.2 ≤ b.2)) l
  have htot : Std.Total (fun a b : K × Nat => a.1 < b.1 ∨ (a.1 = b.1 ∧ a.2 ≤ b.2)) := ⟨fun a b => by
    rcases lt_trichotomy a.1 b.1 with h | h | h
    · exact Or.inl (Or.inl h)
    · rcases Nat.le_total a.2 b.2 with h' | h'
      · exact Or.inl (Or.inr ⟨h, h'⟩)
      · exact Or.inr (Or.inr ⟨h.symm, h'⟩)
    · exact Or.inr (Or.inl h)⟩
  have htr : IsTrans (K × Nat) (fun a b : K × Nat => a.1 < b.1 ∨ (a.1 = b.1 ∧ a.2 ≤ b.2)) :=
    ⟨fun a b c => pairLe_trans⟩
  have hsorted := List.pairwise_insertionSort (fun a b : K × Nat => a.1 < b.1 ∨ (a.1 = b.1 ∧ a.2 ≤ b.2)) l
  match hs : l.insertionSort (fun a b : K × Nat => a.1 < b.1 ∨ (a.1 = b.1 ∧ a.2 ≤ b.2)) with
  | [] => rw [hs] at hperm; have := hperm.length_eq; simp at this; omega
  | [a] => rw [hs] at hperm; have := hperm.length_eq; simp at this; omega
  | a :: b :: rest =>
    rw [hs] at hperm hsorted
    rw [List.pairwise_cons, List.pairwise_cons] at hsorted
    exact ⟨a, b, rest, hs, hperm, hsorted.1 b (by simp), hsorted.2.1⟩

/-- Projections of numbers for the examples: numbers below and above 100 go to different buckets, and the
hash code tells even from odd. -/
def exampleSigns : Signs Nat :=
  { primary := fun x j => decide (j < x % 2)
    secondary := fun x _ _ => decide (100 < x) }

/-- Two descriptors in the bucket of the query make twelve candidates, and the nearer one is matched; the
lone descriptor 200 has its exact duplicate as its only candidate, six times, and is not matched. -/
example :
    candidateCount exampleSigns exampleSigns 3 [1, 4, 200] = 12 ∧
    candidateCount exampleSigns exampleSigns 200 [1, 4, 200] = 6 ∧
    (do let img1 ← createHashed exampleSigns [3, 200]
        let img2 ← createHashed exampleSigns [1, 4, 200]
        matchImages (fun l : List (ℚ × Nat) => l.insertionSort (fun a b => a.1 < b.1 ∨ (a.1 = b.1 ∧ a.2 ≤ b.2)))
          (fun x y : Nat => |(x : ℚ) - y|) (9 / 10) img1 [3, 200] img2 [1, 4, 200]) = .ok [⟨0, 1, 1⟩] := by
  refine ⟨by decide, by decide, ?_⟩
  decide +kernel

/-- C32, both directions: matching a pair of hashed images never aborts. It succeeds if and only if it
returns at least the required number of matches. The matches are those of one direction or, if symmetric
matches are asked for and there were enough, those of them that the other direction finds as well. -/
theorem C32_match_pair (ps : List (K × Nat) → List (K × Nat)) (hps : IsPairPartialSort ps) (dist : D → D → K)
    (o : Matcher.Options K) (s1 s2 : Signs D) (xs ys : List D) (img1 img2 : HashedImage)
    (h1 : createHashed s1 xs = .ok img1) (h2 : createHashed s2 ys = .ok img2) :
    ∃ fwd bwd ok ms,
      matchImages ps dist (if o.useLowesRatio then o.lowesRatio else 1) img1 xs img2 ys = .ok fwd ∧
      matchImages ps dist (if o.useLowesRatio then o.lowesRatio else 1) img2 ys img1 xs = .ok bwd ∧
      matchPair ps dist o img1 xs img2 ys = .ok (ok, ms) ∧ (ok = true ↔ o.minMatches ≤ ms.length) ∧
      (o.symmetric = false ∨ fwd.length < o.minMatches → ms = fwd) ∧
      (o.symmetric = true → o.minMatches ≤ fwd.length → ms.Sublist fwd ∧
        ∀ f, f ∈ ms ↔ f ∈ fwd ∧ ∃ b ∈ bwd, b.feature1 = f.feature2 ∧ b.feature2 = f.feature1) := by
  obtain ⟨fwd, f1, f2, f3, _⟩ := C32_match_images ps hps dist (if o.useLowesRatio then o.lowesRatio else 1)
    s1 s2 xs ys img1 img2 h1 h2
  obtain ⟨bwd, b1, b2, _, _⟩ := C32_match_images ps hps dist (if o.useLowesRatio then o.lowesRatio else 1)
    s2 s1 ys xs img2 img1 h2 h1
  obtain ⟨qs, q1, q2, q3⟩ := (C30_intersect bwd fwd (by
    intro f hf
    obtain ⟨i, e, _⟩ := f3 f hf
    rw [e]
    exact Int.natCast_nonneg _)).1 (b2.imp (fun h => ne_of_lt h))
  by_cases hc : o.minMatches ≤ fwd.length ∧ o.symmetric = true
  · refine ⟨fwd, bwd, decide (o.minMatches ≤ qs.length), qs, f1, b1, ?_, by simp, ?_, ?_⟩
    · unfold matchPair
      simp only
      rw [f1]
      simp only
      rw [if_pos hc, b1]
      simp only
      rw [q1]
    · rintro (h | h)
      · rw [hc.2] at h; simp at h
      · omega
    · intro _ _
      exact ⟨q2, q3⟩
  · refine ⟨fwd, bwd, decide (o.minMatches ≤ fwd.length), fwd, f1, b1, ?_, by simp, fun _ => rfl, ?_⟩
    · unfold matchPair
      simp only
      rw [f1]
      simp only
      rw [if_neg hc]
    · intro hs hm
      exact absurd ⟨hm, hs⟩ hc

/-- Projections that put 0 and all other numbers into different buckets of the first group only. -/
def fiveSigns : Signs Nat :=
  { primary := fun _ _ => false
    secondary := fun x g _ => decide (g = 0 ∧ 0 < x) }

/-- The source says that a descriptor is skipped unless there are at least two candidates, but the test
counts a candidate once for each bucket shared and asks for more than ten. So a descriptor with at least two
distinct candidates may be skipped: two candidates that each share five buckets are too few. -/
theorem C32_two_candidates_counterexample : ∃ s : Signs Nat,
    sharedGroups s s 0 1 = 5 ∧ sharedGroups s s 0 2 = 5 ∧ ∃ img1 img2, createHashed s [0] = .ok img1 ∧
      createHashed s [1, 2] = .ok img2 ∧
      ∀ (ps : List (K × Nat) → List (K × Nat)), IsPairPartialSort ps → ∀ (dist : Nat → Nat → K) (ratio : K),
        matchImages ps dist ratio img1 [0] img2 [1, 2] = .ok [] := by
  obtain ⟨i1, e1, _⟩ := createHashed_ok fiveSigns [0]
  obtain ⟨i2, e2, _⟩ := createHashed_ok fiveSigns [1, 2]
  refine ⟨fiveSigns, by decide, by decide, i1, i2, e1, e2, ?_⟩
  intro ps hps dist ratio
  obtain ⟨ms, m1, _, m3, m4⟩ := C32_match_images ps hps dist ratio fiveSigns fiveSigns [0] [1, 2] i1 i2 e1 e2
  have hnil : ms = [] := by
    rw [List.eq_nil_iff_forall_not_mem]
    intro r hr
    obtain ⟨i, f1, f2⟩ := m3 r hr
    have hi : i = 0 := by simpa using f2
    subst hi
    obtain ⟨T, _, _, t3⟩ := m4 0 0 rfl
    have := ((t3 r).1 ⟨hr, f1⟩).1
    have hc : candidateCount fiveSigns fiveSigns 0 [1, 2] = 10 := by decide
    omega
  rw [m1, hnil]

end Theia
