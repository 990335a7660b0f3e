import Mathlib.Data.List.Sort
import Mathlib.Data.Rat.Lemmas
import Mathlib.Algebra.Order.Field.Rat
import Verif.Proof.FeatureMatcher

/-!
# C30: feature matching
-/

namespace Theia

open Spec Matcher

variable {F I M K D : Type}

/-- C30, the pairs: for distinct image names, the list of all pairs has every unordered pair of different
images in exactly one order, no image with itself, no repetition, and n(n-1)/2 entries. -/
theorem C30_all_pairs (names : List ImageName) (hnd : names.Nodup) :
    (selectAllPairs names).Nodup ∧ 2 * (selectAllPairs names).length = names.length * (names.length - 1) ∧
    (∀ a b, (a, b) ∈ selectAllPairs names → a ∈ names ∧ b ∈ names ∧ a ≠ b ∧ (b, a) ∉ selectAllPairs names) ∧
    ∀ a ∈ names, ∀ b ∈ names, a ≠ b → (a, b) ∈ selectAllPairs names ∨ (b, a) ∈ selectAllPairs names := by
  refine ⟨nodup_selectAllPairs hnd, length_selectAllPairs names, ?_, ?_⟩
  · intro a b h
    obtain ⟨i, j, hij, hi, hj⟩ := mem_selectAllPairs.1 h
    have huniq : ∀ (i j : Nat) x, names[i]? = some x → names[j]? = some x → i = j := by
      intro i j x hi hj
      obtain ⟨hi', _⟩ := List.getElem?_eq_some_iff.1 hi
      exact (List.getElem?_inj hi' hnd).1 (hi.trans hj.symm)
    refine ⟨List.mem_iff_getElem?.2 ⟨i, hi⟩, List.mem_iff_getElem?.2 ⟨j, hj⟩, ?_, ?_⟩
    · rintro rfl
      have := huniq i j a hi hj
      omega
    · intro h'
      obtain ⟨i', j', hij', hi', hj'⟩ := mem_selectAllPairs.1 h'
      have h1 := huniq i j' a hi hj'
      have h2 := huniq j i' b hj hi'
      omega
  · intro a ha b hb hne
    obtain ⟨i, hi⟩ := List.mem_iff_getElem?.1 ha
    obtain ⟨j, hj⟩ := List.mem_iff_getElem?.1 hb
    rcases Nat.lt_trichotomy i j with h | h | h
    · exact Or.inl (mem_selectAllPairs.2 ⟨i, j, h, hi, hj⟩)
    · subst h
      rw [hi] at hj
      cases hj
      exact absurd rfl hne
    · exact Or.inr (mem_selectAllPairs.2 ⟨j, i, h, hj, hi⟩)

/-- C30, the work: the chunks handed to the thread pool cover every position of the pair list exactly once,
in order, for any positive number of threads. -/
theorem C30_chunks (numThreads : Int) (n : Nat) (hth : 1 ≤ numThreads) (hn : 1 ≤ n) :
    ∃ cs, plan numThreads n = .ok cs ∧ cs.flatMap TrackEstimator.chunkIndices = List.range n := by
  unfold plan
  simp only
  have h1 : ¬ min numThreads (n : Int) < 1 := by omega
  rw [if_neg h1]
  refine ⟨_, rfl, ?_⟩
  have hstep : 1 ≤ min maxStep (n / (min numThreads (n : Int)).toNat) := by
    rw [Nat.le_min]
    refine ⟨by decide, ?_⟩
    rw [Nat.one_le_div_iff (by omega)]
    omega
  rw [TrackEstimator.chunkLoop_cover _ _ hstep _ _ (by omega) (by omega)]
  simp

/-- C30, the result: whatever the number of threads and the order in which they do the work, matching puts
for every pair of the list the match of that pair into the database, if there is one, and changes nothing
else. The pair list is the explicit one, or all pairs if there is none. -/
theorem C30_match_images (pm : PairMatcher F I M) (nm : F → ImageName) (numThreads : Int)
    (names : List ImageName) (pairs : List (ImageName × ImageName)) (d : MatchDB.Mem F I M)
    (hth : 1 ≤ numThreads) (hne : pairsToMatch names pairs ≠ [])
    (hf : ∀ pr ∈ pairsToMatch names pairs, d.containsFeatures pr.1 = true ∧ d.containsFeatures pr.2 = true) :
    ∃ cs, plan numThreads (pairsToMatch names pairs).length = .ok cs ∧
      ∀ schedule, schedule.Perm (cs.flatMap TrackEstimator.chunkIndices) →
        ∃ d', matchImages pm nm numThreads names pairs schedule d = .ok d' ∧
          d'.features = d.features ∧ d'.priors = d.priors ∧
          ∀ a b, d'.matches_.get (a, b) = if (a, b) ∈ pairsToMatch names pairs then
            (pairResult pm nm d a b).or (d.matches_.get (a, b)) else d.matches_.get (a, b) := by
  obtain ⟨cs, h1, h2⟩ := C30_chunks numThreads (pairsToMatch names pairs).length hth
    (List.length_pos_of_ne_nil hne)
  refine ⟨cs, h1, ?_⟩
  intro schedule hs
  rw [h2] at hs
  generalize hL : pairsToMatch names pairs = L at *
  have hm : ∀ s : List Nat, (∀ i ∈ s, i < L.length) → ∃ prs, s.mapM (fun i => L[i]?) = some prs ∧
      ∀ p, p ∈ prs ↔ ∃ i ∈ s, L[i]? = some p := by
    intro s
    induction s with
    | nil => intro _; exact ⟨[], rfl, by simp⟩
    | cons i s ih =>
      intro h
      obtain ⟨prs, e1, e2⟩ := ih (fun j hj => h j (List.mem_cons_of_mem _ hj))
      have hi := h i List.mem_cons_self
      refine ⟨L[i] :: prs, ?_, ?_⟩
      · simp [List.mapM_cons, e1, List.getElem?_eq_getElem hi]
      · intro p
        simp only [List.mem_cons, e2, exists_eq_or_imp, List.getElem?_eq_getElem hi, Option.some.injEq]
        constructor
        · rintro (h | h)
          · exact Or.inl h.symm
          · exact Or.inr h
        · rintro (h | h)
          · exact Or.inl h.symm
          · exact Or.inr h
  obtain ⟨prs, e1, e2⟩ := hm schedule (fun i hi => List.mem_range.1 (hs.mem_iff.1 hi))
  have hmem : ∀ p, p ∈ prs ↔ p ∈ L := by
    intro p
    rw [e2, List.mem_iff_getElem?]
    constructor
    · rintro ⟨i, _, hi⟩; exact ⟨i, hi⟩
    · rintro ⟨i, hi⟩
      refine ⟨i, hs.mem_iff.2 (List.mem_range.2 ?_), hi⟩
      exact (List.getElem?_eq_some_iff.1 hi).1
  obtain ⟨d', g1, g2, g3, g4⟩ := matchLoop_ok pm nm prs d (by
    intro pr hpr
    have := hf pr ((hmem pr).1 hpr)
    rw [MatchDB.Mem.containsFeatures, MatchDB.Mem.containsFeatures, AMap.contains_iff, AMap.contains_iff] at this
    exact this)
  refine ⟨d', ?_, g2, g3, ?_⟩
  · unfold matchImages
    rw [hL, h1]
    simp only
    rw [e1]
    exact g1
  · intro a b
    rw [g4]
    simp only [hmem]

/-- Three images with features, two threads and an unusual order: every pair is matched. -/
example :
    let d : MatchDB.Mem Nat Unit (Nat × Nat) :=
      MatchDB.Mem.run [.putFeatures ['a'] 1, .putFeatures ['b'] 2, .putFeatures ['c'] 3]
    (∀ pr ∈ pairsToMatch [['a'], ['b'], ['c']] [], d.containsFeatures pr.1 = true ∧ d.containsFeatures pr.2 = true) ∧
    ∃ d', matchImages (fun x y _ _ => if x + y = 4 then none else some (x, y)) (fun _ => []) 2
        [['a'], ['b'], ['c']] [] [2, 0, 1] d = .ok d' ∧
      d'.namesOfMatches = [(['b'], ['c']), (['a'], ['b'])] ∧ d'.getMatch ['a'] ['c'] = .abort :=
  ⟨by decide, _, rfl, by decide, by decide⟩

/-- Matching fewer than two images without an explicit pair list aborts the process: the thread pool is
created with no threads. -/
theorem C30_single_image_counterexample (pm : PairMatcher F I M) (nm : F → ImageName) (numThreads : Int)
    (names : List ImageName) (schedule : List Nat) (d : MatchDB.Mem F I M) (h : names.length ≤ 1) :
    matchImages pm nm numThreads names [] schedule d = .abort := by
  have hnil : pairsToMatch names [] = [] := by
    unfold pairsToMatch
    rw [if_pos rfl]
    match names, h with
    | [], _ => rfl
    | [_], _ => rfl
  unfold matchImages plan
  rw [hnil]
  simp only [List.length_nil]
  rw [if_pos (by omega)]

/-- An image that was added twice is matched with itself. -/
theorem C30_twice_counterexample : selectAllPairs [['a'], ['a']] = [(['a'], ['a'])] := by decide

/-- C30, symmetry: intersecting keeps, in order, exactly the forward matches whose reverse is a backward
match. It aborts exactly if two backward matches have the same first index. -/
theorem C30_intersect (backward forward : List (FMatch K)) (hf : ∀ f ∈ forward, 0 ≤ f.feature1) :
    ((backward.map (·.feature1)).Nodup → ∃ ms, intersect backward forward = .ok ms ∧ ms.Sublist forward ∧
      ∀ f, f ∈ ms ↔ f ∈ forward ∧ ∃ b ∈ backward, b.feature1 = f.feature2 ∧ b.feature2 = f.feature1) ∧
    (¬ (backward.map (·.feature1)).Nodup → intersect backward forward = .abort) := by
  constructor
  · intro hnd
    obtain ⟨m, h1, h2⟩ := indexMap_ok backward .empty hnd (by simp)
    refine ⟨eraseLoop m forward, by rw [intersect, h1], ?_, ?_⟩
    · rw [eraseLoop_eq]
      exact List.filter_sublist
    · intro f
      rw [eraseLoop_eq, List.mem_filter, decide_eq_true_eq]
      refine and_congr_right fun hm => ?_
      have h2' := h2 f.feature2 f.feature1
      simp only [AMap.get_empty, reduceCtorEq, false_or] at h2'
      rw [← h2', findWithDefault]
      cases hg : m.get f.feature2 with
      | none =>
        have := hf f hm
        simp only [reduceCtorEq, iff_false]
        omega
      | some v =>
        simp only [Option.some.injEq]
        exact eq_comm
  · intro hnd
    rw [intersect, indexMap_dup backward .empty (Or.inl hnd)]

variable [Field K] [LinearOrder K] [IsStrictOrderedRing K]

/-- C30, brute force, one direction: every match is of a descriptor with its nearest one, which, with the
ratio test on, beats every other one by the squared ratio. Each descriptor has at most one match, and
exactly one with the test off; with the test on, every descriptor with a clear winner has its match. -/
theorem C30_brute_force (ps : List (FMatch K) → List (FMatch K)) (hps : IsPartialSort ps) (o : Options K)
    (dist : D → D → K) (d1 d2 : List D) (h2 : 2 ≤ d2.length) (hsym : o.symmetric = false) :
    ∃ ok ms, bruteForce ps o dist d1 d2 = .ok (ok, ms) ∧
      (ok = true ↔ o.minMatches ≤ ms.length) ∧
      (ms.map (·.feature1)).Nodup ∧
      (∀ m ∈ ms, ∃ (i : Nat) (x : D) (j : Nat) (y : D), d1[i]? = some x ∧ d2[j]? = some y ∧
        m = ⟨i, j, dist x y⟩ ∧ Nearest dist x d2 j ∧ (o.useLowesRatio = true → BeatsAll o dist x d2 j)) ∧
      (o.useLowesRatio = false → ms.length = d1.length) ∧
      ((∀ x y, 0 ≤ dist x y) → o.lowesRatio * o.lowesRatio ≤ 1 →
        ∀ (i : Nat) x (j : Nat), d1[i]? = some x → BeatsAll o dist x d2 j →
          ∃ m ∈ ms, m.feature1 = i ∧ m.feature2 = j) := by
  obtain ⟨ms, g1, g2, g3, g4, g5⟩ := directed_ok hps o dist d2 d1 0 (fun _ => h2)
  have hnd : (ms.map (·.feature1)).Nodup := g2.imp (fun h => ne_of_lt h)
  have hlen : o.useLowesRatio = false → ms.length = d1.length := by
    intro hu
    have := congrArg List.length (g4 hu)
    simpa using this
  have hg3 : ∀ m ∈ ms, ∃ (i : Nat) (x : D) (j : Nat) (y : D), d1[i]? = some x ∧ d2[j]? = some y ∧
        m = ⟨i, j, dist x y⟩ ∧ Nearest dist x d2 j ∧ (o.useLowesRatio = true → BeatsAll o dist x d2 j) := by
    intro m hm
    obtain ⟨i, x, j, y, q1, q2, q3, q4⟩ := g3 m hm
    exact ⟨i, x, j, y, q1, q2, by rw [q3]; simp, q4⟩
  have hg5 : (∀ x y, 0 ≤ dist x y) → o.lowesRatio * o.lowesRatio ≤ 1 →
        ∀ (i : Nat) x (j : Nat), d1[i]? = some x → BeatsAll o dist x d2 j →
          ∃ m ∈ ms, m.feature1 = i ∧ m.feature2 = j := by
    intro hpos hr i x j hx hb
    obtain ⟨m, hm, e1, e2⟩ := g5 i x j hx hb hpos hr
    exact ⟨m, hm, by rw [e1]; simp, e2⟩
  unfold bruteForce
  rw [g1]
  simp only [hsym, Bool.false_eq_true, if_false]
  split
  · next hlt => exact ⟨false, ms, rfl, by simp; omega, hnd, hg3, hlen, hg5⟩
  · exact ⟨_, ms, rfl, by simp, hnd, hg3, hlen, hg5⟩

/-- C30, brute force with symmetric matches only: if it succeeds, every match is mutual: each of the two
descriptors is nearest to the other (and beats all others if the ratio test is on), every descriptor of
either image is in at most one match, and there are at least as many matches as required. With the ratio
test on and a symmetric distance, every pair that clearly wins in both directions is a match. -/
theorem C30_symmetric (ps : List (FMatch K) → List (FMatch K)) (hps : IsPartialSort ps) (o : Options K)
    (dist : D → D → K) (d1 d2 : List D) (h1 : 2 ≤ d1.length) (h2 : 2 ≤ d2.length) (hsym : o.symmetric = true) :
    ∃ ok ms, bruteForce ps o dist d1 d2 = .ok (ok, ms) ∧ (ok = true →
      o.minMatches ≤ ms.length ∧ (ms.map (·.feature1)).Nodup ∧ (ms.map (·.feature2)).Nodup ∧
      (∀ m ∈ ms, ∃ (i : Nat) (x : D) (j : Nat) (y : D), d1[i]? = some x ∧ d2[j]? = some y ∧
        m = ⟨i, j, dist x y⟩ ∧ Nearest dist x d2 j ∧ Nearest dist y d1 i ∧
        (o.useLowesRatio = true → BeatsAll o dist x d2 j ∧ BeatsAll o dist y d1 i)) ∧
      ((∀ x y, 0 ≤ dist x y) → o.lowesRatio * o.lowesRatio ≤ 1 →
        ∀ (i : Nat) x (j : Nat) y, d1[i]? = some x → d2[j]? = some y → BeatsAll o dist x d2 j → BeatsAll o dist y d1 i →
          ∃ m ∈ ms, m.feature1 = i ∧ m.feature2 = j)) := by
  obtain ⟨ms, g1, g2, g3, g4, g5⟩ := directed_ok hps o dist d2 d1 0 (fun _ => h2)
  obtain ⟨rs, k1, k2, k3, k4, k5⟩ := directed_ok hps o dist d1 d2 0 (fun _ => h1)
  have hpos1 : ∀ f ∈ ms, 0 ≤ f.feature1 := by
    intro f hf
    obtain ⟨i, _, _, _, _, _, rfl, _⟩ := g3 f hf
    exact Int.natCast_nonneg _
  have hndms : (ms.map (·.feature1)).Nodup := g2.imp (fun h => ne_of_lt h)
  obtain ⟨qs, q1, q2, q3⟩ := (C30_intersect rs ms hpos1).1 (k2.imp (fun h => ne_of_lt h))
  unfold bruteForce
  rw [g1]
  simp only [hsym, if_true]
  split
  · exact ⟨false, ms, rfl, by simp⟩
  · rw [k1]
    simp only
    rw [q1]
    refine ⟨_, qs, rfl, ?_⟩
    intro hok
    have hnat : ∀ a b : Nat, ((0 + a : Nat) : Int) = (b : Int) → a = b := by intros a b h; omega
    refine ⟨by simpa using hok, hndms.sublist (q2.map _), ?_, ?_, ?_⟩
    · -- the reverse match of a kept match determines it
      rw [List.nodup_iff_pairwise_ne, List.pairwise_map]
      have hpw : qs.Pairwise (fun a b => a.feature1 ≠ b.feature1) := by
        have := hndms.sublist (q2.map (·.feature1))
        rw [List.nodup_iff_pairwise_ne, List.pairwise_map] at this
        exact this
      refine hpw.imp_of_mem ?_
      intro a b ha hb hne heq
      obtain ⟨_, r, hr, e1, e2⟩ := (q3 a).1 ha
      obtain ⟨_, r', hr', e1', e2'⟩ := (q3 b).1 hb
      have hrr : r = r' :=
        List.inj_on_of_nodup_map (f := fun m : FMatch K => m.feature1) (k2.imp (fun h => ne_of_lt h)) hr hr'
          (e1.trans (heq.trans e1'.symm))
      exact hne (by rw [← e2, ← e2', hrr])
    · intro m hm
      obtain ⟨hmm, r, hr, e1, e2⟩ := (q3 m).1 hm
      obtain ⟨i, x, j, y, hx, hy, rfl, hn, hb⟩ := g3 m hmm
      obtain ⟨j', y', i', x', hy', hx', rfl, hn', hb'⟩ := k3 r hr
      have hj : j' = j := hnat _ _ e1
      have hi : i' = i := by simpa using e2
      subst hj
      subst hi
      rw [hy] at hy'
      cases hy'
      rw [hx] at hx'
      cases hx'
      exact ⟨i', x, j', y, hx, hy, by simp, hn, hn', fun hu => ⟨hb hu, hb' hu⟩⟩
    · intro hpos hr i x j y hx hy hb hb'
      obtain ⟨m, hm, e1, e2⟩ := g5 i x j hx hb hpos hr
      obtain ⟨r, hrm, e1', e2'⟩ := k5 j y i hy hb' hpos hr
      refine ⟨m, (q3 m).2 ⟨hm, r, hrm, ?_, ?_⟩, by rw [e1]; simp, e2⟩
      · rw [e1', e2]; simp
      · rw [e2', e1]; simp

omit [Field K] [IsStrictOrderedRing K] in
/-- Sorting is a partial sort, so the hypothesis on `ps` can be met. -/
theorem isPartialSort_insertionSort :
    IsPartialSort (fun l : List (FMatch K) => l.insertionSort (fun a b => a.distance ≤ b.distance)) := by
  intro l hl
  have hperm := List.perm_insertionSort (fun a b : FMatch K => a.distance ≤ b.distance) l
  have htot : Std.Total (fun a b : FMatch K => a.distance ≤ b.distance) := ⟨fun a b => le_total _ _⟩
  have htr : IsTrans (FMatch K) (fun a b : FMatch K => a.distance ≤ b.distance) := ⟨fun a b c => le_trans⟩
  have hsorted := List.pairwise_insertionSort (fun a b : FMatch K => a.distance ≤ b.distance) l
  match hs : l.insertionSort (fun a b : FMatch K => a.distance ≤ b.distance) with
  | [] => rw [hs] at hperm; have := hperm.length_eq; simp at this; omega
  | [a] => rw [hs] at hperm; have := hperm.length_eq; simp at this; omega
  | a :: b :: rest =>
    rw [hs] at hperm hsorted
    rw [List.pairwise_cons, List.pairwise_cons] at hsorted
    exact ⟨a, b, rest, hs, hperm, hsorted.1 b (by simp), hsorted.2.1⟩

/-- A case with numbers as descriptors: 0 and 10 have clear winners both ways, 4 fails the ratio test. -/
example : bruteForce (fun l => l.insertionSort (fun a b => a.distance ≤ b.distance))
    (⟨true, 4 / 5, true, 2⟩ : Options ℚ) (fun x y : ℚ => |x - y|) [0, 4, 10] [11, 1, 7] =
    .ok (true, [⟨0, 1, 1⟩, ⟨2, 0, 1⟩]) := by decide +kernel

omit [IsStrictOrderedRing K] in
/-- With fewer than two descriptors in the other image the sort is out of range. -/
theorem C30_few_descriptors_counterexample (ps : List (FMatch K) → List (FMatch K)) (o : Options K)
    (dist : D → D → K) (x y : D) (d1 : List D) : bruteForce ps o dist (x :: d1) [y] = .ub := by
  simp [bruteForce, directed, selectNearest, row]

end Theia
