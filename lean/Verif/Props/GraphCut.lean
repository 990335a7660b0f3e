import Mathlib.Algebra.Order.Ring.Rat
import Mathlib.Tactic.IntervalCases
import Verif.Proof.GraphCut

/-!
# C101: what a normalized graph cut guarantees
-/

namespace Theia

open Spec GraphCut

variable {K : Type} [Field K] [LinearOrder K] [IsStrictOrderedRing K]

/-- Each node of the graph is in exactly one of the two subgraphs, once, and nothing else is. -/
theorem C101_partition {solver : Nat → (Nat → Nat → K) → (Nat → K) → Option (Nat → K)} {edges : List ((Nat × Nat) × K)}
    {m : AMap Nat Nat} {A B : List Nat} {cost : K}
    (h : computeCut solver AMap.empty edges ([], []) = .ok (m, some ((A, B), cost))) :
    A.Nodup ∧ B.Nodup ∧ DividesNodes edges A B := by
  obtain ⟨rfl, _, y, _, q1, q3, _, hAB, _⟩ := computeCut_inv h
  obtain ⟨rfl, rfl⟩ := Prod.mk.inj hAB
  exact ⟨(nodup_divide _ _ _ _ ⟨List.nodup_nil, List.nodup_nil⟩).1, (nodup_divide _ _ _ _ ⟨List.nodup_nil, List.nodup_nil⟩).2,
    divides y _⟩

/-- The subgraphs are separated by a threshold on one value per node, and the cost is the normalized cut between them, the smallest for the
ten thresholds between the quartiles of the values; or no threshold gave a cut and the cost is `10 ^ 12`. -/
theorem C101_cost {solver : Nat → (Nat → Nat → K) → (Nat → K) → Option (Nat → K)} {edges : List ((Nat × Nat) × K)}
    {m : AMap Nat Nat} {A B : List Nat} {cost : K} (hw : Weighted edges)
    (h : computeCut solver AMap.empty edges ([], []) = .ok (m, some ((A, B), cost))) : ∃ score, SpectralCut edges score A B cost := by
  obtain ⟨hm, hn, y, _, q1, q3, hq, hAB, hc⟩ := computeCut_inv h
  obtain ⟨rfl, rfl⟩ := Prod.mk.inj hAB
  subst hc
  exact ⟨_, spectral hw hm hn hq rfl⟩

/-- If the eigensolver is right, the values are the second generalised eigenvector of the graph: the edges at a node pull its value
towards those of its neighbours in proportion to the value and the weight of the node. No division of the nodes into two sets has a
normalized cut below the eigenvalue, so the cost exceeds the cost of the best cut by at most its distance from the eigenvalue. -/
theorem C101_eigenvector {solver : Nat → (Nat → Nat → K) → (Nat → K) → Option (Nat → K)} (hs : SecondEigenvector solver)
    {edges : List ((Nat × Nat) × K)} {m : AMap Nat Nat} {A B : List Nat} {cost : K} (hw : Weighted edges)
    (h : computeCut solver AMap.empty edges ([], []) = .ok (m, some ((A, B), cost))) :
    ∃ (score : Nat → K) (ev : K), SpectralCut edges score A B cost ∧
      (∀ v, GraphNode edges v → flowAt edges score v = ev * (volumeOf edges [v] * score v)) ∧
      (∃ v, GraphNode edges v ∧ score v ≠ 0) ∧
      ∀ A' B', DividesNodes edges A' B' → (∃ v, v ∈ A') → (∃ v, v ∈ B') → ev ≤ normalizedCut edges A' B' := by
  obtain ⟨hm, hn, y, hy, q1, q3, hq, hAB, hc⟩ := computeCut_inv h
  obtain ⟨rfl, rfl⟩ := Prod.mk.inj hAB
  subst hc
  obtain ⟨ev, h1, ⟨i, hi, h2⟩, h3⟩ := hs _ _ _ _ hy
  have hr : Ready m edges := by rw [hm]; exact ready Indexed.empty edges
  have hnode : ∀ v, v ∈ m.keys ↔ GraphNode edges v := by intro v; rw [hm]; exact node_iff edges v
  refine ⟨_, ev, spectral hw hm hn hq rfl, ?_, ?_, ?_⟩
  · intro v hv
    have hv := (hnode v).2 hv
    rw [← hr.flow y hv, h1 _ (idx_lt hr.indexed hv), hr.nodeWeight_volume hv]
    rfl
  · obtain ⟨v, hv, rfl⟩ := exists_idx hr.indexed hi
    exact ⟨v, (hnode v).1 hv, h2⟩
  · intro A' B' hd hA hB
    exact hr.bound hw h3 hd hA hB

/-- Without memory of earlier calls the only failures are fewer than ten nodes, where the call throws, and an eigensolver without
success, where it returns false. -/
theorem C101_total_partial (solver : Nat → (Nat → Nat → K) → (Nat → K) → Option (Nat → K)) (edges : List ((Nat × Nat) × K)) (nodes : List Nat)
    (hn : nodes.Nodup) (hv : ∀ v, v ∈ nodes ↔ GraphNode edges v) :
    (nodes.length < 10 ∧ computeCut solver AMap.empty edges ([], []) = .abort) ∨
    (10 ≤ nodes.length ∧ ((∃ m, computeCut solver AMap.empty edges ([], []) = .ok (m, none)) ∨
      ∃ m A B cost, computeCut solver AMap.empty edges ([], []) = .ok (m, some ((A, B), cost)))) := by
  have hr := ready Indexed.empty edges
  have hsize : (indexNodeIds edges AMap.empty).size = nodes.length := by
    rw [AMap.size_eq_length_keys]
    refine List.Perm.length_eq ((List.perm_ext_iff_of_nodup hr.indexed.wf hn).2 fun v => ?_)
    rw [node_iff, hv]
  unfold computeCut
  simp only [triplets_eq hr.ends, hsize]
  by_cases h : nodes.length < 10
  · rw [if_pos h]
    exact Or.inl ⟨h, rfl⟩
  · rw [if_neg h]
    refine Or.inr ⟨by omega, ?_⟩
    cases hs : solver nodes.length (laplacian (indexNodeIds edges AMap.empty) (edges.flatMap (pairOf (indexNodeIds edges AMap.empty))))
      (nodeWeight (indexNodeIds edges AMap.empty) (edges.flatMap (pairOf (indexNodeIds edges AMap.empty)))) with
    | none => exact Or.inl ⟨_, rfl⟩
    | some y =>
      obtain ⟨q1, q3, hq, _⟩ := quantiles_ok (n := (indexNodeIds edges AMap.empty).size) (by omega) y
      right
      simp only [findOptimalCut, hq]
      exact ⟨_, _, _, _, rfl⟩

/-! ### A star -/

namespace GraphCut

/-- A node with nine neighbours. -/
def star : List ((Nat × Nat) × ℚ) := (List.range 9).map fun k => ((0, k + 1), 1)

/-- The matrix of the star. -/
def starL (i j : Nat) : ℚ := if i = 0 then (if j = 0 then 9 else -1) else if j = 0 then -1 else if i = j then 1 else 0

/-- The node weights of the star. -/
def starD (i : Nat) : ℚ := if i = 0 then 9 else 1

/-- A second eigenvector of the star. -/
def starY (i : Nat) : ℚ := if i = 0 then 0 else (i : ℚ) - 5

/-- A solver that knows only the star. -/
def starSolver (n : Nat) (L : Nat → Nat → ℚ) (d : Nat → ℚ) : Option (Nat → ℚ) :=
  if n = 10 ∧ (∀ i ∈ List.range 10, ∀ j ∈ List.range 10, L i j = starL i j) ∧ ∀ i ∈ List.range 10, d i = starD i then some starY else none

theorem starSolver_second : SecondEigenvector starSolver := by
  intro n L d y h
  unfold starSolver at h
  split at h
  · next hc =>
    obtain ⟨rfl, hL, hd⟩ := hc
    simp only [List.mem_range] at hL hd
    cases h
    refine ⟨1, ?_, ⟨1, by norm_num, by norm_num [starY]⟩, ?_⟩
    · intro i hi
      rw [Finset.sum_congr rfl fun j hj => by rw [hL i hi j (Finset.mem_range.1 hj)], hd i hi]
      interval_cases i <;> simp [Finset.sum_range_succ, starL, starD, starY] <;> norm_num
    · intro z hz
      rw [Finset.sum_congr rfl fun i hi => by rw [hd i (Finset.mem_range.1 hi)]] at hz ⊢
      rw [Finset.sum_congr rfl fun i hi => Finset.sum_congr rfl fun j hj => by
        rw [hL i (Finset.mem_range.1 hi) j (Finset.mem_range.1 hj)]]
      simp only [Finset.sum_range_succ, Finset.sum_range_zero, starL, starD] at hz ⊢
      norm_num at hz ⊢
      have h2 : z 0 * (9 * z 0 + z 1 + z 2 + z 3 + z 4 + z 5 + z 6 + z 7 + z 8 + z 9) = 0 := by rw [hz, mul_zero]
      linarith [sq_nonneg (z 0)]
  · cases h

/-- The result for the star. -/
def starResult : Outcome (AMap Nat Nat × Option ((List Nat × List Nat) × ℚ)) := computeCut starSolver AMap.empty star ([], [])

theorem star_cut : ∃ m, starResult = .ok (m, some (([8, 9], [0, 1, 2, 3, 4, 5, 6, 7]), 9 / 8)) := by
  have key : (match starResult with
      | .ok (_, some ((A, B), c)) => A == [8, 9] && B == [0, 1, 2, 3, 4, 5, 6, 7] && decide (c = 9 / 8)
      | _ => false) = true := by decide +kernel
  generalize starResult = r at key ⊢
  match r, key with
  | .ok (m, some ((A, B), c)), key =>
    simp only [Bool.and_eq_true, beq_iff_eq, decide_eq_true_eq] at key
    obtain ⟨⟨rfl, rfl⟩, rfl⟩ := key
    exact ⟨m, rfl⟩

theorem star_weighted : Weighted star := by
  refine ⟨by decide +kernel, ?_⟩
  intro v ⟨e, he, h⟩
  refine ⟨e, he, h, ?_⟩
  have : ∀ e ∈ star, 0 < e.2 := by decide +kernel
  exact this e he

end GraphCut

/-- The hypotheses of the theorems are met by a star of ten nodes with a solver that is right: two of the leaves are cut off at the cost
9/8, the best of the cuts that were tested; the eigenvalue is 1. -/
example : SecondEigenvector starSolver ∧ Weighted star ∧
    (∃ m, computeCut starSolver AMap.empty star ([], []) = .ok (m, some (([8, 9], [0, 1, 2, 3, 4, 5, 6, 7]), 9 / 8))) ∧
    normalizedCut star [8, 9] [0, 1, 2, 3, 4, 5, 6, 7] = 9 / 8 :=
  ⟨starSolver_second, star_weighted, star_cut, by decide +kernel⟩

/-! ### What does not hold -/

/-- False of the code: a graph with fewer than ten nodes cannot be cut. Two triangles joined by an edge, which fall apart in an obvious
way, make the call throw, whatever the solver would have found (the unit test uses a graph of six nodes). -/
theorem C101_small_counterexample (solver : Nat → (Nat → Nat → ℚ) → (Nat → ℚ) → Option (Nat → ℚ)) :
    computeCut solver AMap.empty [((0, 1), 1), ((1, 2), 1), ((0, 2), 1), ((3, 4), 1), ((4, 5), 1), ((3, 5), 1), ((2, 3), 1 / 100)]
      ([], []) = .abort := by
  rcases C101_total_partial solver [((0, 1), 1), ((1, 2), 1), ((0, 2), 1), ((3, 4), 1), ((4, 5), 1), ((3, 5), 1), ((2, 3), 1 / 100)]
    [0, 1, 2, 3, 4, 5] (by decide) (fun v => by
      simp only [GraphNode, List.mem_cons, List.not_mem_nil, or_false]
      constructor
      · rintro (rfl | rfl | rfl | rfl | rfl | rfl)
        · exact ⟨((0, 1), 1), by simp, by simp⟩
        · exact ⟨((0, 1), 1), by simp, by simp⟩
        · exact ⟨((1, 2), 1), by simp, by simp⟩
        · exact ⟨((3, 4), 1), by simp, by simp⟩
        · exact ⟨((3, 4), 1), by simp, by simp⟩
        · exact ⟨((4, 5), 1), by simp, by simp⟩
      · rintro ⟨e, he, h⟩
        rcases he with rfl | rfl | rfl | rfl | rfl | rfl | rfl <;> rcases h with rfl | rfl <;> simp) with h | ⟨h, _⟩
  · exact h.2
  · simp at h

namespace GraphCut

/-- A ring of nine nodes and, apart from it, a triangle. -/
def ringAndTriangle : List ((Nat × Nat) × ℚ) :=
  (List.range 9).map (fun k => ((k, (k + 1) % 9), 1)) ++ [((9, 10), 1), ((10, 11), 1), ((9, 11), 1)]

/-- A second eigenvector: constant on both parts. Its eigenvalue is 0, the smallest possible. -/
def partsY (i : Nat) : ℚ := if i < 9 then 1 else -3

/-- The negated eigenvector is as good. -/
def partsY' (i : Nat) : ℚ := if i < 9 then -1 else 3

end GraphCut

/-- False of the code: the best cut can be missed although the eigenvector shows it. For a ring of nine nodes apart from a triangle the
values 1 on the ring and -3 on the triangle solve the eigenvalue problem with eigenvalue 0, and the cut between the parts costs 0. Three
quarters of the values are equal to the largest one, so nothing is above any tested threshold; the call returns true with the cost
`10 ^ 12`. With the negated eigenvector the cost is 0. -/
theorem C101_fallback_counterexample : Weighted ringAndTriangle ∧
    (∀ v < 12, flowAt ringAndTriangle partsY v = 0) ∧ normalizedCut ringAndTriangle [0, 1, 2, 3, 4, 5, 6, 7, 8] [9, 10, 11] = 0 ∧
    (∃ m A B, computeCut (fun _ _ _ => some partsY) AMap.empty ringAndTriangle ([], []) = .ok (m, some ((A, B), 10 ^ 12))) ∧
    ∃ m A B, computeCut (fun _ _ _ => some partsY') AMap.empty ringAndTriangle ([], []) = .ok (m, some ((A, B), 0)) := by
  have key : ∀ (r : Outcome (AMap Nat Nat × Option ((List Nat × List Nat) × ℚ))) (c : ℚ),
      (match r with
      | .ok (_, some (_, c')) => decide (c' = c)
      | _ => false) = true → ∃ m A B, r = .ok (m, some ((A, B), c)) := by
    intro r c h
    match r, h with
    | .ok (m, some ((A, B), c')), h =>
      simp only [decide_eq_true_eq] at h
      exact ⟨m, A, B, by rw [h]⟩
  refine ⟨⟨by decide +kernel, ?_⟩, by decide +kernel, by decide +kernel, key _ _ (by decide +kernel), key _ _ (by decide +kernel)⟩
  intro v ⟨e, he, h⟩
  refine ⟨e, he, h, ?_⟩
  have : ∀ e ∈ ringAndTriangle, 0 < e.2 := by decide +kernel
  exact this e he

/-- False of the code: an object cannot be used twice. It keeps the nodes of the first graph, so the subgraphs of the second graph contain
nodes that are not in it. -/
theorem C101_reuse_counterexample : ∃ m m' A B cost,
    computeCut (fun _ _ _ => some partsY') AMap.empty ringAndTriangle ([], []) = .ok (m, some (([9, 10, 11], [0, 1, 2, 3, 4, 5, 6, 7, 8]), 0)) ∧
    computeCut (fun _ _ _ => some partsY') m [((20, 21), 1)] ([], []) = .ok (m', some ((A, B), cost)) ∧
    9 ∈ A ∧ ¬GraphNode [(((20, 21) : Nat × Nat), (1 : ℚ))] 9 := by
  have key : (match computeCut (fun _ _ _ => some partsY') AMap.empty ringAndTriangle ([], []) with
      | .ok (m, some ((A, B), c)) => A == [9, 10, 11] && B == [0, 1, 2, 3, 4, 5, 6, 7, 8] && decide (c = 0) &&
        (match computeCut (fun _ _ _ => some partsY') m [((20, 21), 1)] ([], []) with
        | .ok (_, some ((A', _), _)) => decide (9 ∈ A')
        | _ => false)
      | _ => false) = true := by decide +kernel
  generalize computeCut (fun _ _ _ => some partsY') AMap.empty ringAndTriangle ([], []) = r at key ⊢
  match r, key with
  | .ok (m, some ((A, B), c)), key =>
    simp only [Bool.and_eq_true, beq_iff_eq, decide_eq_true_eq] at key
    obtain ⟨⟨⟨rfl, rfl⟩, rfl⟩, key⟩ := key
    generalize hr : computeCut (fun _ _ _ => some partsY') m [((20, 21), 1)] ([], []) = r' at key
    match r', key with
    | .ok (m', some ((A', B'), c')), key =>
      simp only [decide_eq_true_eq] at key
      refine ⟨m, m', A', B', c', rfl, hr, key, ?_⟩
      rintro ⟨e, he, h⟩
      rw [List.mem_singleton] at he
      subst he
      rcases h with h | h <;> simp at h

/-- False of the code: the sets are not emptied. What they held stays, so a node can be in both. -/
theorem C101_outputs_counterexample : ∃ m A B cost,
    computeCut (fun _ _ _ => some partsY') AMap.empty ringAndTriangle ([0], []) = .ok (m, some ((A, B), cost)) ∧ 0 ∈ A ∧ 0 ∈ B := by
  have key : (match computeCut (fun _ _ _ => some partsY') AMap.empty ringAndTriangle ([0], []) with
      | .ok (_, some ((A, B), _)) => decide (0 ∈ A) && decide (0 ∈ B)
      | _ => false) = true := by decide +kernel
  generalize computeCut (fun _ _ _ => some partsY') AMap.empty ringAndTriangle ([0], []) = r at key ⊢
  match r, key with
  | .ok (m, some ((A, B), c)), key =>
    simp only [Bool.and_eq_true, decide_eq_true_eq] at key
    exact ⟨m, A, B, c, rfl, key.1, key.2⟩

end Theia
