import Mathlib.Tactic.Ring
import Mathlib.Tactic.Linarith
import Mathlib.Tactic.FieldSimp
import Mathlib.Algebra.BigOperators.Ring.Finset
import Mathlib.Algebra.Order.BigOperators.Ring.Finset
import Verif.Model.GraphCut
import Verif.Proof.Quality
import Verif.Spec.GraphCut

namespace Theia
namespace GraphCut

open Spec

variable {K : Type} [Field K] [LinearOrder K] [IsStrictOrderedRing K]

omit [LinearOrder K] [IsStrictOrderedRing K] in
theorem sumTo_eq (n : Nat) (f : Nat → K) : sumTo n f = ∑ i ∈ Finset.range n, f i := by
  unfold sumTo
  induction n with
  | zero => simp
  | succ n ih => rw [List.range_succ, List.map_append, List.sum_append, ih, Finset.sum_range_succ]; simp

/-- The indices of the nodes are `0, 1, ...` in the order in which they were added. -/
structure Indexed (m : AMap Nat Nat) : Prop where
  wf : m.WF
  range : m.entries.map (·.2) = List.range m.size

theorem Indexed.empty : Indexed AMap.empty := ⟨List.nodup_nil, rfl⟩

theorem Indexed.indexNode {m : AMap Nat Nat} (h : Indexed m) (v : Nat) : Indexed (indexNode m v) := by
  refine ⟨AMap.wf_emplace h.wf _ _, ?_⟩
  unfold GraphCut.indexNode AMap.emplace
  split
  · exact h.range
  · simp only [AMap.size, List.map_append, List.length_append, List.map_cons, List.map_nil, List.length_cons, List.length_nil]
    have := h.range
    rw [AMap.size] at this
    rw [this, Nat.zero_add, List.range_succ]

omit [Field K] [LinearOrder K] [IsStrictOrderedRing K] in
theorem Indexed.indexNodeIds {m : AMap Nat Nat} (h : Indexed m) (edges : List ((Nat × Nat) × K)) : Indexed (indexNodeIds edges m) := by
  unfold GraphCut.indexNodeIds
  induction edges generalizing m with
  | nil => exact h
  | cons e es ih => exact ih ((h.indexNode _).indexNode _)

omit [Field K] [LinearOrder K] [IsStrictOrderedRing K] in
theorem mem_keys_indexNodeIds (edges : List ((Nat × Nat) × K)) (m : AMap Nat Nat) (v : Nat) :
    v ∈ (indexNodeIds edges m).keys ↔ v ∈ m.keys ∨ GraphNode edges v := by
  unfold indexNodeIds GraphNode
  induction edges generalizing m with
  | nil => simp
  | cons e es ih =>
    rw [List.foldl_cons, ih]
    simp only [indexNode, AMap.mem_keys_emplace, List.mem_cons]
    constructor
    · rintro ((h | h | h) | ⟨e', h, h'⟩)
      · exact Or.inr ⟨e, Or.inl rfl, Or.inr h.symm⟩
      · exact Or.inr ⟨e, Or.inl rfl, Or.inl h.symm⟩
      · exact Or.inl h
      · exact Or.inr ⟨e', Or.inr h, h'⟩
    · rintro (h | ⟨e', rfl | h, h'⟩)
      · exact Or.inl (Or.inr (Or.inr h))
      · rcases h' with h' | h'
        · exact Or.inl (Or.inr (Or.inl h'.symm))
        · exact Or.inl (Or.inl h'.symm)
      · exact Or.inr ⟨e', h, h'⟩

/-- The index of a node. -/
def idx (m : AMap Nat Nat) (v : Nat) : Nat := (m.get v).getD 0

theorem get_idx {m : AMap Nat Nat} {v : Nat} (hv : v ∈ m.keys) : m.get v = some (idx m v) := by
  obtain ⟨i, hi⟩ := AMap.mem_keys_iff.1 hv
  rw [idx, hi]
  rfl

theorem idx_lt {m : AMap Nat Nat} (h : Indexed m) {v : Nat} (hv : v ∈ m.keys) : idx m v < m.size := by
  have h1 := AMap.mem_entries_of_get (get_idx hv)
  have h2 : idx m v ∈ m.entries.map (·.2) := List.mem_map.2 ⟨_, h1, rfl⟩
  rw [h.range] at h2
  exact List.mem_range.1 h2

theorem idx_inj {m : AMap Nat Nat} (h : Indexed m) {u v : Nat} (hu : u ∈ m.keys) (hv : v ∈ m.keys) (e : idx m u = idx m v) :
    u = v := by
  have h1 := AMap.mem_entries_of_get (get_idx hu)
  have h2 := AMap.mem_entries_of_get (get_idx hv)
  have hn : (m.entries.map (·.2)).Nodup := by rw [h.range]; exact List.nodup_range
  rw [← e] at h2
  have := List.inj_on_of_nodup_map hn h1 h2 rfl
  exact congrArg Prod.fst this

theorem exists_idx {m : AMap Nat Nat} (h : Indexed m) {i : Nat} (hi : i < m.size) : ∃ v ∈ m.keys, idx m v = i := by
  have : i ∈ m.entries.map (·.2) := by rw [h.range]; exact List.mem_range.2 hi
  obtain ⟨⟨v, j⟩, he, rfl⟩ := List.mem_map.1 this
  refine ⟨v, AMap.mem_keys.2 ⟨_, he⟩, ?_⟩
  rw [idx, AMap.get_of_mem_entries h.wf he]
  rfl

/-- The triplets of one edge. -/
def pairOf (m : AMap Nat Nat) (e : (Nat × Nat) × K) : List (Nat × Nat × K) :=
  [(idx m e.1.1, idx m e.1.2, e.2), (idx m e.1.2, idx m e.1.1, e.2)]

omit [Field K] [LinearOrder K] [IsStrictOrderedRing K] in
theorem triplets_eq {m : AMap Nat Nat} {edges : List ((Nat × Nat) × K)} (h : ∀ e ∈ edges, e.1.1 ∈ m.keys ∧ e.1.2 ∈ m.keys) :
    triplets m edges = .ok (edges.flatMap (pairOf m)) := by
  induction edges with
  | nil => rfl
  | cons e es ih =>
    rw [triplets, get_idx (h e (by simp)).1, get_idx (h e (by simp)).2, ih (fun e he => h e (List.mem_cons_of_mem _ he))]
    rfl

omit [LinearOrder K] [IsStrictOrderedRing K] in
theorem sum_weight {n : Nat} {ts : List (Nat × Nat × K)} (h : ∀ t ∈ ts, t.1 < n ∧ t.2.1 < n) (g : Nat → Nat → K) :
    ∑ i ∈ Finset.range n, ∑ j ∈ Finset.range n, weight ts i j * g i j = (ts.map fun t => t.2.2 * g t.1 t.2.1).sum := by
  induction ts with
  | nil => simp [weight]
  | cons t ts ih =>
    have ih := ih (fun t ht => h t (List.mem_cons_of_mem _ ht))
    obtain ⟨h1, h2⟩ := h t (by simp)
    rw [List.map_cons, List.sum_cons, ← ih]
    have : ∀ i j, weight (t :: ts) i j * g i j = (if t.1 = i then if t.2.1 = j then t.2.2 * g i j else 0 else 0) + weight ts i j * g i j := by
      intro i j
      simp only [weight, List.map_cons, List.sum_cons, add_mul]
      congr 1
      by_cases e1 : t.1 = i <;> by_cases e2 : t.2.1 = j <;> simp [e1, e2]
    simp only [this, Finset.sum_add_distrib]
    congr 1
    rw [Finset.sum_eq_single t.1]
    · simp only [if_true]
      rw [Finset.sum_ite_eq, if_pos (Finset.mem_range.2 h2)]
    · intro i _ hi
      rw [Finset.sum_eq_zero]
      intro j _
      rw [if_neg (Ne.symm hi)]
    · intro hn
      exact absurd (Finset.mem_range.2 h1) hn

omit [LinearOrder K] [IsStrictOrderedRing K] in
theorem row_weight {n : Nat} {ts : List (Nat × Nat × K)} (h : ∀ t ∈ ts, t.2.1 < n) (i : Nat) (g : Nat → K) :
    ∑ j ∈ Finset.range n, weight ts i j * g j = (ts.map fun t => if t.1 = i then t.2.2 * g t.2.1 else 0).sum := by
  induction ts with
  | nil => simp [weight]
  | cons t ts ih =>
    have ih := ih (fun t ht => h t (List.mem_cons_of_mem _ ht))
    rw [List.map_cons, List.sum_cons, ← ih]
    have : ∀ j, weight (t :: ts) i j * g j = (if t.2.1 = j then (if t.1 = i then t.2.2 * g j else 0) else 0) + weight ts i j * g j := by
      intro j
      simp only [weight, List.map_cons, List.sum_cons, add_mul]
      congr 1
      by_cases e1 : t.1 = i <;> by_cases e2 : t.2.1 = j <;> simp [e1, e2]
    simp only [this, Finset.sum_add_distrib]
    rw [Finset.sum_ite_eq, if_pos (Finset.mem_range.2 (h t (by simp)))]

/-- The setting after `IndexNodeIds`: all ends of edges have an index. -/
structure Ready (m : AMap Nat Nat) (edges : List ((Nat × Nat) × K)) : Prop where
  indexed : Indexed m
  ends : ∀ e ∈ edges, e.1.1 ∈ m.keys ∧ e.1.2 ∈ m.keys

omit [Field K] [LinearOrder K] [IsStrictOrderedRing K] in
theorem ready {m : AMap Nat Nat} (h : Indexed m) (edges : List ((Nat × Nat) × K)) : Ready (indexNodeIds edges m) edges := by
  refine ⟨h.indexNodeIds edges, fun e he => ⟨?_, ?_⟩⟩
  · exact (mem_keys_indexNodeIds _ _ _).2 (Or.inr ⟨e, he, Or.inl rfl⟩)
  · exact (mem_keys_indexNodeIds _ _ _).2 (Or.inr ⟨e, he, Or.inr rfl⟩)

section system

variable {m : AMap Nat Nat} {edges : List ((Nat × Nat) × K)}

omit [Field K] [LinearOrder K] [IsStrictOrderedRing K] in
theorem Ready.bounds (h : Ready m edges) : ∀ t ∈ edges.flatMap (pairOf m), t.1 < m.size ∧ t.2.1 < m.size := by
  intro t ht
  obtain ⟨e, he, ht⟩ := List.mem_flatMap.1 ht
  have h1 := idx_lt h.indexed (h.ends e he).1
  have h2 := idx_lt h.indexed (h.ends e he).2
  simp only [pairOf, List.mem_cons, List.not_mem_nil, or_false] at ht
  rcases ht with rfl | rfl
  · exact ⟨h1, h2⟩
  · exact ⟨h2, h1⟩

omit [LinearOrder K] [IsStrictOrderedRing K] in
theorem sum_pairs (f : Nat × Nat × K → K) : ((edges.flatMap (pairOf m)).map f).sum =
    (edges.map fun e => f (idx m e.1.1, idx m e.1.2, e.2) + f (idx m e.1.2, idx m e.1.1, e.2)).sum := by
  induction edges with
  | nil => rfl
  | cons e es ih =>
    rw [List.flatMap_cons, List.map_append, List.sum_append, ih, List.map_cons, List.sum_cons]
    simp [pairOf]

omit [LinearOrder K] [IsStrictOrderedRing K] in
theorem Ready.nodeWeight_eq (h : Ready m edges) {i : Nat} (hi : i < m.size) :
    nodeWeight m (edges.flatMap (pairOf m)) i = ∑ j ∈ Finset.range m.size, weight (edges.flatMap (pairOf m)) i j := by
  have : nodeWeight m (edges.flatMap (pairOf m)) i =
      ((m.entries.map (·.2)).map fun k => if k = i then sumTo m.size (weight (edges.flatMap (pairOf m)) k) else 0).sum := by
    rw [nodeWeight, List.map_map]
    rfl
  rw [this, h.indexed.range]
  have h2 := sumTo_eq m.size fun k => if k = i then sumTo m.size (weight (edges.flatMap (pairOf m)) k) else 0
  rw [sumTo] at h2
  rw [h2, Finset.sum_ite_eq', if_pos (Finset.mem_range.2 hi), sumTo_eq]

omit [LinearOrder K] [IsStrictOrderedRing K] in
/-- Sums weighted with the node weights are sums over the ends of the edges. -/
theorem Ready.sum_nodeWeight (h : Ready m edges) (f : Nat → K) :
    ∑ i ∈ Finset.range m.size, nodeWeight m (edges.flatMap (pairOf m)) i * f i =
      (edges.map fun e => e.2 * (f (idx m e.1.1) + f (idx m e.1.2))).sum := by
  have h1 : ∑ i ∈ Finset.range m.size, nodeWeight m (edges.flatMap (pairOf m)) i * f i =
      ∑ i ∈ Finset.range m.size, ∑ j ∈ Finset.range m.size, weight (edges.flatMap (pairOf m)) i j * f i := by
    refine Finset.sum_congr rfl fun i hi => ?_
    rw [h.nodeWeight_eq (Finset.mem_range.1 hi), Finset.sum_mul]
  rw [h1, sum_weight h.bounds (fun i _ => f i), sum_pairs]
  simp only [mul_add]

omit [LinearOrder K] [IsStrictOrderedRing K] in
/-- One row of `D - W`. -/
theorem Ready.row_laplacian (h : Ready m edges) (x : Nat → K) {i : Nat} (hi : i < m.size) :
    ∑ j ∈ Finset.range m.size, laplacian m (edges.flatMap (pairOf m)) i j * x j =
      (edges.map fun e => (if idx m e.1.1 = i then e.2 * (x i - x (idx m e.1.2)) else 0) +
        (if idx m e.1.2 = i then e.2 * (x i - x (idx m e.1.1)) else 0)).sum := by
  have h1 : ∑ j ∈ Finset.range m.size, laplacian m (edges.flatMap (pairOf m)) i j * x j =
      ∑ j ∈ Finset.range m.size, weight (edges.flatMap (pairOf m)) i j * (x i - x j) := by
    simp only [laplacian, sub_mul, mul_sub, Finset.sum_sub_distrib]
    congr 1
    simp only [ite_mul, zero_mul]
    rw [Finset.sum_ite_eq, if_pos (Finset.mem_range.2 hi), h.nodeWeight_eq hi, Finset.sum_mul]
  rw [h1, row_weight (fun t ht => (h.bounds t ht).2) i (fun j => x i - x j), sum_pairs]

omit [LinearOrder K] [IsStrictOrderedRing K] in
theorem Ready.quadratic_eq' (h : Ready m edges) (x : Nat → K) :
    ∑ i ∈ Finset.range m.size, ∑ j ∈ Finset.range m.size, x i * laplacian m (edges.flatMap (pairOf m)) i j * x j =
      (edges.map fun e => e.2 * (x (idx m e.1.1) - x (idx m e.1.2)) ^ 2).sum := by
  have h1 : ∑ i ∈ Finset.range m.size, ∑ j ∈ Finset.range m.size, x i * laplacian m (edges.flatMap (pairOf m)) i j * x j =
      ∑ i ∈ Finset.range m.size, ∑ j ∈ Finset.range m.size, weight (edges.flatMap (pairOf m)) i j * (x i * (x i - x j)) := by
    refine Finset.sum_congr rfl fun i hi => ?_
    have hi := Finset.mem_range.1 hi
    simp only [laplacian, mul_sub, sub_mul, Finset.sum_sub_distrib]
    congr 1
    · simp only [mul_ite, ite_mul, mul_zero, zero_mul]
      rw [Finset.sum_ite_eq, if_pos (Finset.mem_range.2 hi), h.nodeWeight_eq hi, Finset.mul_sum, Finset.sum_mul]
      refine Finset.sum_congr rfl fun j _ => by ring
    · refine Finset.sum_congr rfl fun j _ => by ring
  rw [h1, sum_weight h.bounds (fun i j => x i * (x i - x j)), sum_pairs]
  refine congrArg List.sum (List.map_congr_left fun e _ => by ring)

omit [LinearOrder K] [IsStrictOrderedRing K] in
theorem Ready.quadratic_eq (h : Ready m edges) (x : Nat → K) :
    quadratic m.size (laplacian m (edges.flatMap (pairOf m))) x =
      (edges.map fun e => e.2 * (x (idx m e.1.1) - x (idx m e.1.2)) ^ 2).sum := by
  rw [← h.quadratic_eq' x, quadratic, sumTo_eq]
  refine Finset.sum_congr rfl fun i _ => ?_
  rw [sumTo_eq, Finset.mul_sum]
  refine Finset.sum_congr rfl fun j _ => by ring

end system

section cuts

variable {edges : List ((Nat × Nat) × K)} {A B : List Nat}

/-- Each end of an edge is on one side. -/
def Sided (edges : List ((Nat × Nat) × K)) (A B : List Nat) : Prop :=
  ∀ e ∈ edges, (e.1.1 ∈ A ∧ e.1.1 ∉ B ∨ e.1.1 ∉ A ∧ e.1.1 ∈ B) ∧ (e.1.2 ∈ A ∧ e.1.2 ∉ B ∨ e.1.2 ∉ A ∧ e.1.2 ∈ B)

omit [Field K] [LinearOrder K] [IsStrictOrderedRing K] in
theorem sided (h : DividesNodes edges A B) : Sided edges A B := by
  have key : ∀ v, GraphNode edges v → (v ∈ A ∧ v ∉ B ∨ v ∉ A ∧ v ∈ B) := by
    intro v hv
    rcases (h.cover v).1 hv with h1 | h1
    · exact Or.inl ⟨h1, h.disjoint v h1⟩
    · exact Or.inr ⟨fun h2 => h.disjoint v h2 h1, h1⟩
  exact fun e he => ⟨key _ ⟨e, he, Or.inl rfl⟩, key _ ⟨e, he, Or.inr rfl⟩⟩

/-- The two-valued vector of a cut. -/
def twoValued (A : List Nat) (b : K) (v : Nat) : K := if v ∈ A then 1 else -b

omit [LinearOrder K] [IsStrictOrderedRing K] in
theorem sum_sides (h : Sided edges A B) (b : K) :
    (edges.map fun e => e.2 * (twoValued A b e.1.1 - twoValued A b e.1.2) ^ 2).sum = (1 + b) ^ 2 * cutBetween edges A B ∧
    (edges.map fun e => e.2 * (twoValued A b e.1.1 ^ 2 + twoValued A b e.1.2 ^ 2)).sum = volumeOf edges A + b ^ 2 * volumeOf edges B ∧
    (edges.map fun e => e.2 * (twoValued A b e.1.1 + twoValued A b e.1.2)).sum = volumeOf edges A - b * volumeOf edges B ∧
    (edges.map fun e => e.2 * ((1 : K) + 1)).sum = volumeOf edges A + volumeOf edges B := by
  induction edges with
  | nil => simp [cutBetween, volumeOf]
  | cons e es ih =>
    obtain ⟨i1, i2, i3, i4⟩ := ih (fun e he => h e (List.mem_cons_of_mem _ he))
    obtain ⟨h1, h2⟩ := h e (by simp)
    simp only [cutBetween, volumeOf] at i1 i2 i3 i4 ⊢
    simp only [List.map_cons, List.sum_cons, i1, i2, i3, i4]
    rcases h1 with ⟨h1, h1'⟩ | ⟨h1, h1'⟩ <;> rcases h2 with ⟨h2, h2'⟩ | ⟨h2, h2'⟩ <;>
      simp only [twoValued, h1, h1', h2, h2', if_true, if_false, and_true, true_and, and_false, false_and, or_false, false_or, or_self] <;>
      refine ⟨?_, ?_, ?_, ?_⟩ <;> ring

theorem volume_pos (hw : Weighted edges) {v : Nat} (hv : GraphNode edges v) (hA : v ∈ A) : 0 < volumeOf edges A := by
  obtain ⟨e, he, hev, hpos⟩ := hw.positive v hv
  have hnn : ∀ e ∈ edges, 0 ≤ (if e.1.1 ∈ A then e.2 else 0) + (if e.1.2 ∈ A then e.2 else 0) := by
    intro e he
    have := hw.nonneg e he
    refine add_nonneg ?_ ?_ <;> split <;> first | exact this | exact le_rfl
  have hle : (if e.1.1 ∈ A then e.2 else 0) + (if e.1.2 ∈ A then e.2 else 0) ≤ volumeOf edges A := by
    refine List.single_le_sum ?_ _ (List.mem_map.2 ⟨e, he, rfl⟩)
    intro x hx
    obtain ⟨e, he, rfl⟩ := List.mem_map.1 hx
    exact hnn e he
  refine lt_of_lt_of_le ?_ hle
  rcases hev with rfl | rfl
  · rw [if_pos hA]
    refine add_pos_of_pos_of_nonneg hpos ?_
    split
    · exact hpos.le
    · exact le_rfl
  · rw [if_pos hA (c := e.1.2 ∈ A)]
    refine add_pos_of_nonneg_of_pos ?_ hpos
    split
    · exact hpos.le
    · exact le_rfl

omit [LinearOrder K] [IsStrictOrderedRing K] in
theorem quotient_eq {vA vB c : K} (hA : vA ≠ 0) (hB : vB ≠ 0) (hS : vA + vB ≠ 0) :
    (1 + vA / vB) ^ 2 * c / (vA + (vA / vB) ^ 2 * vB) = c / vA + c / vB := by
  have h1 : vA + (vA / vB) ^ 2 * vB = vA * (vA + vB) / vB := by field_simp; ring
  have h2 : 1 + vA / vB = (vA + vB) / vB := by field_simp; ring
  rw [h1, h2]
  field_simp
  ring

end cuts

/-! ### The cost of one cut -/

theorem cost_some {m : AMap Nat Nat} {edges : List ((Nat × Nat) × K)} {A B : List Nat} (h : Ready m edges) (hw : Weighted edges)
    (hd : DividesNodes edges A B) {y : Nat → K} {cut : K} (hside : ∀ v, GraphNode edges v → (v ∈ A ↔ y (idx m v) > cut))
    (hA : ∃ v, v ∈ A) (hB : ∃ v, v ∈ B) :
    costForCut m.size (laplacian m (edges.flatMap (pairOf m))) (nodeWeight m (edges.flatMap (pairOf m))) y cut =
      some (normalizedCut edges A B) := by
  obtain ⟨a, ha⟩ := hA
  obtain ⟨c, hc⟩ := hB
  have pA := volume_pos hw ((hd.cover a).2 (Or.inl ha)) ha
  have pB := volume_pos hw ((hd.cover c).2 (Or.inr hc)) hc
  have hs := sided hd
  have htotal : sumTo m.size (nodeWeight m (edges.flatMap (pairOf m))) = volumeOf edges A + volumeOf edges B := by
    have := h.sum_nodeWeight (fun _ => 1)
    rw [(sum_sides hs 0).2.2.2] at this
    rw [sumTo_eq, ← this]
    simp
  have hend : ∀ e ∈ edges, ∀ b : K, (if y (idx m e.1.1) > cut then (1 : K) else -b) = twoValued A b e.1.1 ∧
      (if y (idx m e.1.2) > cut then (1 : K) else -b) = twoValued A b e.1.2 := by
    intro e he b
    unfold twoValued
    have h1 := hside e.1.1 ⟨e, he, Or.inl rfl⟩
    have h2 := hside e.1.2 ⟨e, he, Or.inr rfl⟩
    constructor
    · by_cases q : e.1.1 ∈ A
      · rw [if_pos q, if_pos (h1.1 q)]
      · rw [if_neg q, if_neg (fun q' => q (h1.2 q'))]
    · by_cases q : e.1.2 ∈ A
      · rw [if_pos q, if_pos (h2.1 q)]
      · rw [if_neg q, if_neg (fun q' => q (h2.2 q'))]
  have hk : sumTo m.size (fun i => nodeWeight m (edges.flatMap (pairOf m)) i * if y i > cut then 1 else 0) = volumeOf edges A := by
    rw [sumTo_eq, h.sum_nodeWeight (fun i => if y i > cut then 1 else 0)]
    have := (sum_sides hs 0).2.2.1
    rw [zero_mul, sub_zero] at this
    rw [← this]
    refine congrArg List.sum (List.map_congr_left fun e he => ?_)
    have := hend e he 0
    rw [neg_zero] at this
    rw [this.1, this.2]
  have hne : volumeOf edges A + volumeOf edges B ≠ 0 := (add_pos pA pB).ne'
  have hk1 : 1 - volumeOf edges A / (volumeOf edges A + volumeOf edges B) = volumeOf edges B / (volumeOf edges A + volumeOf edges B) := by
    field_simp
    ring
  have hb : volumeOf edges A / (volumeOf edges A + volumeOf edges B) / (1 - volumeOf edges A / (volumeOf edges A + volumeOf edges B)) =
      volumeOf edges A / volumeOf edges B := by
    rw [hk1]
    have := pB.ne'
    field_simp
  have hk0 : ¬(1 - volumeOf edges A / (volumeOf edges A + volumeOf edges B) = 0) := by
    rw [hk1]
    exact div_ne_zero pB.ne' hne
  unfold costForCut
  simp only [htotal, hk, hb, if_neg hne, hk0, false_and, if_false]
  have hnorm : sumTo m.size (fun i => (if y i > cut then (1 : K) else -(volumeOf edges A / volumeOf edges B)) *
      (nodeWeight m (edges.flatMap (pairOf m)) i * if y i > cut then (1 : K) else -(volumeOf edges A / volumeOf edges B))) =
      volumeOf edges A + (volumeOf edges A / volumeOf edges B) ^ 2 * volumeOf edges B := by
    rw [sumTo_eq, ← (sum_sides hs (volumeOf edges A / volumeOf edges B)).2.1]
    have := h.sum_nodeWeight (fun i => (if y i > cut then (1 : K) else -(volumeOf edges A / volumeOf edges B)) ^ 2)
    have e : ∀ i, (if y i > cut then (1 : K) else -(volumeOf edges A / volumeOf edges B)) *
      (nodeWeight m (edges.flatMap (pairOf m)) i * if y i > cut then (1 : K) else -(volumeOf edges A / volumeOf edges B)) =
      nodeWeight m (edges.flatMap (pairOf m)) i * (if y i > cut then (1 : K) else -(volumeOf edges A / volumeOf edges B)) ^ 2 := by
      intro i; ring
    simp only [e]
    rw [this]
    refine congrArg List.sum (List.map_congr_left fun e he => ?_)
    have := hend e he (volumeOf edges A / volumeOf edges B)
    rw [this.1, this.2]
  have hpos : volumeOf edges A + (volumeOf edges A / volumeOf edges B) ^ 2 * volumeOf edges B ≠ 0 :=
    (add_pos_of_pos_of_nonneg pA (mul_nonneg (sq_nonneg _) pB.le)).ne'
  rw [hnorm, if_neg hpos, h.quadratic_eq]
  have hq : (edges.map fun e => e.2 * ((if y (idx m e.1.1) > cut then (1 : K) else -(volumeOf edges A / volumeOf edges B)) -
      if y (idx m e.1.2) > cut then (1 : K) else -(volumeOf edges A / volumeOf edges B)) ^ 2).sum =
      (1 + volumeOf edges A / volumeOf edges B) ^ 2 * cutBetween edges A B := by
    rw [← (sum_sides hs (volumeOf edges A / volumeOf edges B)).1]
    refine congrArg List.sum (List.map_congr_left fun e he => ?_)
    have := hend e he (volumeOf edges A / volumeOf edges B)
    rw [this.1, this.2]
  rw [hq, quotient_eq pA.ne' pB.ne' hne]
  rfl

omit [IsStrictOrderedRing K] in
/-- No node is above the cut: the cost is NaN. -/
theorem cost_none {n : Nat} {L : Nat → Nat → K} {d y : Nat → K} {cut : K} (h : ∀ i < n, ¬y i > cut) : costForCut n L d y cut = none := by
  unfold costForCut
  have hk : sumTo n (fun i => d i * if y i > cut then 1 else 0) = 0 := by
    rw [sumTo_eq]
    exact Finset.sum_eq_zero fun i hi => by rw [if_neg (h i (Finset.mem_range.1 hi)), mul_zero]
  simp only [hk, zero_div, sub_zero, one_ne_zero, false_and, if_false, div_one, neg_zero]
  split
  · rfl
  · rw [if_pos]
    rw [sumTo_eq]
    exact Finset.sum_eq_zero fun i hi => by rw [if_neg (h i (Finset.mem_range.1 hi)), zero_mul]

/-! ### The loop over the cuts -/

omit [IsStrictOrderedRing K] in
theorem foldl_tryCut (cost : K → Option K) (cuts : List K) (best : K × K) :
    (cuts.foldl (tryCut cost) best = best ∨ ∃ c ∈ cuts, cost c = some (cuts.foldl (tryCut cost) best).2 ∧
      (cuts.foldl (tryCut cost) best).1 = c ∧ (cuts.foldl (tryCut cost) best).2 < best.2) ∧
    (cuts.foldl (tryCut cost) best).2 ≤ best.2 ∧
    ∀ c ∈ cuts, ∀ x, cost c = some x → (cuts.foldl (tryCut cost) best).2 ≤ x := by
  induction cuts generalizing best with
  | nil => exact ⟨Or.inl rfl, le_rfl, fun c hc => absurd hc (by simp)⟩
  | cons c cs ih =>
    obtain ⟨i1, i2, i3⟩ := ih (tryCut cost best c)
    rw [List.foldl_cons]
    have hstep : (tryCut cost best c = best ∨ (cost c = some (tryCut cost best c).2 ∧ (tryCut cost best c).1 = c ∧
        (tryCut cost best c).2 < best.2)) ∧ ∀ x, cost c = some x → (tryCut cost best c).2 ≤ x := by
      unfold tryCut
      cases hc : cost c with
      | none => exact ⟨Or.inl rfl, fun x hx => by simp at hx⟩
      | some x =>
        by_cases hlt : x < best.2
        · simp only [hlt, if_true]
          exact ⟨Or.inr ⟨trivial, trivial, trivial⟩, fun x' hx' => by simp only [Option.some.injEq] at hx'; exact hx'.le⟩
        · simp only [hlt, if_false]
          exact ⟨Or.inl trivial, fun x' hx' => by simp only [Option.some.injEq] at hx'; rw [← hx']; exact not_lt.1 hlt⟩
    have hle : (tryCut cost best c).2 ≤ best.2 := by
      rcases hstep.1 with h | ⟨_, _, h⟩
      · rw [h]
      · exact h.le
    refine ⟨?_, i2.trans hle, ?_⟩
    · rcases i1 with h | ⟨c', hc', h1, h2, h3⟩
      · rw [h]
        rcases hstep.1 with h' | ⟨h1, h2, h3⟩
        · exact Or.inl h'
        · exact Or.inr ⟨c, by simp, h1, h2, h3⟩
      · exact Or.inr ⟨c', List.mem_cons_of_mem _ hc', h1, h2, h3.trans_le hle⟩
    · intro c' hc' x hx
      rcases List.mem_cons.1 hc' with rfl | hc'
      · exact i2.trans (hstep.2 x hx)
      · exact i3 c' hc' x hx

/-! ### The subgraphs -/

theorem mem_put {s : List Nat} {v u : Nat} : u ∈ put s v ↔ u ∈ s ∨ u = v := by
  unfold put
  split
  · next h => exact ⟨Or.inl, fun h' => h'.elim id fun e => e ▸ h⟩
  · simp

theorem nodup_put {s : List Nat} (h : s.Nodup) (v : Nat) : (put s v).Nodup := by
  unfold put
  split
  · exact h
  · next hv => exact List.nodup_append.2 ⟨h, List.nodup_singleton _, fun a ha b hb e => hv (by simp at hb; rw [← hb, ← e]; exact ha)⟩

omit [Field K] [IsStrictOrderedRing K] in
theorem mem_divide (y : Nat → K) (cut : K) (es : List (Nat × Nat)) (s : List Nat × List Nat) (v : Nat) :
    (v ∈ (divide y cut es s).1 ↔ v ∈ s.1 ∨ ∃ e ∈ es, e.1 = v ∧ y e.2 > cut) ∧
    (v ∈ (divide y cut es s).2 ↔ v ∈ s.2 ∨ ∃ e ∈ es, e.1 = v ∧ ¬y e.2 > cut) := by
  induction es generalizing s with
  | nil => simp [divide]
  | cons e es ih =>
    rw [divide]
    by_cases h : y e.2 > cut
    · simp only [h, if_true]
      rw [(ih _).1, (ih _).2]
      simp only [mem_put, List.mem_cons, exists_eq_or_imp, h, not_true, and_false, and_true, false_or, or_assoc, eq_comm (a := v)]
    · simp only [h, if_false]
      rw [(ih _).1, (ih _).2]
      simp only [mem_put, List.mem_cons, exists_eq_or_imp, h, not_false_iff, and_false, and_true, false_or, or_assoc, eq_comm (a := v)]

omit [Field K] [IsStrictOrderedRing K] in
theorem nodup_divide (y : Nat → K) (cut : K) (es : List (Nat × Nat)) (s : List Nat × List Nat) (h : s.1.Nodup ∧ s.2.Nodup) :
    (divide y cut es s).1.Nodup ∧ (divide y cut es s).2.Nodup := by
  induction es generalizing s with
  | nil => exact h
  | cons e es ih =>
    rw [divide]
    refine ih _ ?_
    split
    · exact ⟨nodup_put h.1 _, h.2⟩
    · exact ⟨h.1, nodup_put h.2 _⟩

/-! ### Quartiles -/

omit [Field K] [IsStrictOrderedRing K] in
theorem nth_eq (l : List K) (k : Nat) : nth l k = Quality.orderStatistic l k := by
  have hp : (l.insertionSort (· ≤ ·)).Perm (l.mergeSort (fun a b => decide (a ≤ b))) :=
    (List.perm_insertionSort _ l).trans (List.mergeSort_perm l _).symm
  have hs : (l.mergeSort (fun a b => decide (a ≤ b))).Pairwise (· ≤ ·) := by
    have := List.pairwise_mergeSort (le := fun a b : K => decide (a ≤ b))
      (fun a b c h1 h2 => by simp only [decide_eq_true_eq] at *; exact le_trans h1 h2)
      (fun a b => by simp only [Bool.or_eq_true, decide_eq_true_eq]; exact le_total a b) l
    exact this.imp (fun h => by simpa using h)
  rw [nth, Quality.orderStatistic, hp.eq_of_pairwise (fun a b _ _ h1 h2 => le_antisymm h1 h2) (List.pairwise_insertionSort _ l) hs]
  rfl

omit [Field K] [IsStrictOrderedRing K] in
theorem nth_le {l : List K} {j k : Nat} {a b : K} (ha : nth l j = .ok a) (hb : nth l k = .ok b) (hjk : j ≤ k) : a ≤ b := by
  have hs : (l.insertionSort (· ≤ ·)).Pairwise (· ≤ ·) := List.pairwise_insertionSort _ l
  unfold nth at ha hb
  split at ha
  · cases ha
  · next x hx =>
    cases ha
    split at hb
    · cases hb
    · next y hy =>
      cases hb
      obtain ⟨h1, rfl⟩ := List.getElem?_eq_some_iff.1 hx
      obtain ⟨h2, rfl⟩ := List.getElem?_eq_some_iff.1 hy
      rcases Nat.eq_or_lt_of_le hjk with rfl | h
      · exact le_rfl
      · exact List.pairwise_iff_getElem.1 hs j k h1 h2 h

theorem le_cutValue {q1 q3 : K} (h : q1 ≤ q3) (i : Nat) : q1 ≤ cutValue q1 q3 i := by
  unfold cutValue numCuts
  have h9 : (((10 - 1 : Nat) : Nat) : K) = 9 := by norm_num
  rw [h9]
  have : 0 ≤ (i : K) / 9 := div_nonneg (Nat.cast_nonneg _) (by norm_num)
  nlinarith [mul_nonneg this (sub_nonneg.2 h)]

theorem cutValue_eq (q1 q3 : K) (i : Nat) : cutValue q1 q3 i = testedCut q1 q3 i := by
  unfold cutValue testedCut numCuts
  have h9 : (((10 - 1 : Nat) : Nat) : K) = 9 := by norm_num
  rw [h9]
  ring

/-! ### A whole call -/

/-- Values at the nodes. -/
def scoreOf (m : AMap Nat Nat) (y : Nat → K) (v : Nat) : K := y (idx m v)

omit [LinearOrder K] [IsStrictOrderedRing K] [Field K] in
theorem keys_map_score {m : AMap Nat Nat} (h : Indexed m) (y : Nat → K) : m.keys.map (scoreOf m y) = (List.range m.size).map y := by
  rw [← h.range, AMap.keys, List.map_map, List.map_map]
  refine List.map_congr_left fun e he => ?_
  simp only [Function.comp, scoreOf, idx]
  rw [AMap.get_of_mem_entries h.wf he]
  rfl

omit [Field K] [IsStrictOrderedRing K] in
theorem mem_divide_keys {m : AMap Nat Nat} (h : Indexed m) (y : Nat → K) (cut : K) (v : Nat) :
    (v ∈ (divide y cut m.entries ([], [])).1 ↔ v ∈ m.keys ∧ scoreOf m y v > cut) ∧
    (v ∈ (divide y cut m.entries ([], [])).2 ↔ v ∈ m.keys ∧ ¬scoreOf m y v > cut) := by
  have key : ∀ p : K → Prop, (∃ e ∈ m.entries, e.1 = v ∧ p (y e.2)) ↔ v ∈ m.keys ∧ p (scoreOf m y v) := by
    intro p
    constructor
    · rintro ⟨⟨u, i⟩, he, rfl, hp⟩
      refine ⟨AMap.mem_keys.2 ⟨i, he⟩, ?_⟩
      have : idx m u = i := by rw [idx, AMap.get_of_mem_entries h.wf he]; rfl
      rw [scoreOf, this]
      exact hp
    · rintro ⟨hv, hp⟩
      exact ⟨(v, idx m v), AMap.mem_entries_of_get (get_idx hv), rfl, hp⟩
  obtain ⟨h1, h2⟩ := mem_divide y cut m.entries ([], []) v
  refine ⟨h1.trans ?_, h2.trans ?_⟩
  · simpa using key (· > cut)
  · simpa using key (fun x => ¬x > cut)

omit [Field K] [IsStrictOrderedRing K] in
theorem quantiles_ok {n : Nat} (hn : 10 ≤ n) (y : Nat → K) : ∃ q1 q3, quantiles n y = .ok (q1, q3) ∧ q1 ≤ q3 ∧
    RankIn ((List.range n).map y) (n / 4) q1 ∧ RankIn ((List.range n).map y) (3 * n / 4) q3 := by
  have hl : ((List.range n).map y).length = n := by simp
  obtain ⟨q1, h1, r1⟩ := Quality.orderStatistic_spec (l := (List.range n).map y) (k := n / 4) (by rw [hl]; omega)
  obtain ⟨q3, h3, r3⟩ := Quality.orderStatistic_spec (l := (List.range n).map y) (k := 3 * n / 4) (by rw [hl]; omega)
  rw [← nth_eq] at h1 h3
  refine ⟨q1, q3, ?_, nth_le h1 h3 (by omega), r1, r3⟩
  rw [quantiles, if_neg (by omega), h1, h3]

omit [IsStrictOrderedRing K] in
/-- What the result of a call on a new object consists of. -/
theorem computeCut_inv {solver : Nat → (Nat → Nat → K) → (Nat → K) → Option (Nat → K)} {edges : List ((Nat × Nat) × K)}
    {m : AMap Nat Nat} {A B : List Nat} {cost : K} (h : computeCut solver AMap.empty edges ([], []) = .ok (m, some ((A, B), cost))) :
    m = indexNodeIds edges AMap.empty ∧ 10 ≤ m.size ∧ ∃ y,
      solver m.size (laplacian m (edges.flatMap (pairOf m))) (nodeWeight m (edges.flatMap (pairOf m))) = some y ∧
      ∃ q1 q3, quantiles m.size y = .ok (q1, q3) ∧
        (A, B) = divide y (bestCut (costForCut m.size (laplacian m (edges.flatMap (pairOf m)))
          (nodeWeight m (edges.flatMap (pairOf m))) y) q1 q3).1 m.entries ([], []) ∧
        cost = (bestCut (costForCut m.size (laplacian m (edges.flatMap (pairOf m)))
          (nodeWeight m (edges.flatMap (pairOf m))) y) q1 q3).2 := by
  unfold computeCut at h
  have hr := ready Indexed.empty edges
  simp only [triplets_eq hr.ends] at h
  by_cases hs : (indexNodeIds edges AMap.empty).size < 10
  · rw [if_pos hs] at h
    cases h
  · rw [if_neg hs] at h
    split at h
    · cases h
    · next y hy =>
      split at h
      · cases h
      · cases h
      · next r hf =>
        simp only [Outcome.ok.injEq, Prod.mk.injEq, Option.some.injEq] at h
        obtain ⟨rfl, rfl⟩ := h
        refine ⟨rfl, by omega, y, hy, ?_⟩
        unfold findOptimalCut at hf
        split at hf
        · cases hf
        · cases hf
        · next q1 q3 hq =>
          simp only [Outcome.ok.injEq, Prod.mk.injEq] at hf
          exact ⟨q1, q3, hq, hf.1.symm, hf.2.symm⟩

omit [Field K] [LinearOrder K] [IsStrictOrderedRing K] in
theorem node_iff (edges : List ((Nat × Nat) × K)) (v : Nat) : v ∈ (indexNodeIds edges AMap.empty).keys ↔ GraphNode edges v := by
  rw [mem_keys_indexNodeIds]
  simp [AMap.keys, AMap.empty]

omit [Field K] [IsStrictOrderedRing K] in
theorem divides {edges : List ((Nat × Nat) × K)} (y : Nat → K) (cut : K) :
    DividesNodes edges (divide y cut (indexNodeIds edges AMap.empty).entries ([], [])).1
      (divide y cut (indexNodeIds edges AMap.empty).entries ([], [])).2 := by
  have hi : Indexed (indexNodeIds edges AMap.empty) := Indexed.empty.indexNodeIds edges
  refine ⟨fun v => ?_, fun v => ?_⟩
  · rw [(mem_divide_keys hi y cut v).1, (mem_divide_keys hi y cut v).2, ← node_iff]
    constructor
    · intro hv
      by_cases hc : scoreOf (indexNodeIds edges AMap.empty) y v > cut
      · exact Or.inl ⟨hv, hc⟩
      · exact Or.inr ⟨hv, hc⟩
    · rintro (h | h) <;> exact h.1
  · rw [(mem_divide_keys hi y cut v).1, (mem_divide_keys hi y cut v).2]
    exact fun h h' => h'.2 h.2

theorem spectral {edges : List ((Nat × Nat) × K)} (hw : Weighted edges) {m : AMap Nat Nat} (hm : m = indexNodeIds edges AMap.empty)
    (hn : 10 ≤ m.size) {y : Nat → K} {q1 q3 : K} (hq : quantiles m.size y = .ok (q1, q3)) {best : K × K}
    (hb : best = bestCut (costForCut m.size (laplacian m (edges.flatMap (pairOf m))) (nodeWeight m (edges.flatMap (pairOf m))) y) q1 q3) :
    SpectralCut edges (scoreOf m y) (divide y best.1 m.entries ([], [])).1 (divide y best.1 m.entries ([], [])).2 best.2 := by
  obtain ⟨q1', q3', hq', hle, r1, r3⟩ := quantiles_ok hn y
  rw [hq] at hq'
  simp only [Outcome.ok.injEq, Prod.mk.injEq] at hq'
  obtain ⟨rfl, rfl⟩ := hq'
  have hr : Ready m edges := by rw [hm]; exact ready Indexed.empty edges
  have hlen : m.keys.length = m.size := (AMap.size_eq_length_keys m).symm
  have hnode : ∀ v, v ∈ m.keys ↔ GraphNode edges v := by intro v; rw [hm]; exact node_iff edges v
  rw [← keys_map_score hr.indexed] at r1 r3
  rw [← hlen] at r1 r3
  obtain ⟨i1, i2, i3⟩ := foldl_tryCut (costForCut m.size (laplacian m (edges.flatMap (pairOf m)))
    (nodeWeight m (edges.flatMap (pairOf m))) y) ((List.range numCuts).map (cutValue q1 q3)) (0, 10 ^ 12)
  rw [show ((List.range numCuts).map (cutValue q1 q3)).foldl (tryCut (costForCut m.size (laplacian m (edges.flatMap (pairOf m)))
    (nodeWeight m (edges.flatMap (pairOf m))) y)) (0, 10 ^ 12) = best from hb.symm] at i1 i2 i3
  have hdiv : ∀ c, DividesNodes edges (divide y c m.entries ([], [])).1 (divide y c m.entries ([], [])).2 := by
    intro c
    rw [hm]
    exact divides y c
  -- the node with the first quartile as its value is below each cut
  obtain ⟨w, hw1, hw2⟩ := List.mem_map.1 r1.1
  refine ⟨m.keys, hr.indexed.wf, hnode, q1, q3, r1, r3, best.1, ?_, ?_, ?_, ?_⟩
  · intro v hv
    rw [(mem_divide_keys hr.indexed y best.1 v).1] at hv
    exact hv.2
  · intro v hv
    rw [(mem_divide_keys hr.indexed y best.1 v).2] at hv
    exact not_lt.1 hv.2
  · intro i hi A' B' hd' hA' hB' hne
    refine i3 (cutValue q1 q3 i) (List.mem_map.2 ⟨i, List.mem_range.2 hi, rfl⟩) _ ?_
    refine cost_some hr hw hd' ?_ hne ?_
    · intro v hv
      rw [cutValue_eq]
      constructor
      · exact hA' v
      · intro hc
        rcases (hd'.cover v).1 hv with h | h
        · exact h
        · exact absurd hc (not_lt.2 (hB' v h))
    · refine ⟨w, ?_⟩
      rcases (hd'.cover w).1 ((hnode w).1 hw1) with h | h
      · have h1 := hA' w h
        rw [hw2] at h1
        have := le_cutValue hle i
        rw [cutValue_eq] at this
        exact absurd h1 (not_lt.2 this)
      · exact h
  · rcases i1 with h | ⟨c, hc, h1, h2, h3⟩
    · refine Or.inr ⟨congrArg Prod.fst h, congrArg Prod.snd h⟩
    · left
      obtain ⟨i, hi, rfl⟩ := List.mem_map.1 hc
      rw [← h2] at h1
      have hA : ∃ v, v ∈ (divide y best.1 m.entries ([], [])).1 := by
        by_contra hno
        have : ∀ i < m.size, ¬y i > best.1 := by
          intro i hi hgt
          obtain ⟨v, hv, rfl⟩ := exists_idx hr.indexed hi
          exact hno ⟨v, (mem_divide_keys hr.indexed y best.1 v).1.2 ⟨hv, hgt⟩⟩
        rw [cost_none this] at h1
        cases h1
      have hB : ∃ v, v ∈ (divide y best.1 m.entries ([], [])).2 := by
        refine ⟨w, (mem_divide_keys hr.indexed y best.1 w).2.2 ⟨hw1, ?_⟩⟩
        rw [hw2, h2]
        exact not_lt.2 (le_cutValue hle i)
      refine ⟨⟨i, List.mem_range.1 hi, by rw [h2, cutValue_eq]⟩, hA, hB, ?_, h3⟩
      have := cost_some hr hw (hdiv best.1) (y := y) (cut := best.1) (fun v hv => by
        rw [(mem_divide_keys hr.indexed y best.1 v).1]
        exact ⟨fun h => h.2, fun h => ⟨(hnode v).2 hv, h⟩⟩) hA hB
      rw [h1] at this
      exact Option.some.inj this

omit [LinearOrder K] [IsStrictOrderedRing K] in
/-- A sum over the nodes of a constant row is the volume of the node. -/
theorem Ready.nodeWeight_volume {m : AMap Nat Nat} {edges : List ((Nat × Nat) × K)} (h : Ready m edges) {v : Nat} (hv : v ∈ m.keys) :
    nodeWeight m (edges.flatMap (pairOf m)) (idx m v) = volumeOf edges [v] := by
  have h1 := h.sum_nodeWeight (fun i => if i = idx m v then (1 : K) else 0)
  simp only [mul_ite, mul_one, mul_zero] at h1
  rw [Finset.sum_ite_eq', if_pos (Finset.mem_range.2 (idx_lt h.indexed hv))] at h1
  rw [h1, volumeOf]
  refine congrArg List.sum (List.map_congr_left fun e he => ?_)
  have e1 : (idx m e.1.1 = idx m v) ↔ e.1.1 ∈ [v] := by
    rw [List.mem_singleton]
    exact ⟨idx_inj h.indexed (h.ends e he).1 hv, fun e => by rw [e]⟩
  have e2 : (idx m e.1.2 = idx m v) ↔ e.1.2 ∈ [v] := by
    rw [List.mem_singleton]
    exact ⟨idx_inj h.indexed (h.ends e he).2 hv, fun e => by rw [e]⟩
  simp only [e1, e2]
  rw [mul_add]
  congr 1 <;> split <;> simp

omit [LinearOrder K] [IsStrictOrderedRing K] in
theorem Ready.flow {m : AMap Nat Nat} {edges : List ((Nat × Nat) × K)} (h : Ready m edges) (y : Nat → K) {v : Nat} (hv : v ∈ m.keys) :
    ∑ j ∈ Finset.range m.size, laplacian m (edges.flatMap (pairOf m)) (idx m v) j * y j = flowAt edges (scoreOf m y) v := by
  rw [h.row_laplacian y (idx_lt h.indexed hv), flowAt]
  refine congrArg List.sum (List.map_congr_left fun e he => ?_)
  have e1 : (idx m e.1.1 = idx m v) ↔ e.1.1 = v := ⟨idx_inj h.indexed (h.ends e he).1 hv, fun e => by rw [e]⟩
  have e2 : (idx m e.1.2 = idx m v) ↔ e.1.2 = v := ⟨idx_inj h.indexed (h.ends e he).2 hv, fun e => by rw [e]⟩
  simp only [e1, e2, scoreOf]

/-- The second eigenvalue is a lower bound of all normalized cuts. -/
theorem Ready.bound {m : AMap Nat Nat} {edges : List ((Nat × Nat) × K)} (h : Ready m edges) (hw : Weighted edges) {ev : K}
    (hev : ∀ z : Nat → K, ∑ i ∈ Finset.range m.size, nodeWeight m (edges.flatMap (pairOf m)) i * z i = 0 →
      ev * ∑ i ∈ Finset.range m.size, nodeWeight m (edges.flatMap (pairOf m)) i * z i ^ 2 ≤
        ∑ i ∈ Finset.range m.size, ∑ j ∈ Finset.range m.size, z i * laplacian m (edges.flatMap (pairOf m)) i j * z j)
    {A B : List Nat} (hd : DividesNodes edges A B) (hA : ∃ v, v ∈ A) (hB : ∃ v, v ∈ B) : ev ≤ normalizedCut edges A B := by
  obtain ⟨a, ha⟩ := hA
  obtain ⟨c, hc⟩ := hB
  have pA := volume_pos hw ((hd.cover a).2 (Or.inl ha)) ha
  have pB := volume_pos hw ((hd.cover c).2 (Or.inr hc)) hc
  have hne : volumeOf edges A + volumeOf edges B ≠ 0 := (add_pos pA pB).ne'
  -- values at the indices
  obtain ⟨z, hz⟩ : ∃ z : Nat → K, ∀ v ∈ m.keys, z (idx m v) = twoValued A (volumeOf edges A / volumeOf edges B) v := by
    classical
    refine ⟨fun i => if hx : ∃ v, v ∈ m.keys ∧ idx m v = i then
      twoValued A (volumeOf edges A / volumeOf edges B) (Classical.choose hx) else 0, fun v hv => ?_⟩
    have hx : ∃ u, u ∈ m.keys ∧ idx m u = idx m v := ⟨v, hv, rfl⟩
    simp only [dif_pos hx]
    have := Classical.choose_spec hx
    rw [idx_inj h.indexed this.1 hv this.2]
  obtain ⟨s1, s2, s3, _⟩ := sum_sides (sided hd) (volumeOf edges A / volumeOf edges B)
  have h0 := hev z (by
    rw [h.sum_nodeWeight]
    have : (edges.map fun e => e.2 * (z (idx m e.1.1) + z (idx m e.1.2))).sum =
        volumeOf edges A - volumeOf edges A / volumeOf edges B * volumeOf edges B := by
      rw [← s3]
      refine congrArg List.sum (List.map_congr_left fun e he => ?_)
      rw [hz _ (h.ends e he).1, hz _ (h.ends e he).2]
    rw [this, div_mul_cancel₀ _ pB.ne', sub_self])
  rw [h.sum_nodeWeight (fun i => z i ^ 2), h.quadratic_eq'] at h0
  have e1 : (edges.map fun e => e.2 * (z (idx m e.1.1) ^ 2 + z (idx m e.1.2) ^ 2)).sum =
      volumeOf edges A + (volumeOf edges A / volumeOf edges B) ^ 2 * volumeOf edges B := by
    rw [← s2]
    refine congrArg List.sum (List.map_congr_left fun e he => ?_)
    rw [hz _ (h.ends e he).1, hz _ (h.ends e he).2]
  have e2 : (edges.map fun e => e.2 * (z (idx m e.1.1) - z (idx m e.1.2)) ^ 2).sum =
      (1 + volumeOf edges A / volumeOf edges B) ^ 2 * cutBetween edges A B := by
    rw [← s1]
    refine congrArg List.sum (List.map_congr_left fun e he => ?_)
    rw [hz _ (h.ends e he).1, hz _ (h.ends e he).2]
  rw [e1, e2] at h0
  have hpos : 0 < volumeOf edges A + (volumeOf edges A / volumeOf edges B) ^ 2 * volumeOf edges B :=
    add_pos_of_pos_of_nonneg pA (mul_nonneg (sq_nonneg _) pB.le)
  have := (le_div_iff₀ hpos).2 h0
  rw [quotient_eq pA.ne' pB.ne' hne] at this
  exact this

end GraphCut
end Theia
