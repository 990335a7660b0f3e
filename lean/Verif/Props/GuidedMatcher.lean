import Mathlib.Data.Rat.Floor
import Mathlib.Algebra.Order.Field.Rat
import Verif.Proof.GuidedMatcher

/-!
# C33 and C51: guided matching
-/

namespace Theia

open Spec Guided

variable {K : Type} [Field K] [LinearOrder K] [FloorRing K] [IsStrictOrderedRing K]

/-- C33, encoding: endpoints whose coordinates fit 16 bits are encoded in 64 bits, and decoding gives the
pixels they are in. -/
theorem C33_round_trip (p q : Pt K) (hp : PtInRange p) (hq : PtInRange q) :
    ∃ e, encode p q = .ok e ∧ e < 2 ^ 64 ∧ decode e = (pixel p, pixel q) := by
  obtain ⟨h, a, b, c, d⟩ := encode_ok hp hq
  exact ⟨_, h, by omega, decode_encoded a b c d⟩

/-- C33, order: two encoded endpoint pairs are equal if and only if the pixels are, and the codes are ordered
as the pixels are: by x and y of the first and then of the second endpoint. -/
theorem C33_order (p q p' q' : Pt K) (hp : PtInRange p) (hq : PtInRange q) (hp' : PtInRange p') (hq' : PtInRange q') :
    ∃ e e', encode p q = .ok e ∧ encode p' q' = .ok e' ∧
      (e = e' ↔ pixel p = pixel p' ∧ pixel q = pixel q') ∧
      (e < e' ↔ QuadLt (pixel p, pixel q) (pixel p', pixel q')) := by
  obtain ⟨h, a, b, c, d⟩ := encode_ok hp hq
  obtain ⟨h', a', b', c', d'⟩ := encode_ok hp' hq'
  refine ⟨_, _, h, h', ?_, ?_⟩
  · constructor
    · intro he
      have h1 := decode_encoded a b c d
      rw [he, decode_encoded a' b' c' d'] at h1
      simp only [Prod.mk.injEq] at h1
      obtain ⟨⟨e1, e2⟩, e3, e4⟩ := h1
      exact ⟨Prod.ext e1.symm e2.symm, Prod.ext e3.symm e4.symm⟩
    · rintro ⟨e1, e2⟩
      rw [e1, e2]
  · unfold QuadLt
    simp only
    omega

example : PtInRange ((3 : ℚ), (7 / 2 : ℚ)) ∧ PtInRange ((640 : ℚ), (479 / 2 : ℚ)) ∧
    encode ((3 : ℚ), (7 / 2 : ℚ)) (640, 479 / 2) = .ok (3 * 2 ^ 48 + 3 * 2 ^ 32 + 640 * 2 ^ 16 + 239) ∧
    decode (3 * 2 ^ 48 + 3 * 2 ^ 32 + 640 * 2 ^ 16 + 239) = ((3, 3), (640, 239)) := by
  refine ⟨?_, ?_, by decide +kernel, by decide +kernel⟩ <;> constructor <;> constructor <;> norm_num

omit [IsStrictOrderedRing K] in
/-- Coordinates that do not fit, such as a keypoint at 65536 pixels or more or left of the image, are
converted with undefined behaviour. -/
theorem C33_out_of_range_counterexample (p q : Pt K) (h : 65536 ≤ p.1 ∨ p.1 ≤ -1) : encode p q = .ub := by
  have : toU16 p.1 = .ub := by
    unfold toU16
    rw [if_neg]
    rintro ⟨h1, h2⟩
    rcases h with h | h
    · exact absurd h2 (not_lt.2 h)
    · exact absurd h1 (not_lt.2 h)
  unfold encode
  rw [this]

omit [FloorRing K] in
/-- C33, endpoints: the intersections of a line with a box are exactly its points on those sides of the box
that it is not parallel to. -/
theorem C33_endpoints (b : Box K) (l : Line K) (p : Pt K) (hb : b.left ≤ b.right) (hb' : b.top ≤ b.bottom) :
    p ∈ intersections b l ↔ OnLine l p ∧ InBox b p ∧
      ((l.2.1 ≠ 0 ∧ (p.1 = b.left ∨ p.1 = b.right)) ∨ (l.1 ≠ 0 ∧ (p.2 = b.top ∨ p.2 = b.bottom))) :=
  mem_intersections b l p hb hb'

/-- The diagonal of a box meets it in its two corners, but each corner is found twice: there are four
intersections and not two, so that the feature is skipped. -/
theorem C33_corner_counterexample :
    intersections (⟨0, 0, 10, 10⟩ : Box ℚ) (1, -1, 0) = [(0, 0), (0, 0), (10, 10), (10, 10)] ∧
    groupLines (fun _ => (1, -1, 0)) (⟨0, 0, 10, 10⟩ : Box ℚ) 2 [] [(5, 5)] = .ok [] := by
  constructor <;> decide +kernel

/-- C33, groups: if the box fits 16 bits, the lines are grouped without undefined behaviour. The features in
the groups are, each once, those of the first image that have no match and whose line meets the box in two
listed points, in the order of their encoded pixels. The endpoints of a group are the means of the pixels of
its features; every feature but the first of a group was within the maximal distance of the mean of those
before it, and the first one of the next group is not. -/
theorem C33_groups (line : Pt K → Line K) (b : Box K) (maxDist : K) (matched1 : List Nat) (kps1 : List (Pt K))
    (hb : b.left ≤ b.right ∧ b.top ≤ b.bottom ∧ 0 ≤ b.left ∧ 0 ≤ b.top ∧ b.right < 65536 ∧ b.bottom < 65536) :
    ∃ (gs : List (LineGroup K)) (ends : Nat → (Nat × Nat) × (Nat × Nat)), groupLines line b maxDist matched1 kps1 = .ok gs ∧
      (gs.flatMap (·.features)).Nodup ∧
      (∀ i : Nat, i ∈ gs.flatMap (·.features) ↔ i ∉ matched1 ∧ ∃ p u v, kps1[i]? = some p ∧
        intersections b (line p) = [u, v]) ∧
      (∀ (i : Nat) p u v, kps1[i]? = some p → intersections b (line p) = [u, v] →
        ends i = (pixel u, pixel v)) ∧
      (gs.flatMap (·.features)).Pairwise (fun i j => ¬ QuadLt (ends j) (ends i)) ∧
      Clustered maxDist (fun i => (((ends i).1.1, (ends i).1.2), ((ends i).2.1, (ends i).2.2))) gs := by
  obtain ⟨es, h1, h2, h3⟩ := endpointLoop_ok line b hb matched1 kps1 0
  have hperm := List.perm_insertionSort pairLe es
  have htot : Std.Total pairLe := ⟨fun a b => by unfold pairLe; omega⟩
  have htr : IsTrans (Nat × Nat) pairLe := ⟨fun a b c => by unfold pairLe; omega⟩
  have hsorted := List.pairwise_insertionSort pairLe es
  let ends : Nat → (Nat × Nat) × (Nat × Nat) := fun i => match kps1[i]? with
    | some p => match intersections b (line p) with
      | [u, v] => (pixel u, pixel v)
      | _ => ((0, 0), (0, 0))
    | none => ((0, 0), (0, 0))
  have hends : ∀ (i : Nat) p u v, kps1[i]? = some p → intersections b (line p) = [u, v] →
      ends i = (pixel u, pixel v) := by
    intro i p u v hp huv
    simp only [ends, hp, huv]
  have hes : ∀ e ∈ es.insertionSort pairLe, decode e.1 = ends e.2 := by
    rintro ⟨e, i⟩ he
    rw [hperm.mem_iff, h3] at he
    obtain ⟨k, p, u, v, hk, hp, hm, huv, rfl⟩ := he
    rw [Nat.zero_add] at hk
    subst hk
    have hu := ptInRange_of_mem hb (show u ∈ intersections b (line p) by simp [huv])
    have hv := ptInRange_of_mem hb (show v ∈ intersections b (line p) by simp [huv])
    rw [decode_code hu hv]
    exact (hends i p u v hp huv).symm
  have hg := (groupLoop_ok maxDist
    (fun i => ((((ends i).1.1 : K), ((ends i).1.2 : K)), (((ends i).2.1 : K), ((ends i).2.2 : K))))
    (es.insertionSort pairLe) (by
      intro e he
      rw [hes e he]
      rfl)).1
  refine ⟨groupLoop (maxDist * maxDist) (es.insertionSort pairLe) none, ends, ?_, ?_, ?_, hends, ?_, hg.2⟩
  · unfold groupLines
    rw [h1]
  · rw [hg.1, (hperm.map _).nodup_iff]
    exact h2.imp (fun h => ne_of_lt h)
  · intro i
    rw [hg.1, (hperm.map _).mem_iff, List.mem_map]
    constructor
    · rintro ⟨⟨e, j⟩, he, rfl⟩
      obtain ⟨k, p, u, v, hk, hp, hm, huv, rfl⟩ := (h3 e j).1 he
      rw [Nat.zero_add] at hk
      subst hk
      exact ⟨hm, p, u, v, hp, huv⟩
    · rintro ⟨hm, p, u, v, hp, huv⟩
      exact ⟨(code u v, i), (h3 _ _).2 ⟨i, p, u, v, by omega, hp, hm, huv, rfl⟩, rfl⟩
  · rw [hg.1, List.pairwise_map]
    refine hsorted.imp_of_mem ?_
    intro x y hx hy hxy
    have e1 := hes x hx
    have e2 := hes y hy
    rw [hperm.mem_iff] at hx hy
    obtain ⟨ex, ix⟩ := x
    obtain ⟨ey, iy⟩ := y
    obtain ⟨_, p, u, v, _, _, _, huv, rfl⟩ := (h3 _ _).1 hx
    obtain ⟨_, p', u', v', _, _, _, huv', rfl⟩ := (h3 _ _).1 hy
    have hu := ptInRange_of_mem hb (show u ∈ intersections b (line p) by simp [huv])
    have hv := ptInRange_of_mem hb (show v ∈ intersections b (line p) by simp [huv])
    have hu' := ptInRange_of_mem hb (show u' ∈ intersections b (line p') by simp [huv'])
    have hv' := ptInRange_of_mem hb (show v' ∈ intersections b (line p') by simp [huv'])
    rw [decode_code hu hv] at e1
    rw [decode_code hu' hv'] at e2
    simp only at e1 e2
    rw [← e1, ← e2]
    obtain ⟨_, a1, a2, a3, a4⟩ := encode_ok hu hv
    obtain ⟨_, b1, b2, b3, b4⟩ := encode_ok hu' hv'
    have hle : code u v ≤ code u' v' := by
      rcases hxy with h | h
      · exact h.le
      · exact h.1.le
    unfold code at hle
    unfold QuadLt
    simp only
    omega

/-- Two nearly equal horizontal lines share a group, a third one does not. -/
example : groupLines (fun p : Pt ℚ => (0, 1, -p.2)) ⟨0, 0, 100, 100⟩ 2 [3] [(1, 10), (2, 50), (3, 11), (4, 12)] =
    .ok [⟨(0, 21 / 2), (100, 21 / 2), [0, 2]⟩, ⟨(0, 50), (100, 50), [1]⟩] := by decide +kernel

/-- C51: if some keypoint of the second image has no match, those without a match are at coordinates that
fit 16 bits, the search returns two nearest neighbours, and every group has two candidates (`hc`), guided
matching returns. It keeps all given matches, in order and in front. Every match it adds is of a feature of
the first image that had no match, each at most once, with a feature that is nearest to it among the
candidates of its group and passes the ratio test against the second one. A candidate is a feature of the
second image without a match, or one of those drawn at random. -/
theorem C51_added (env : Env K) (maxDist ratio : K) (dist : Nat → Nat → K) (hknn : IsKnn dist env.knn)
    (kps1 kps2 : List (Pt K)) (ms : List (Matcher.FMatch K)) (m1 m2 : List Nat)
    (hm1 : m1 = ms.map (fun m => m.feature1.toNat)) (hm2 : m2 = ms.map (fun m => m.feature2.toNat))
    (hun : ∃ (i : Nat) (p : Pt K), i ∉ m2 ∧ kps2[i]? = some p)
    (hr : ∀ (i : Nat) p, i ∉ m2 → kps2[i]? = some p → PtInRange p)
    (hc : ∀ b gs, boundingBox (unmatchedPts m2 kps2) = .ok b → groupLines env.line b maxDist m1 kps1 = .ok gs →
      ∀ (k : Nat) g, gs[k]? = some g → 2 ≤ (near env.steps maxDist m2 kps2 (env.draws k) g).length) :
    ∃ added, getMatches env maxDist ratio kps1 kps2 ms = .ok (ms ++ added) ∧
      (added.map (·.feature1)).Nodup ∧
      ∀ m ∈ added, ∃ (i : Nat) (p : Pt K) (j : Nat) (k : Nat) (cands : List Nat), m = ⟨i, j, dist i j⟩ ∧
        kps1[i]? = some p ∧ i ∉ m1 ∧ j ∈ cands ∧
        (∀ c ∈ cands, (c < kps2.length ∧ c ∉ m2) ∨ c ∈ env.draws k) ∧
        (∀ c ∈ cands, dist i j ≤ dist i c) ∧
        ∃ d ∈ cands, dist i j < dist i d * (ratio * ratio) ∧ ∀ c ∈ cands, c ≠ j → dist i d ≤ dist i c := by
  subst hm1
  subst hm2
  obtain ⟨i0, p0, hi0, hp0⟩ := hun
  obtain ⟨b, b1, b2, _⟩ := boundingBox_ok (unmatchedPts (ms.map (fun m => m.feature2.toNat)) kps2)
    (by
      intro h
      have := mem_unmatchedPts.2 ⟨i0, hi0, hp0⟩
      rw [h] at this
      simp at this)
    (by
      intro p hp
      obtain ⟨i, h1, h2⟩ := mem_unmatchedPts.1 hp
      exact hr i p h1 h2)
  obtain ⟨gs, _, g1, g2, g3, _⟩ := C33_groups env.line b maxDist (ms.map (fun m => m.feature1.toNat)) kps1 b2
  obtain ⟨added, a1, a2, a3⟩ := matchGroups_ok env maxDist ratio dist hknn (ms.map (fun m => m.feature2.toNat)) kps2 gs 0
    (fun j g hj => by rw [Nat.zero_add]; exact hc b gs b1 g1 j g hj)
  refine ⟨added, ?_, ?_, ?_⟩
  · unfold getMatches
    simp only
    rw [b1]
    simp only
    rw [g1]
    simp only
    rw [a1]
  · refine List.Nodup.sublist a2 ?_
    exact List.Nodup.map (fun a b h => by exact_mod_cast h) g2
  · intro m hm
    obtain ⟨j, g, hj, q, hq, c, hcm, rfl, h5, d, hd, h6, h7⟩ := a3 m hm
    have hqf : q ∈ gs.flatMap (·.features) :=
      List.mem_flatMap.2 ⟨g, List.mem_iff_getElem?.2 ⟨j, hj⟩, hq⟩
    obtain ⟨hqm, p, u, v, hp, _⟩ := (g3 q).1 hqf
    exact ⟨q, p, c, 0 + j, _, rfl, hp, hqm, hcm, (near_spec _ _ _ _ _ _).2, h5, d, hd, h6, h7⟩

omit [IsStrictOrderedRing K] in
/-- A group has two candidates if the first two numbers drawn for it differ. -/
theorem C51_two_draws (env : Env K) (maxDist : K) (m2 : List Nat) (kps2 : List (Pt K)) (k : Nat) (g : LineGroup K)
    (a b : Nat) (ds : List Nat) (hd : env.draws k = a :: b :: ds) (hab : a ≠ b) :
    2 ≤ (near env.steps maxDist m2 kps2 (env.draws k) g).length := by
  rw [hd]
  exact near_two _ _ _ _ _ _ _ _ hab

omit [IsStrictOrderedRing K] in
/-- If all keypoints of the second image have matches, or there are none, the bounding box is read from
iterators past the end. -/
theorem C51_all_matched_counterexample (env : Env K) (maxDist ratio : K) (kps1 kps2 : List (Pt K))
    (ms : List (Matcher.FMatch K)) (h : ∀ i < kps2.length, i ∈ ms.map (fun m => m.feature2.toNat)) :
    getMatches env maxDist ratio kps1 kps2 ms = .ub := by
  have : unmatchedPts (ms.map (fun m => m.feature2.toNat)) kps2 = [] := by
    rw [List.eq_nil_iff_forall_not_mem]
    intro p hp
    obtain ⟨i, h1, h2⟩ := mem_unmatchedPts.1 hp
    exact h1 (h i (List.getElem?_eq_some_iff.1 h2).1)
  unfold getMatches
  simp only
  rw [this]
  rfl

/-- A search for the two nearest by sorting, for the examples. -/
def sortKnn (dist : Nat → Nat → ℚ) (qs cs : List Nat) : List (List (ℚ × Nat)) :=
  qs.map (fun q => (((List.range cs.length).filterMap (fun i => cs[i]?.map (fun c => (dist q c, i)))).insertionSort
    (fun a b => a.1 ≤ b.1)).take 2)

/-- A run for the examples: horizontal epipolar lines, and a descriptor distance that favours the feature
with the same number. -/
def exampleEnv (draws : List Nat) : Env ℚ :=
  { line := fun p => (0, 1, -p.2)
    steps := fun p q => (⌊|p.1 - q.1| / 2⌋).toNat
    draws := fun _ => draws
    knn := sortKnn (fun i j => if i = j then 1 else 10) }

/-- Feature 1 has no match and its line passes near feature 1 of the second image, which becomes its match. -/
example : getMatches (exampleEnv [0, 2]) 2 (4 / 5) [(20, 10), (20, 31), (0, 10)] [(30, 10), (32, 31), (1, 1), (99, 99)]
    [⟨0, 0, 1⟩, ⟨2, 2, 1⟩] = .ok [⟨0, 0, 1⟩, ⟨2, 2, 1⟩, ⟨1, 1, 1⟩] := by decide +kernel

/-- The header says that only features without a match are used, but the features drawn at random may have
one: here feature 1 of the second image gets a second match. -/
theorem C51_reuse_counterexample :
    getMatches (exampleEnv [0, 1]) 2 (4 / 5) [(20, 10), (20, 31)] [(30, 10), (32, 31), (1, 1), (99, 99)]
      [⟨0, 1, 1⟩] = .ok [⟨0, 1, 1⟩, ⟨1, 1, 1⟩] := by decide +kernel

end Theia
