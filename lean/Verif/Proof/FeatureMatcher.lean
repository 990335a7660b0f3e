import Mathlib.Data.List.Perm.Basic
import Mathlib.Tactic.Linarith
import Mathlib.Tactic.Ring
import Verif.Spec.FeatureMatcher
import Verif.Proof.EstimateTrack
import Verif.Proof.MatchDB

namespace Theia

open Spec

namespace Matcher

variable {F I M K D : Type}

/-! ### Pairs -/

theorem mem_selectAllPairs {l : List ImageName} {a b : ImageName} :
    (a, b) ∈ selectAllPairs l ↔ ∃ i j : Nat, i < j ∧ l[i]? = some a ∧ l[j]? = some b := by
  induction l with
  | nil => simp [selectAllPairs]
  | cons x xs ih =>
    rw [selectAllPairs, List.mem_append, ih, List.mem_map]
    constructor
    · rintro (⟨y, hy, h⟩ | ⟨i, j, hij, hi, hj⟩)
      · cases h
        obtain ⟨j, hj⟩ := List.mem_iff_getElem?.1 hy
        exact ⟨0, j + 1, by omega, rfl, by simpa using hj⟩
      · exact ⟨i + 1, j + 1, by omega, by simpa using hi, by simpa using hj⟩
    · rintro ⟨i, j, hij, hi, hj⟩
      obtain ⟨j', rfl⟩ : ∃ j', j = j' + 1 := ⟨j - 1, by omega⟩
      cases i with
      | zero =>
        left
        have hx : x = a := by simpa using hi
        subst hx
        exact ⟨b, List.mem_iff_getElem?.2 ⟨j', by simpa using hj⟩, rfl⟩
      | succ i' =>
        right
        exact ⟨i', j', by omega, by simpa using hi, by simpa using hj⟩

theorem nodup_selectAllPairs {l : List ImageName} (h : l.Nodup) : (selectAllPairs l).Nodup := by
  induction l with
  | nil => simp [selectAllPairs]
  | cons x xs ih =>
    rw [List.nodup_cons] at h
    rw [selectAllPairs, List.nodup_append']
    refine ⟨h.2.map (fun a b hab => (Prod.mk.inj hab).2), ih h.2, ?_⟩
    rintro ⟨a, b⟩ h1 h2
    obtain ⟨y, hy, heq⟩ := List.mem_map.1 h1
    cases heq
    obtain ⟨i, j, _, hi, _⟩ := mem_selectAllPairs.1 h2
    exact h.1 (List.mem_iff_getElem?.2 ⟨i, hi⟩)

theorem length_selectAllPairs (l : List ImageName) :
    2 * (selectAllPairs l).length = l.length * (l.length - 1) := by
  induction l with
  | nil => rfl
  | cons x xs ih =>
    rw [selectAllPairs, List.length_append, List.length_map, Nat.mul_add, ih, List.length_cons]
    cases h : xs.length with
    | zero => rfl
    | succ n => simp only [Nat.add_sub_cancel]; ring

/-! ### The loop over pairs -/

theorem matchOne_ok (pm : PairMatcher F I M) (nm : F → ImageName) (d : MatchDB.Mem F I M) (a b : ImageName)
    (ha : a ∈ d.features.keys) (hb : b ∈ d.features.keys) :
    ∃ d', matchOne pm nm d (a, b) = .ok d' ∧ d'.features = d.features ∧ d'.priors = d.priors ∧
      ∀ x y, d'.matches_.get (x, y) = if (x, y) = (a, b) then
        (pairResult pm nm d x y).or (d.matches_.get (x, y)) else d.matches_.get (x, y) := by
  obtain ⟨f1, h1⟩ := AMap.mem_keys_iff.1 ha
  obtain ⟨f2, h2⟩ := AMap.mem_keys_iff.1 hb
  unfold matchOne
  simp only [MatchDB.Mem.getFeatures, h1, h2, MatchDB.findOrDie]
  have hp : pairResult pm nm d a b = pm f1 f2 (d.priors.get (nm f1)) (d.priors.get (nm f2)) := by
    simp only [pairResult, h1, h2]
  cases hm : pm f1 f2 (d.priors.get (nm f1)) (d.priors.get (nm f2)) with
  | none =>
    refine ⟨d, rfl, rfl, rfl, ?_⟩
    intro x y
    split
    · next h => cases h; rw [hp, hm]; rfl
    · rfl
  | some m =>
    refine ⟨_, rfl, rfl, rfl, ?_⟩
    intro x y
    simp only [MatchDB.Mem.putMatch, AMap.get_insert]
    split
    · next h => cases h; rw [hp, hm]; rfl
    · rfl

theorem matchLoop_ok (pm : PairMatcher F I M) (nm : F → ImageName) (prs : List (ImageName × ImageName)) :
    ∀ d : MatchDB.Mem F I M, (∀ pr ∈ prs, pr.1 ∈ d.features.keys ∧ pr.2 ∈ d.features.keys) →
    ∃ d', matchLoop pm nm prs d = .ok d' ∧ d'.features = d.features ∧ d'.priors = d.priors ∧
      ∀ x y, d'.matches_.get (x, y) = if (x, y) ∈ prs then
        (pairResult pm nm d x y).or (d.matches_.get (x, y)) else d.matches_.get (x, y) := by
  induction prs with
  | nil => intro d _; exact ⟨d, rfl, rfl, rfl, by simp⟩
  | cons pr prs ih =>
    intro d h
    obtain ⟨a, b⟩ := pr
    obtain ⟨ha, hb⟩ := h _ List.mem_cons_self
    obtain ⟨d1, h1, h2, h3, h4⟩ := matchOne_ok pm nm d a b ha hb
    obtain ⟨d2, g1, g2, g3, g4⟩ := ih d1 (fun p hp => by rw [h2]; exact h p (List.mem_cons_of_mem _ hp))
    refine ⟨d2, by rw [matchLoop, h1]; exact g1, g2.trans h2, g3.trans h3, ?_⟩
    have hpr : ∀ x y, pairResult pm nm d1 x y = pairResult pm nm d x y := by
      intro x y; unfold pairResult; rw [h2, h3]
    intro x y
    rw [g4, hpr, h4]
    by_cases hxy : (x, y) = (a, b)
    · rw [if_pos hxy, if_pos (List.mem_cons.2 (Or.inl hxy))]
      split
      · cases pairResult pm nm d x y <;> simp
      · rfl
    · rw [if_neg hxy]
      simp only [List.mem_cons, hxy, false_or]

/-! ### Intersecting -/

theorem indexMap_ok (bs : List (FMatch K)) : ∀ m : AMap Int Int, (bs.map (·.feature1)).Nodup →
    (∀ b ∈ bs, b.feature1 ∉ m.keys) →
    ∃ m', indexMap bs m = .ok m' ∧
      ∀ k v, m'.get k = some v ↔ m.get k = some v ∨ ∃ b ∈ bs, b.feature1 = k ∧ b.feature2 = v := by
  induction bs with
  | nil => intro m _ _; exact ⟨m, rfl, by simp⟩
  | cons b bs ih =>
    intro m hnd hk
    rw [List.map_cons, List.nodup_cons] at hnd
    have hb := hk b List.mem_cons_self
    rw [indexMap, if_neg (by rw [AMap.contains_iff]; exact hb)]
    obtain ⟨m', h1, h2⟩ := ih (m.insert b.feature1 b.feature2) hnd.2 (by
      intro c hc hmem
      rcases AMap.mem_keys_insert.1 hmem with h | h
      · exact hnd.1 (h ▸ List.mem_map_of_mem hc)
      · exact hk c (List.mem_cons_of_mem _ hc) h)
    refine ⟨m', h1, ?_⟩
    intro k v
    rw [h2, AMap.get_insert]
    simp only [List.mem_cons, exists_eq_or_imp]
    by_cases hkb : k = b.feature1
    · subst hkb
      have hnone : m.get b.feature1 = none := AMap.get_eq_none_iff.2 hb
      rw [if_pos rfl, hnone]
      simp
    · rw [if_neg hkb]
      have : ¬ b.feature1 = k := fun h => hkb h.symm
      simp [this]

theorem indexMap_dup (bs : List (FMatch K)) : ∀ m : AMap Int Int,
    (¬ (bs.map (·.feature1)).Nodup ∨ ∃ b ∈ bs, b.feature1 ∈ m.keys) → indexMap bs m = .abort := by
  induction bs with
  | nil => intro m h; simp at h
  | cons b bs ih =>
    intro m h
    rw [indexMap]
    split
    · rfl
    · next hc =>
      rw [AMap.contains_iff] at hc
      apply ih
      rw [List.map_cons, List.nodup_cons] at h
      rcases h with h | ⟨c, hc', hck⟩
      · by_cases hnd : (bs.map (·.feature1)).Nodup
        · right
          have hb : b.feature1 ∈ bs.map (·.feature1) := by
            by_contra hb
            exact h ⟨hb, hnd⟩
          obtain ⟨c, hc', he⟩ := List.mem_map.1 hb
          exact ⟨c, hc', AMap.mem_keys_insert.2 (Or.inl he)⟩
        · exact Or.inl hnd
      · rcases List.mem_cons.1 hc' with rfl | hc'
        · exact absurd hck hc
        · exact Or.inr ⟨c, hc', AMap.mem_keys_insert.2 (Or.inr hck)⟩

theorem eraseLoop_eq (m : AMap Int Int) (fs : List (FMatch K)) :
    eraseLoop m fs = fs.filter (fun f => decide (f.feature1 = findWithDefault m f.feature2)) := by
  induction fs with
  | nil => rfl
  | cons f fs ih =>
    rw [eraseLoop, List.filter_cons, ih]
    by_cases h : f.feature1 = findWithDefault m f.feature2 <;> simp [h]

/-! ### Brute force -/

variable [Field K] [LinearOrder K]

omit [Field K] [LinearOrder K] in
theorem mem_row {dist : D → D → K} {x : D} {i : Nat} (ys : List D) : ∀ (j0 : Nat) (m : FMatch K),
    m ∈ row dist x i j0 ys ↔ ∃ (j : Nat) (y : D), ys[j]? = some y ∧ m = ⟨i, (j0 + j : Nat), dist x y⟩ := by
  induction ys with
  | nil => intro j0 m; simp [row]
  | cons y ys ih =>
    intro j0 m
    rw [row, List.mem_cons, ih]
    constructor
    · rintro (rfl | ⟨j, z, hz, rfl⟩)
      · exact ⟨0, y, rfl, rfl⟩
      · exact ⟨j + 1, z, by simpa using hz, by rw [show j0 + 1 + j = j0 + (j + 1) by omega]⟩
    · rintro ⟨j, z, hz, rfl⟩
      cases j with
      | zero =>
        left
        have : y = z := by simpa using hz
        rw [this]; rfl
      | succ j => exact Or.inr ⟨j, z, by simpa using hz, by rw [show j0 + 1 + j = j0 + (j + 1) by omega]⟩

omit [Field K] [LinearOrder K] in
theorem length_row {dist : D → D → K} {x : D} {i : Nat} (ys : List D) : ∀ j0 : Nat,
    (row dist x i j0 ys).length = ys.length := by
  induction ys with
  | nil => intro j0; rfl
  | cons y ys ih => intro j0; rw [row, List.length_cons, ih, List.length_cons]

omit [Field K] [LinearOrder K] in
theorem nodup_row {dist : D → D → K} {x : D} {i : Nat} (ys : List D) : ∀ j0 : Nat,
    ((row dist x i j0 ys).map (·.feature2)).Nodup := by
  induction ys with
  | nil => intro j0; simp [row]
  | cons y ys ih =>
    intro j0
    rw [row, List.map_cons, List.nodup_cons]
    refine ⟨?_, ih _⟩
    intro h
    obtain ⟨m, hm, he⟩ := List.mem_map.1 h
    obtain ⟨j, z, _, rfl⟩ := (mem_row ys _ m).1 hm
    simp only [Nat.cast_inj] at he
    omega

/-- What the selection for one descriptor gives. -/
theorem selectNearest_ok [IsStrictOrderedRing K] {ps : List (FMatch K) → List (FMatch K)} (hps : IsPartialSort ps) (o : Options K)
    (dist : D → D → K) (x : D) (i : Nat) (ys : List D) (hlen : 2 ≤ ys.length) :
    ∃ r, selectNearest ps o (row dist x i 0 ys) = .ok r ∧
      (∀ m ∈ r, m.feature1 = i ∧ ∃ j : Nat, m.feature2 = j ∧ (∃ y, ys[j]? = some y ∧ m.distance = dist x y) ∧
        Nearest dist x ys j ∧ (o.useLowesRatio = true → BeatsAll o dist x ys j)) ∧
      (o.useLowesRatio = false → r ≠ none) ∧
      (∀ j, BeatsAll o dist x ys j → (∀ y y', 0 ≤ dist y y') → o.lowesRatio * o.lowesRatio ≤ 1 →
        ∃ m, r = some m ∧ m.feature2 = j) := by
  obtain ⟨a, b, rest, h1, h2, h3, h4⟩ := hps (row dist x i 0 ys) (by rw [length_row]; exact hlen)
  unfold selectNearest
  rw [if_neg (by rw [length_row]; omega), h1]
  simp only
  have hmem : ∀ m, m ∈ a :: b :: rest ↔ ∃ (j : Nat) (y : D), ys[j]? = some y ∧ m = ⟨i, (j : Nat), dist x y⟩ := by
    intro m
    rw [h2.mem_iff, mem_row]
    simp
  obtain ⟨ja, ya, hja, rfl⟩ := (hmem a).1 (by simp)
  obtain ⟨jb, yb, hjb, rfl⟩ := (hmem b).1 (by simp)
  have hnd : (((⟨i, ja, dist x ya⟩ : FMatch K) :: ⟨i, jb, dist x yb⟩ :: rest).map (·.feature2)).Nodup :=
    (h2.map _).nodup_iff.2 (nodup_row ys 0)
  have hab : ja ≠ jb := by
    intro h
    simp only [List.map_cons, List.nodup_cons, List.mem_cons, not_or] at hnd
    exact hnd.1.1 (by rw [h])
  have hsecond : ∀ (j : Nat) y, ys[j]? = some y → j ≠ ja → dist x yb ≤ dist x y := by
    intro j y hy hne
    have := (hmem ⟨i, j, dist x y⟩).2 ⟨j, y, hy, rfl⟩
    simp only [List.mem_cons, FMatch.mk.injEq, true_and] at this
    rcases this with h | h | h
    · exact absurd (by exact_mod_cast h.1) hne
    · exact h.2.ge
    · exact h4 _ h
  have hfirst : ∀ y ∈ ys, dist x ya ≤ dist x y := by
    intro y hy
    obtain ⟨j, hj⟩ := List.mem_iff_getElem?.1 hy
    by_cases hne : j = ja
    · subst hne
      rw [hja] at hj
      cases hj
      exact le_refl _
    · exact le_trans h3 (hsecond j y hj hne)
  have hsq : 0 ≤ o.lowesRatio * o.lowesRatio := mul_self_nonneg _
  have hbeats : dist x ya < o.lowesRatio * o.lowesRatio * dist x yb ↔ BeatsAll o dist x ys ja := by
    constructor
    · intro h
      refine ⟨ya, hja, ?_⟩
      intro j' y' hy' hne
      exact lt_of_lt_of_le h (mul_le_mul_of_nonneg_left (hsecond j' y' hy' hne) hsq)
    · rintro ⟨y, hy, h⟩
      rw [hja] at hy
      cases hy
      exact h jb yb hjb (Ne.symm hab)
  have huniq : ∀ j, BeatsAll o dist x ys j → (∀ y y', 0 ≤ dist y y') → o.lowesRatio * o.lowesRatio ≤ 1 → j = ja := by
    rintro j ⟨y, hy, h⟩ hpos hr
    by_contra hne
    have := h ja ya hja (fun h => hne h.symm)
    have h5 := hfirst y (List.mem_iff_getElem?.2 ⟨j, hy⟩)
    have h6 : o.lowesRatio * o.lowesRatio * dist x ya ≤ 1 * dist x ya :=
      mul_le_mul_of_nonneg_right hr (hpos _ _)
    linarith
  cases hu : o.useLowesRatio with
  | false =>
    refine ⟨some ⟨i, ja, dist x ya⟩, by simp, ?_, by simp, ?_⟩
    · intro m hm
      cases hm
      exact ⟨rfl, ja, rfl, ⟨ya, hja, rfl⟩, ⟨ya, hja, hfirst⟩, by simp⟩
    · intro j hj hpos hr
      exact ⟨_, rfl, by rw [huniq j hj hpos hr]⟩
  | true =>
    by_cases hb : dist x ya < o.lowesRatio * o.lowesRatio * dist x yb
    · refine ⟨some ⟨i, ja, dist x ya⟩, by simp [hb], ?_, by simp, ?_⟩
      · intro m hm
        cases hm
        exact ⟨rfl, ja, rfl, ⟨ya, hja, rfl⟩, ⟨ya, hja, hfirst⟩, fun _ => hbeats.1 hb⟩
      · intro j hj hpos hr
        exact ⟨_, rfl, by rw [huniq j hj hpos hr]⟩
    · refine ⟨none, by simp [hb], by simp, by simp, ?_⟩
      intro j hj hpos hr
      have := huniq j hj hpos hr
      subst this
      exact absurd (hbeats.2 hj) hb

/-- What one direction gives. -/
theorem directed_ok [IsStrictOrderedRing K] {ps : List (FMatch K) → List (FMatch K)} (hps : IsPartialSort ps) (o : Options K)
    (dist : D → D → K) (ys : List D) (xs : List D) : ∀ i0 : Nat, (xs ≠ [] → 2 ≤ ys.length) →
    ∃ ms, directed ps o dist ys i0 xs = .ok ms ∧
      (ms.map (·.feature1)).Pairwise (· < ·) ∧
      (∀ m ∈ ms, ∃ (i : Nat) (x : D) (j : Nat) (y : D), xs[i]? = some x ∧ ys[j]? = some y ∧
        m = ⟨(i0 + i : Nat), j, dist x y⟩ ∧
        Nearest dist x ys j ∧ (o.useLowesRatio = true → BeatsAll o dist x ys j)) ∧
      (o.useLowesRatio = false → ms.map (·.feature1) = (List.range xs.length).map fun i => ((i0 + i : Nat) : Int)) ∧
      (∀ (i : Nat) (x : D) (j : Nat), xs[i]? = some x → BeatsAll o dist x ys j → (∀ y y', 0 ≤ dist y y') →
        o.lowesRatio * o.lowesRatio ≤ 1 → ∃ m ∈ ms, m.feature1 = (i0 + i : Nat) ∧ m.feature2 = j) := by
  induction xs with
  | nil => intro i0 _; exact ⟨[], rfl, by simp, by simp, by simp, by simp⟩
  | cons x xs ih =>
    intro i0 hlen
    have hl := hlen (by simp)
    obtain ⟨r, h1, h2, h3, h4⟩ := selectNearest_ok hps o dist x i0 ys hl
    obtain ⟨ms, g1, g2, g3, g4, g5⟩ := ih (i0 + 1) (fun _ => hl)
    refine ⟨r.toList ++ ms, by rw [directed, h1]; simp only; rw [g1], ?_, ?_, ?_, ?_⟩
    · rw [List.map_append, List.pairwise_append]
      refine ⟨by cases r <;> simp, g2, ?_⟩
      intro p hp q hq
      obtain ⟨m, hm, rfl⟩ := List.mem_map.1 hp
      obtain ⟨m', hm', rfl⟩ := List.mem_map.1 hq
      obtain ⟨i, _, _, _, _, _, rfl, _⟩ := g3 m' hm'
      rw [(h2 m (by simpa using hm)).1]
      push_cast
      omega
    · intro m hm
      rcases List.mem_append.1 hm with hm | hm
      · obtain ⟨hf1, j, hj, ⟨y, hy, hd⟩, hn, hb⟩ := h2 m (by simpa using hm)
        refine ⟨0, x, j, y, rfl, hy, ?_, hn, hb⟩
        cases m
        simp_all
      · obtain ⟨i, z, j, y, hz, hy, rfl, hn, hb⟩ := g3 m hm
        exact ⟨i + 1, z, j, y, by simpa using hz, hy, by rw [show i0 + 1 + i = i0 + (i + 1) by omega], hn, hb⟩
    · intro hu
      obtain ⟨m, rfl⟩ := Option.ne_none_iff_exists'.1 (h3 hu)
      rw [Option.toList_some, List.singleton_append, List.map_cons, g4 hu, (h2 m rfl).1, List.length_cons,
        List.range_succ_eq_map, List.map_cons, List.map_map]
      congr 1
      apply List.map_congr_left
      intro i _
      simp only [Function.comp, Nat.succ_eq_add_one]
      push_cast
      omega
    · intro i z j hz hb hpos hr
      cases i with
      | zero =>
        have : x = z := by simpa using hz
        subst this
        obtain ⟨m, rfl, hm⟩ := h4 j hb hpos hr
        exact ⟨m, by simp, by rw [(h2 m rfl).1]; rfl, hm⟩
      | succ i =>
        obtain ⟨m, hm, e1, e2⟩ := g5 i z j (by simpa using hz) hb hpos hr
        exact ⟨m, List.mem_append_right _ hm, by rw [e1]; push_cast; omega, e2⟩

end Matcher
end Theia
