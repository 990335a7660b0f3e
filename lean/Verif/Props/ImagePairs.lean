import Verif.Proof.ImagePairs
import Mathlib.Order.Basic

/-!
# C34: selecting image pairs by global descriptors

The pairs selected are given exactly: two images are selected iff one is among the `k` nearest of the other, or
query expansion links them. Query expansion depends on the order of the images.
-/

namespace Theia

open ImagePairs

variable {K N : Type} [LinearOrder K] [LinearOrder N]

/-- For any scores, image names and nonnegative number of neighbours, the selection succeeds. The pairs it
gives are sorted without repetition, and two images are a pair, the one with the smaller position first, iff
one is among the nearest of the other or they are linked by query expansion. -/
theorem C34_pairs {ps : Nat → List (K × Nat) → List (K × Nat)} (hps : Spec.IsPartialSortAt ps)
    (score : Nat → Nat → K) (names : List N) (option : Nat) :
    ∃ out, select ps score names option = .ok out ∧
      out.Pairwise (fun x y => x.1 < y.1 ∨ (x.1 = y.1 ∧ x.2 < y.2)) ∧
      ∀ a b, (a, b) ∈ out ↔ ∃ p q, p < q ∧ names[p]? = some a ∧ names[q]? = some b ∧
        (Spec.KNearest score names.length option p q ∨ Spec.KNearest score names.length option q p ∨
          Spec.Expanded score names.length option p q) := by
  -- with more neighbours asked for than there are images, the number is cut down
  have hcut : ∀ i j, Spec.KNearest score names.length (min (names.length - 1) option) i j ↔
      Spec.KNearest score names.length option i j := by
    intro i j
    unfold Spec.KNearest
    constructor
    · rintro ⟨h1, h2, h3, h4⟩
      exact ⟨h1, h2, h3, by omega⟩
    · rintro ⟨h1, h2, h3, h4⟩
      refine ⟨h1, h2, h3, ?_⟩
      have : Spec.nearerCount score names.length i j ≤ ((List.range names.length).erase i |>.erase j).length := by
        unfold Spec.nearerCount
        refine (List.subperm_of_subset (List.nodup_range.filter _) ?_).length_le
        intro l hl
        rw [List.mem_filter, decide_eq_true_eq] at hl
        obtain ⟨hl1, hl2, hl3⟩ := hl
        have hlj : l ≠ j := by
          rintro rfl
          rcases hl3 with h | h
          · exact lt_irrefl _ h
          · omega
        rw [List.mem_erase_of_ne hlj, List.mem_erase_of_ne hl2]
        exact hl1
      rw [List.length_erase_of_mem
          ((List.mem_erase_of_ne (fun h => h3 h.symm)).2 (List.mem_range.2 h2)),
        List.length_erase_of_mem (List.mem_range.2 h1), List.length_range] at this
      omega
  have hcutE : ∀ p q, Spec.Expanded score names.length (min (names.length - 1) option) p q ↔
      Spec.Expanded score names.length option p q := by
    intro p q
    unfold Spec.Expanded
    simp only [hcut]
  have hloop : ∃ st, imageLoop ps score names.length (min ((names.length : Int) - 1) option)
      (List.range names.length) State.empty = .ok st ∧
      Inv score names.length (min (names.length - 1) option) names.length st := by
    rcases Nat.eq_zero_or_pos names.length with h0 | hpos
    · rw [h0]
      refine ⟨State.empty, rfl, ?_, ?_, ?_⟩
      · intro r _ h; omega
      · intro a b; simp [State.empty]
      · intro a b; simp [State.empty]
    · have hc : min ((names.length : Int) - 1) option = ((min (names.length - 1) option : Nat) : Int) := by omega
      rw [hc, List.range_eq_range']
      refine imageLoop_spec hps score (Nat.min_le_left _ _) names.length 0 State.empty (by omega) ?_
      refine ⟨?_, ?_, ?_⟩
      · intro r _ _; simp [State.empty]
      · intro a b; simp [State.empty]
      · intro a b; simp [State.empty]
  obtain ⟨st, e, _, h2, h3⟩ := hloop
  obtain ⟨l, el, hl⟩ := mapM_namePair names (collect names.length st) (by
    rintro ⟨p, q⟩ hp
    rw [mem_collect] at hp
    obtain ⟨hp1, _, h | h⟩ := hp
    · rcases (h2 p q).1 h with ⟨_, h⟩ | ⟨_, h⟩
      · exact ⟨hp1, h.2.1⟩
      · exact ⟨hp1, h.1⟩
    · exact ⟨hp1, ((h3 p q).1 h).1⟩)
  refine ⟨unique (l.insertionSort nameLe), ?_, ?_, ?_⟩
  · unfold select
    simp only [e, el]
  · refine (pairwise_unique nameLe_antisymm nameLe_trans _ (pairwise_sort l)).imp ?_
    rintro x y ⟨h | ⟨h, h'⟩, hne⟩
    · exact Or.inl h
    · refine Or.inr ⟨h, lt_of_le_of_ne h' ?_⟩
      intro hc
      exact hne (Prod.ext h hc)
  · intro a b
    rw [mem_unique, (List.perm_insertionSort nameLe l).mem_iff, hl]
    constructor
    · rintro ⟨⟨p, q⟩, hp, ha, hb⟩
      rw [mem_collect, h2, h3, hcutE] at hp
      simp only [hcut] at hp
      refine ⟨p, q, hp.2.1, ha, hb, ?_⟩
      tauto
    · rintro ⟨p, q, hpq, ha, hb, h⟩
      have hp := (List.getElem?_eq_some_iff.1 ha).1
      have hq := (List.getElem?_eq_some_iff.1 hb).1
      refine ⟨(p, q), ?_, ha, hb⟩
      rw [mem_collect, h2, h3, hcutE]
      simp only [hcut]
      tauto

/-- In particular an image is always selected with each of its nearest images, and with a nonnegative number
of neighbours no image is paired with itself. -/
theorem C34_nearest {ps : Nat → List (K × Nat) → List (K × Nat)} (hps : Spec.IsPartialSortAt ps)
    (score : Nat → Nat → K) (names : List N) (hnames : names.Nodup) (option : Nat) :
    ∃ out, select ps score names option = .ok out ∧
      (∀ i j a b, Spec.KNearest score names.length option i j → names[i]? = some a → names[j]? = some b →
        (a, b) ∈ out ∨ (b, a) ∈ out) ∧
      ∀ a b, (a, b) ∈ out → a ≠ b ∧ (b, a) ∉ out := by
  obtain ⟨out, e, _, h⟩ := C34_pairs hps score names option
  refine ⟨out, e, ?_, ?_⟩
  · intro i j a b hk ha hb
    rcases Nat.lt_or_gt_of_ne hk.2.2.1 with hlt | hlt
    · exact Or.inl ((h a b).2 ⟨i, j, hlt, ha, hb, Or.inl hk⟩)
    · exact Or.inr ((h b a).2 ⟨j, i, hlt, hb, ha, Or.inr (Or.inl hk)⟩)
  · intro a b hab
    obtain ⟨p, q, hpq, ha, hb, _⟩ := (h a b).1 hab
    have hinj : ∀ (i j : Nat) (x : N), names[i]? = some x → names[j]? = some x → i = j := by
      intro i j x hi hj
      exact (List.getElem?_inj (List.getElem?_eq_some_iff.1 hi).1 hnames).1 (hi.trans hj.symm)
    refine ⟨?_, ?_⟩
    · rintro rfl
      have := hinj p q a ha hb
      omega
    · intro hc
      obtain ⟨p', q', hpq', ha', hb', _⟩ := (h b a).1 hc
      have h1 := hinj p q' a ha hb'
      have h2 := hinj q p' b hb ha'
      omega

/-- A partial sort that sorts everything. -/
def fullSort (_ : Nat) (l : List (Nat × Nat)) : List (Nat × Nat) :=
  l.insertionSort (fun x y => x.1 < y.1 ∨ (x.1 = y.1 ∧ x.2 ≤ y.2))

theorem isPartialSortAt_fullSort : Spec.IsPartialSortAt fullSort := by
  intro k l _
  have ht : Std.Total (fun x y : Nat × Nat => x.1 < y.1 ∨ (x.1 = y.1 ∧ x.2 ≤ y.2)) := ⟨by intro a b; omega⟩
  have hr : IsTrans (Nat × Nat) (fun x y : Nat × Nat => x.1 < y.1 ∨ (x.1 = y.1 ∧ x.2 ≤ y.2)) :=
    ⟨by intro a b c h1 h2; omega⟩
  refine ⟨List.perm_insertionSort _ l, ?_⟩
  have h := List.pairwise_insertionSort (fun x y : Nat × Nat => x.1 < y.1 ∨ (x.1 = y.1 ∧ x.2 ≤ y.2)) l
  rw [← List.take_append_drop k (l.insertionSort _), List.pairwise_append] at h
  exact h.2.2

/-- Four images on a line, at 0, 10, 11 and 23: the scores are the squared distances. -/
def lineScore (pos : List Nat) (i j : Nat) : Nat :=
  match pos[i]?, pos[j]? with
  | some a, some b => (if a ≤ b then b - a else a - b) ^ 2
  | _, _ => 0

/-- Images 1 and 2 are nearest to each other, and so is 1 to 0 and 2 to 3; query expansion links 0 with 2 (by
1) and 1 with 3 (by 2). -/
example : select fullSort (lineScore [0, 10, 11, 23]) [(100 : Nat), 101, 102, 103] 1 =
    .ok [(100, 101), (100, 102), (101, 102), (101, 103), (102, 103)] := by decide +kernel

/-- Query expansion depends on the order of the images: images at 0, 10, 21 and 33 give the pair 10 and 33 (by
21, which is nearest to 33 and has 10 nearest to it), but not if they are listed in the opposite order. -/
theorem C34_order_counterexample :
    (∃ out, select fullSort (lineScore [0, 10, 21, 33]) [(0 : Nat), 10, 21, 33] 1 = .ok out ∧
      (10, 33) ∈ out) ∧
    (∃ out, select fullSort (lineScore [33, 21, 10, 0]) [(33 : Nat), 21, 10, 0] 1 = .ok out ∧
      (10, 33) ∉ out ∧ (33, 10) ∉ out) :=
  ⟨⟨[(0, 10), (0, 21), (10, 21), (10, 33), (21, 33)], by decide +kernel⟩,
    ⟨[(10, 0), (21, 0), (21, 10), (33, 21)], by decide +kernel⟩⟩

omit [LinearOrder K] in
/-- A negative number of neighbours is undefined behaviour as soon as there is an image. -/
theorem C34_negative_counterexample (ps : Nat → List (K × Nat) → List (K × Nat)) (score : Nat → Nat → K)
    (names : List N) (hne : names ≠ []) (option : Int) (h : option < 0) :
    select ps score names option = .ub := by
  unfold select
  obtain ⟨x, l, rfl⟩ := List.exists_cons_of_ne_nil hne
  have hr : List.range (x :: l).length = 0 :: (List.range l.length).map Nat.succ := by
    rw [List.length_cons, List.range_succ_eq_map]
  have : imageLoop ps score (x :: l).length (min (((x :: l).length : Int) - 1) option)
      (List.range (x :: l).length) State.empty = .ub := by
    rw [hr]
    unfold imageLoop imageStep
    simp only
    rw [if_pos (Or.inl (by omega))]
  simp only [this]

end Theia
