import Verif.Spec.ImagePairs
import Mathlib.Data.List.Nodup
import Mathlib.Data.List.Perm.Subperm
import Mathlib.Tactic.Tauto

/-!
# Lemmas on the selection of image pairs
-/

namespace Theia
namespace ImagePairs

variable {K N : Type} [LinearOrder K]

omit [LinearOrder K] in
theorem scoreLoop_spec (score : Nat → Nat → K) (i : Nat) : ∀ (js : List Nat) (f : Nat → List (K × Nat)),
    i ∉ js → js.Nodup →
    (scoreLoop score i js f) i = f i ++ js.map (fun j => (score i j, j)) ∧
    (∀ r, r ≠ i → (scoreLoop score i js f) r = f r ++ if r ∈ js then [(score i r, i)] else []) := by
  intro js
  induction js with
  | nil => intro f _ _; simp [scoreLoop]
  | cons j js ih =>
    intro f hi hnd
    simp only [List.mem_cons, not_or] at hi
    rw [List.nodup_cons] at hnd
    obtain ⟨h1, h2⟩ := ih (push (push f i (score i j, j)) j (score i j, i)) hi.2 hnd.2
    simp only [scoreLoop]
    refine ⟨?_, fun r hr => ?_⟩
    · rw [h1]
      simp [push, Function.update, hi.1]
    · rw [h2 r hr]
      by_cases hrj : r = j
      · subst hrj
        simp [push, Function.update, hr, hnd.1]
      · simp [push, Function.update, hr, hrj]

omit [LinearOrder K] in
theorem mem_insertAt (f : Nat → List Nat) (i x a b : Nat) :
    b ∈ insertAt f i x a ↔ b ∈ f a ∨ (a = i ∧ b = x) := by
  unfold insertAt
  by_cases h : a = i
  · subst h
    simp only [Function.update_self]
    split
    · rename_i hx
      constructor
      · exact Or.inl
      · rintro (h | ⟨_, rfl⟩)
        · exact h
        · exact hx
    · simp
  · simp [Function.update, h]

theorem mem_foldl_insertAt (i : Nat) : ∀ (l : List Nat) (e : Nat → List Nat) (a b : Nat),
    b ∈ (l.foldl (fun e nb => insertAt e nb i) e) a ↔ b ∈ e a ∨ (a ∈ l ∧ b = i) := by
  intro l
  induction l with
  | nil => intro e a b; simp
  | cons x l ih =>
    intro e a b
    simp only [List.foldl_cons]
    rw [ih, mem_insertAt]
    simp only [List.mem_cons]
    tauto

omit [LinearOrder K] in
/-- The loop over the nearest neighbours. -/
theorem linkFold_spec (i : Nat) : ∀ (l : List (K × Nat)) (st : State K),
    (l.map Prod.snd).Nodup → i ∉ l.map Prod.snd →
    (l.foldl (fun st x => link i x.2 st) st).scores = st.scores ∧
    (∀ a b, b ∈ (l.foldl (fun st x => link i x.2 st) st).ranked a ↔
      b ∈ st.ranked a ∨ (a = i ∧ b ∈ l.map Prod.snd) ∨ (b = i ∧ a ∈ l.map Prod.snd)) ∧
    (∀ a b, b ∈ (l.foldl (fun st x => link i x.2 st) st).expanded a ↔
      b ∈ st.expanded a ∨ (b = i ∧ ∃ s ∈ l.map Prod.snd, a ∈ st.ranked s)) := by
  intro l
  induction l with
  | nil => intro st _ _; simp
  | cons x l ih =>
    intro st hnd hi
    simp only [List.map_cons, List.nodup_cons] at hnd
    simp only [List.map_cons, List.mem_cons, not_or] at hi
    simp only [List.foldl_cons]
    obtain ⟨h1, h2, h3⟩ := ih (link i x.2 st) hnd.2 hi.2
    have hr : ∀ a b, b ∈ (link i x.2 st).ranked a ↔ b ∈ st.ranked a ∨ (a = i ∧ b = x.2) ∨ (b = i ∧ a = x.2) := by
      intro a b
      simp only [link]
      rw [mem_insertAt, mem_insertAt]
      tauto
    have he : ∀ a b, b ∈ (link i x.2 st).expanded a ↔ b ∈ st.expanded a ∨ (a ∈ st.ranked x.2 ∧ b = i) := by
      intro a b
      simp only [link]
      rw [mem_foldl_insertAt]
    refine ⟨by rw [h1]; rfl, fun a b => ?_, fun a b => ?_⟩
    · rw [h2, hr]
      simp only [List.map_cons, List.mem_cons]
      tauto
    · rw [h3, he]
      simp only [List.map_cons, List.mem_cons]
      constructor
      · rintro ((h | ⟨h, hb⟩) | ⟨hb, s, hs, ha⟩)
        · exact Or.inl h
        · exact Or.inr ⟨hb, x.2, Or.inl rfl, h⟩
        · rw [hr] at ha
          rcases ha with ha | ⟨hsi, _⟩ | ⟨_, hsx⟩
          · exact Or.inr ⟨hb, s, Or.inr hs, ha⟩
          · exact absurd (hsi ▸ hs) hi.2
          · exact absurd (hsx ▸ hs) hnd.1
      · rintro (h | ⟨hb, s, rfl | hs, ha⟩)
        · exact Or.inl (Or.inl h)
        · exact Or.inl (Or.inr ⟨ha, hb⟩)
        · exact Or.inr ⟨hb, s, hs, (hr _ _).2 (Or.inl ha)⟩

/-- All scores of an image, in the order they are collected. -/
def fullRow (score : Nat → Nat → K) (n i : Nat) : List (K × Nat) :=
  (List.range i).map (fun j => (score j i, j)) ++
    (List.range' (i + 1) (n - (i + 1))).map (fun j => (score i j, j))

omit [LinearOrder K] in
theorem fullRow_map_snd (score : Nat → Nat → K) (n i : Nat) :
    (fullRow score n i).map Prod.snd = List.range i ++ List.range' (i + 1) (n - (i + 1)) := by
  simp [fullRow, Function.comp_def]

omit [LinearOrder K] in
theorem nodup_fullRow_snd (score : Nat → Nat → K) (n i : Nat) : ((fullRow score n i).map Prod.snd).Nodup := by
  rw [fullRow_map_snd, List.nodup_append]
  refine ⟨List.nodup_range, List.nodup_range', ?_⟩
  intro a ha b hb
  rw [List.mem_range] at ha
  rw [List.mem_range'_1] at hb
  omega

omit [LinearOrder K] in
theorem mem_fullRow (score : Nat → Nat → K) {n i : Nat} (hi : i < n) (x : K × Nat) :
    x ∈ fullRow score n i ↔ x.2 < n ∧ x.2 ≠ i ∧ x.1 = Spec.scoreOf score i x.2 := by
  obtain ⟨c, j⟩ := x
  simp only [fullRow, List.mem_append, List.mem_map, List.mem_range, List.mem_range'_1, Prod.mk.injEq]
  constructor
  · rintro (⟨a, ha, h1, rfl⟩ | ⟨a, ha, h1, rfl⟩)
    · refine ⟨by omega, by omega, ?_⟩
      rw [← h1, Spec.scoreOf, if_neg (by omega)]
    · refine ⟨by omega, by omega, ?_⟩
      rw [← h1, Spec.scoreOf, if_pos (by omega)]
  · rintro ⟨h1, h2, h3⟩
    rcases Nat.lt_or_gt_of_ne h2 with h | h
    · left
      exact ⟨j, h, by rw [h3, Spec.scoreOf, if_neg (by omega)], rfl⟩
    · right
      exact ⟨j, by omega, by rw [h3, Spec.scoreOf, if_pos (by omega)], rfl⟩

omit [LinearOrder K] in
theorem length_fullRow (score : Nat → Nat → K) {n i : Nat} (hi : i < n) : (fullRow score n i).length = n - 1 := by
  simp [fullRow]
  omega

/-- The positions chosen for an image. -/
def chosen (ps : Nat → List (K × Nat) → List (K × Nat)) (score : Nat → Nat → K) (n k i : Nat) : List Nat :=
  ((ps k (fullRow score n i)).take k).map Prod.snd

theorem nodup_chosen {ps : Nat → List (K × Nat) → List (K × Nat)} (hps : Spec.IsPartialSortAt ps)
    (score : Nat → Nat → K) {n k i : Nat} (hi : i < n) (hk : k ≤ n - 1) : (chosen ps score n k i).Nodup := by
  obtain ⟨hp, _⟩ := hps k (fullRow score n i) (by rw [length_fullRow score hi]; exact hk)
  unfold chosen
  rw [List.map_take]
  refine List.Nodup.sublist (List.take_sublist _ _) ?_
  exact ((hp.map Prod.snd).nodup_iff).2 (nodup_fullRow_snd score n i)

theorem lt_total (x y : K × Nat) (h : x ≠ y) :
    (x.1 < y.1 ∨ (x.1 = y.1 ∧ x.2 < y.2)) ∨ (y.1 < x.1 ∨ (y.1 = x.1 ∧ y.2 < x.2)) := by
  rcases lt_trichotomy x.1 y.1 with h1 | h1 | h1
  · exact Or.inl (Or.inl h1)
  · rcases Nat.lt_trichotomy x.2 y.2 with h2 | h2 | h2
    · exact Or.inl (Or.inr ⟨h1, h2⟩)
    · exact absurd (Prod.ext h1 h2) h
    · exact Or.inr (Or.inr ⟨h1.symm, h2⟩)
  · exact Or.inr (Or.inl h1)

/-- The positions chosen are those of the `k` nearest images. -/
theorem mem_chosen {ps : Nat → List (K × Nat) → List (K × Nat)} (hps : Spec.IsPartialSortAt ps)
    (score : Nat → Nat → K) {n k i : Nat} (hi : i < n) (hk : k ≤ n - 1) (j : Nat) :
    j ∈ chosen ps score n k i ↔ Spec.KNearest score n k i j := by
  have hlen := length_fullRow score hi
  obtain ⟨hp, hle⟩ := hps k (fullRow score n i) (by rw [hlen]; exact hk)
  have hnd := nodup_chosen hps score hi hk
  have hmem : ∀ x, x ∈ ps k (fullRow score n i) ↔ x.2 < n ∧ x.2 ≠ i ∧ x.1 = Spec.scoreOf score i x.2 := by
    intro x
    rw [hp.mem_iff, mem_fullRow score hi]
  have hlen' : (chosen ps score n k i).length = k := by
    unfold chosen
    rw [List.length_map, List.length_take, hp.length_eq, hlen]
    omega
  have hcm : ∀ a, a ∈ chosen ps score n k i ↔ (Spec.scoreOf score i a, a) ∈ (ps k (fullRow score n i)).take k := by
    intro a
    unfold chosen
    rw [List.mem_map]
    constructor
    · rintro ⟨x, hx, rfl⟩
      have := ((hmem x).1 (List.mem_of_mem_take hx)).2.2
      rw [← this]
      exact hx
    · intro h
      exact ⟨_, h, rfl⟩
  have hin : ∀ a, a ∈ chosen ps score n k i → a < n ∧ a ≠ i := by
    intro a ha
    have := (hmem _).1 (List.mem_of_mem_take ((hcm a).1 ha))
    exact ⟨this.1, this.2.1⟩
  have hdrop : ∀ a, a < n → a ≠ i → a ∉ chosen ps score n k i →
      (Spec.scoreOf score i a, a) ∈ (ps k (fullRow score n i)).drop k := by
    intro a h1 h2 h3
    have : (Spec.scoreOf score i a, a) ∈ ps k (fullRow score n i) := (hmem _).2 ⟨h1, h2, rfl⟩
    rw [← List.take_append_drop k (ps k (fullRow score n i)), List.mem_append] at this
    rcases this with h | h
    · exact absurd ((hcm a).2 h) h3
    · exact h
  constructor
  · intro hj
    obtain ⟨hjn, hji⟩ := hin j hj
    refine ⟨hi, hjn, fun h => hji h.symm, ?_⟩
    have hsub : ((List.range n).filter (fun l => decide (l ≠ i ∧
        (Spec.scoreOf score i l < Spec.scoreOf score i j ∨
          (Spec.scoreOf score i l = Spec.scoreOf score i j ∧ l < j))))) ⊆ (chosen ps score n k i).erase j := by
      intro l hl
      rw [List.mem_filter, decide_eq_true_eq, List.mem_range] at hl
      obtain ⟨hln, hli, hlt⟩ := hl
      have hlj : l ≠ j := by
        rintro rfl
        rcases hlt with h | h
        · exact lt_irrefl _ h
        · omega
      rw [List.mem_erase_of_ne hlj]
      by_contra hc
      have := hle _ ((hcm j).1 hj) _ (hdrop l hln hli hc)
      simp only at this
      rcases this with h | ⟨h, h'⟩
      · rcases hlt with h2 | ⟨h2, _⟩
        · exact lt_asymm h h2
        · exact (ne_of_lt h) h2.symm
      · rcases hlt with h2 | ⟨_, h2⟩
        · exact (ne_of_lt h2) h.symm
        · omega
    have := (List.subperm_of_subset (List.nodup_range.filter _) hsub).length_le
    rw [List.length_erase_of_mem hj, hlen'] at this
    have hk0 : 0 < k := by
      rw [← hlen']
      exact List.length_pos_of_mem hj
    unfold Spec.nearerCount
    omega
  · rintro ⟨_, hjn, hij, hcount⟩
    by_contra hc
    have hd := hdrop j hjn (fun h => hij h.symm) hc
    have hsub : chosen ps score n k i ⊆ ((List.range n).filter (fun l => decide (l ≠ i ∧
        (Spec.scoreOf score i l < Spec.scoreOf score i j ∨
          (Spec.scoreOf score i l = Spec.scoreOf score i j ∧ l < j))))) := by
      intro l hl
      obtain ⟨hln, hli⟩ := hin l hl
      rw [List.mem_filter, decide_eq_true_eq, List.mem_range]
      refine ⟨hln, hli, ?_⟩
      have hlj : l ≠ j := fun h => hc (h ▸ hl)
      rcases hle _ ((hcm l).1 hl) _ hd with h | ⟨h, h'⟩
      · exact Or.inl h
      · refine Or.inr ⟨h, ?_⟩
        simp only at h'
        omega
    have := (List.subperm_of_subset hnd hsub).length_le
    rw [hlen'] at this
    unfold Spec.nearerCount at hcount
    omega

/-- What holds after the first `m` images. -/
def Inv (score : Nat → Nat → K) (n k m : Nat) (st : State K) : Prop :=
  (∀ r, m ≤ r → r < n → st.scores r = (List.range m).map (fun j => (score j r, j))) ∧
  (∀ a b, b ∈ st.ranked a ↔
    (a < m ∧ Spec.KNearest score n k a b) ∨ (b < m ∧ Spec.KNearest score n k b a)) ∧
  (∀ a q, q ∈ st.expanded a ↔ q < m ∧ Spec.Expanded score n k a q)

theorem imageStep_spec {ps : Nat → List (K × Nat) → List (K × Nat)} (hps : Spec.IsPartialSortAt ps)
    (score : Nat → Nat → K) {n k m : Nat} (hm : m < n) (hk : k ≤ n - 1) {st : State K} (h : Inv score n k m st) :
    ∃ st', imageStep ps score n (k : Int) m st = .ok st' ∧ Inv score n k (m + 1) st' := by
  obtain ⟨h1, h2, h3⟩ := h
  obtain ⟨hs1, hs2⟩ := scoreLoop_spec score m (List.range' (m + 1) (n - (m + 1))) st.scores
    (by rw [List.mem_range'_1]; omega) List.nodup_range'
  have hrow : (scoreLoop score m (List.range' (m + 1) (n - (m + 1))) st.scores) m = fullRow score n m := by
    rw [hs1, h1 m (Nat.le_refl m) hm]
    rfl
  have hlen := length_fullRow score hm
  have hnd := nodup_chosen hps score hm hk
  have hch := mem_chosen hps score hm hk
  unfold imageStep
  simp only [hrow, Int.toNat_natCast]
  rw [if_neg (by rw [hlen]; omega)]
  obtain ⟨f1, f2, f3⟩ := linkFold_spec m ((ps k (fullRow score n m)).take k)
    { st with scores := scoreLoop score m (List.range' (m + 1) (n - (m + 1))) st.scores } hnd
    (by
      intro hc
      exact ((hch m).1 hc).2.2.1 rfl)
  refine ⟨_, rfl, ?_, ?_, ?_⟩
  · intro r hr hrn
    have hrm : r ≠ m := by omega
    simp only
    rw [Function.update_of_ne hrm, f1]
    simp only
    rw [hs2 r hrm, h1 r (by omega) hrn, List.range_succ, List.map_append,
      if_pos (by rw [List.mem_range'_1]; omega)]
    rfl
  · intro a b
    show b ∈ State.ranked _ a ↔ _
    rw [f2]
    show (b ∈ st.ranked a ∨ (a = m ∧ b ∈ chosen ps score n k m) ∨ (b = m ∧ a ∈ chosen ps score n k m)) ↔ _
    rw [h2, hch, hch]
    constructor
    · rintro ((⟨h, h'⟩ | ⟨h, h'⟩) | ⟨rfl, h'⟩ | ⟨rfl, h'⟩)
      · exact Or.inl ⟨by omega, h'⟩
      · exact Or.inr ⟨by omega, h'⟩
      · exact Or.inl ⟨by omega, h'⟩
      · exact Or.inr ⟨by omega, h'⟩
    · rintro (⟨h, h'⟩ | ⟨h, h'⟩)
      · rcases Nat.lt_succ_iff_lt_or_eq.1 h with h | rfl
        · exact Or.inl (Or.inl ⟨h, h'⟩)
        · exact Or.inr (Or.inl ⟨rfl, h'⟩)
      · rcases Nat.lt_succ_iff_lt_or_eq.1 h with h | rfl
        · exact Or.inl (Or.inr ⟨h, h'⟩)
        · exact Or.inr (Or.inr ⟨rfl, h'⟩)
  · intro a q
    show q ∈ State.expanded _ a ↔ _
    rw [f3]
    show (q ∈ st.expanded a ∨ (q = m ∧ ∃ s ∈ chosen ps score n k m, a ∈ st.ranked s)) ↔ _
    rw [h3]
    constructor
    · rintro (⟨h, h'⟩ | ⟨rfl, s, hs, ha⟩)
      · exact ⟨by omega, h'⟩
      · refine ⟨by omega, s, (hch s).1 hs, ?_⟩
        rcases (h2 s a).1 ha with h | h
        · exact Or.inr h
        · exact Or.inl h
    · rintro ⟨h, h'⟩
      rcases Nat.lt_succ_iff_lt_or_eq.1 h with h | rfl
      · exact Or.inl ⟨h, h'⟩
      · obtain ⟨s, hs, hr⟩ := h'
        refine Or.inr ⟨rfl, s, (hch s).2 hs, (h2 s a).2 ?_⟩
        exact hr.symm

theorem imageLoop_spec {ps : Nat → List (K × Nat) → List (K × Nat)} (hps : Spec.IsPartialSortAt ps)
    (score : Nat → Nat → K) {n k : Nat} (hk : k ≤ n - 1) : ∀ (c m : Nat) (st : State K), m + c = n →
    Inv score n k m st →
    ∃ st', imageLoop ps score n (k : Int) (List.range' m c) st = .ok st' ∧ Inv score n k n st' := by
  intro c
  induction c with
  | zero =>
    intro m st hm h
    simp only [Nat.add_zero] at hm
    subst hm
    exact ⟨st, rfl, h⟩
  | succ c ih =>
    intro m st hm h
    obtain ⟨st1, e1, i1⟩ := imageStep_spec hps score (by omega) hk h
    obtain ⟨st2, e2, i2⟩ := ih (m + 1) st1 (by omega) i1
    refine ⟨st2, ?_, i2⟩
    rw [List.range'_succ]
    unfold imageLoop
    rw [e1]
    exact e2

omit [LinearOrder K] in
theorem mem_collect (n : Nat) (st : State K) (p q : Nat) :
    (p, q) ∈ collect n st ↔ p < n ∧ p < q ∧ (q ∈ st.ranked p ∨ q ∈ st.expanded p) := by
  simp only [collect, List.mem_flatMap, List.mem_range, List.mem_map, List.mem_append, List.mem_filter,
    decide_eq_true_eq, Prod.mk.injEq]
  constructor
  · rintro ⟨a, ha, b, h, rfl, rfl⟩
    exact ⟨ha, by tauto, by tauto⟩
  · rintro ⟨h1, h2, h3⟩
    exact ⟨p, h1, q, by tauto, rfl, rfl⟩

theorem mem_unique [DecidableEq N] : ∀ (l : List N) (x : N), x ∈ unique l ↔ x ∈ l
  | [], x => by simp [unique]
  | [a], x => by simp [unique]
  | a :: b :: l, x => by
    have ih := mem_unique (b :: l) x
    unfold unique
    split
    · rename_i h
      subst h
      rw [ih]
      simp
    · rw [List.mem_cons, ih, List.mem_cons (a := x) (b := a)]

theorem pairwise_unique [DecidableEq N] {le : N → N → Prop} (anti : ∀ a b, le a b → le b a → a = b)
    (trans : ∀ a b c, le a b → le b c → le a c) :
    ∀ (l : List N), l.Pairwise le → (unique l).Pairwise (fun a b => le a b ∧ a ≠ b)
  | [], _ => by simp [unique]
  | [a], _ => by simp [unique]
  | a :: b :: l, h => by
    rw [List.pairwise_cons] at h
    have ih := pairwise_unique anti trans (b :: l) h.2
    unfold unique
    split
    · exact ih
    · rename_i hab
      rw [List.pairwise_cons]
      refine ⟨?_, ih⟩
      intro x hx
      rw [mem_unique] at hx
      refine ⟨h.1 x hx, ?_⟩
      rintro rfl
      rcases List.mem_cons.1 hx with rfl | hx'
      · exact hab rfl
      · have hb := h.1 b (List.mem_cons_self ..)
        have := (List.pairwise_cons.1 h.2).1 _ hx'
        exact hab (anti _ _ hb this)

theorem mapM_namePair (names : List N) : ∀ (l : List (Nat × Nat)),
    (∀ p ∈ l, p.1 < names.length ∧ p.2 < names.length) →
    ∃ l', l.mapM (namePair names) = some l' ∧
      ∀ a b, (a, b) ∈ l' ↔ ∃ p ∈ l, names[p.1]? = some a ∧ names[p.2]? = some b := by
  intro l
  induction l with
  | nil => intro _; exact ⟨[], rfl, by simp⟩
  | cons p l ih =>
    intro h
    obtain ⟨l', e, hm⟩ := ih (fun q hq => h q (List.mem_cons_of_mem _ hq))
    obtain ⟨hp1, hp2⟩ := h p (List.mem_cons_self ..)
    have hn : namePair names p = some (names[p.1], names[p.2]) := by
      unfold namePair
      rw [List.getElem?_eq_getElem hp1, List.getElem?_eq_getElem hp2]
    refine ⟨(names[p.1], names[p.2]) :: l', by simp [List.mapM_cons, hn, e], ?_⟩
    intro a b
    rw [List.mem_cons, hm]
    constructor
    · rintro (h | ⟨q, hq, h⟩)
      · rw [Prod.mk.injEq] at h
        refine ⟨p, List.mem_cons_self .., ?_, ?_⟩
        · rw [List.getElem?_eq_getElem hp1, h.1]
        · rw [List.getElem?_eq_getElem hp2, h.2]
      · exact ⟨q, List.mem_cons_of_mem _ hq, h⟩
    · rintro ⟨q, hq, h1, h2⟩
      rcases List.mem_cons.1 hq with rfl | hq
      · left
        rw [List.getElem?_eq_getElem hp1, Option.some.injEq] at h1
        rw [List.getElem?_eq_getElem hp2, Option.some.injEq] at h2
        rw [h1, h2]
      · exact Or.inr ⟨q, hq, h1, h2⟩

theorem nameLe_antisymm [LinearOrder N] (a b : N × N) (h1 : nameLe a b) (h2 : nameLe b a) : a = b := by
  rcases h1 with h1 | ⟨h1, h1'⟩
  · rcases h2 with h2 | ⟨h2, _⟩
    · exact absurd h2 (lt_asymm h1)
    · exact absurd h2.symm (ne_of_lt h1)
  · rcases h2 with h2 | ⟨_, h2'⟩
    · exact absurd h1.symm (ne_of_lt h2)
    · exact Prod.ext h1 (le_antisymm h1' h2')

theorem nameLe_trans [LinearOrder N] (a b c : N × N) (h1 : nameLe a b) (h2 : nameLe b c) : nameLe a c := by
  rcases h1 with h1 | ⟨h1, h1'⟩
  · rcases h2 with h2 | ⟨h2, _⟩
    · exact Or.inl (lt_trans h1 h2)
    · exact Or.inl (h2 ▸ h1)
  · rcases h2 with h2 | ⟨h2, h2'⟩
    · exact Or.inl (h1 ▸ h2)
    · exact Or.inr ⟨h1.trans h2, le_trans h1' h2'⟩

theorem nameLe_total [LinearOrder N] (a b : N × N) : nameLe a b ∨ nameLe b a := by
  rcases lt_trichotomy a.1 b.1 with h | h | h
  · exact Or.inl (Or.inl h)
  · rcases le_total a.2 b.2 with h' | h'
    · exact Or.inl (Or.inr ⟨h, h'⟩)
    · exact Or.inr (Or.inr ⟨h.symm, h'⟩)
  · exact Or.inr (Or.inl h)

theorem pairwise_sort [LinearOrder N] (l : List (N × N)) : (l.insertionSort nameLe).Pairwise nameLe := by
  have : Std.Total (nameLe (N := N)) := ⟨nameLe_total⟩
  have : IsTrans (N × N) (nameLe (N := N)) := ⟨nameLe_trans⟩
  exact List.pairwise_insertionSort nameLe l

end ImagePairs
end Theia
