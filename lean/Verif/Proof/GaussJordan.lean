import Verif.Model.GaussJordan
import Verif.Spec.GaussJordan
import Mathlib.Tactic.Ring
import Mathlib.Tactic.FieldSimp
import Mathlib.Algebra.BigOperators.Field

/-!
# Lemmas on Gauss-Jordan elimination
-/

namespace Theia
namespace GaussJordan

open Spec Finset

variable {K : Type} [Field K] [LinearOrder K]

omit [LinearOrder K] in
theorem SameSolutions.refl (rows cols : Nat) (a : Nat → Nat → K) : SameSolutions rows cols a a := fun _ => Iff.rfl

omit [LinearOrder K] in
theorem SameSolutions.trans {rows cols : Nat} {a b c : Nat → Nat → K} (h1 : SameSolutions rows cols a b)
    (h2 : SameSolutions rows cols b c) : SameSolutions rows cols a c := fun x => (h1 x).trans (h2 x)

omit [LinearOrder K] in
theorem sameSolutions_swap {rows cols : Nat} (m : Nat → Nat → K) {a b : Nat} (ha : a < rows) (hb : b < rows) :
    SameSolutions rows cols m (swapRows m a b) := by
  intro x
  have e : ∀ i, rowDot cols (swapRows m a b) i x =
      if i = a then rowDot cols m b x else if i = b then rowDot cols m a x else rowDot cols m i x := by
    intro i
    unfold rowDot swapRows
    split
    · rfl
    · split <;> rfl
  constructor
  · intro h i hi
    rw [e]
    split
    · exact h b hb
    · split
      · exact h a ha
      · exact h i hi
  · intro h i hi
    by_cases h1 : i = a
    · have := h b hb
      rw [e] at this
      split at this
      · rename_i h2
        rw [h1, ← h2]
        exact this
      · rw [if_pos rfl] at this
        rw [h1]
        exact this
    · by_cases h2 : i = b
      · have := h a ha
        rw [e, if_pos rfl] at this
        rw [h2]
        exact this
      · have := h i hi
        rwa [e, if_neg h1, if_neg h2] at this

omit [LinearOrder K] in
theorem sameSolutions_divide {rows cols : Nat} (m : Nat → Nat → K) {r : Nat} (x0 : K) (hx0 : x0 ≠ 0)
    (hpivot : m r r = x0) : SameSolutions rows cols m (divideRow m r x0) := by
  intro x
  have e : ∀ i, rowDot cols (divideRow m r x0) i x =
      if i = r then rowDot cols m i x / x0 else rowDot cols m i x := by
    intro i
    unfold rowDot divideRow
    split
    · rename_i h
      subst h
      rw [Finset.sum_div]
      refine Finset.sum_congr rfl fun j _ => ?_
      split
      · rename_i h
        subst h
        rw [hpivot]
        field_simp
      · field_simp
    · rfl
  constructor
  · intro h i hi
    rw [e]
    split
    · rw [h i hi, zero_div]
    · exact h i hi
  · intro h i hi
    have := h i hi
    rw [e] at this
    split at this
    · rcases div_eq_zero_iff.1 this with h | h
      · exact h
      · exact absurd h hx0
    · exact this

omit [LinearOrder K] in
theorem sameSolutions_subtract {rows cols : Nat} (m : Nat → Nat → K) {t s : Nat} (hs : s < rows) (hts : t ≠ s)
    (c : K) : SameSolutions rows cols m (subtractRow m t s c) := by
  intro x
  have e : ∀ i, rowDot cols (subtractRow m t s c) i x =
      if i = t then rowDot cols m i x - c * rowDot cols m s x else rowDot cols m i x := by
    intro i
    unfold rowDot subtractRow
    split
    · rw [Finset.mul_sum, ← Finset.sum_sub_distrib]
      refine Finset.sum_congr rfl fun j _ => ?_
      ring
    · rfl
  constructor
  · intro h i hi
    rw [e]
    split
    · rw [h i hi, h s hs]; ring
    · exact h i hi
  · intro h i hi
    have h1 := h i hi
    have h2 := h s hs
    rw [e, if_neg (fun h => hts h.symm)] at h2
    rw [e] at h1
    split at h1
    · rw [h2] at h1
      simpa using h1
    · exact h1

/-- The pivot search returns an entry of the column, in one of the rows searched or the initial one. -/
theorem findMax_spec (m : Nat → Nat → K) (col : Nat) : ∀ (rs : List Nat) (best : K × Nat),
    best.1 = m best.2 col → (findMax m col rs best).1 = m (findMax m col rs best).2 col ∧
      ((findMax m col rs best).2 = best.2 ∨ (findMax m col rs best).2 ∈ rs) ∧
      |best.1| ≤ |(findMax m col rs best).1| ∧ ∀ r ∈ rs, |m r col| ≤ |(findMax m col rs best).1| := by
  intro rs
  induction rs with
  | nil => intro best h; exact ⟨h, Or.inl rfl, le_refl _, by simp⟩
  | cons r rs ih =>
    intro best h
    unfold findMax
    split
    · rename_i hlt
      obtain ⟨h1, h2, h3, h4⟩ := ih (m r col, r) rfl
      refine ⟨h1, Or.inr ?_, le_trans (le_of_lt hlt) h3, ?_⟩
      · rcases h2 with h2 | h2
        · rw [h2]; exact List.mem_cons_self ..
        · exact List.mem_cons_of_mem _ h2
      · intro x hx
        rcases List.mem_cons.1 hx with rfl | hx
        · exact h3
        · exact h4 x hx
    · rename_i hlt
      obtain ⟨h1, h2, h3, h4⟩ := ih best h
      refine ⟨h1, ?_, h3, ?_⟩
      · rcases h2 with h2 | h2
        · exact Or.inl h2
        · exact Or.inr (List.mem_cons_of_mem _ h2)
      · intro x hx
        rcases List.mem_cons.1 hx with rfl | hx
        · exact le_trans (not_lt.1 hlt) h3
        · exact h4 x hx

/-- What elimination of a column does: it keeps the solutions, and if nothing nonzero was skipped, every listed
row `r` is replaced by `row r - m r col * row col`. -/
theorem eliminate_spec (eps : K) (col rows cols : Nat) (hcol : col < rows) : ∀ (rs : List Nat) (st : State K),
    rs.Nodup → col ∉ rs →
    SameSolutions rows cols st.m (eliminate eps col rs st).m ∧
    (st.skipped = true → (eliminate eps col rs st).skipped = true) ∧
    ((eliminate eps col rs st).skipped = false → ∀ i j, (eliminate eps col rs st).m i j =
      if i ∈ rs then st.m i j - st.m i col * st.m col j else st.m i j) := by
  intro rs
  induction rs with
  | nil => intro st _ _; exact ⟨SameSolutions.refl _ _ _, id, by simp [eliminate]⟩
  | cons r rs ih =>
    intro st hnd hc
    rw [List.nodup_cons] at hnd
    simp only [List.mem_cons, not_or] at hc
    unfold eliminate
    split
    · obtain ⟨h1, h2, h3⟩ := ih ⟨st.m, st.skipped || decide (st.m r col ≠ 0)⟩ hnd.2 hc.2
      refine ⟨h1, fun h => h2 (by simp [h]), fun h i j => ?_⟩
      have hz : st.m r col = 0 := by
        by_contra hne
        have := h2 (by simp [hne])
        rw [this] at h
        cases h
      rw [h3 h i j]
      simp only [List.mem_cons]
      by_cases hir : i = r
      · subst hir
        simp [hnd.1, hz]
      · simp [hir]
    · obtain ⟨h1, h2, h3⟩ := ih ⟨subtractRow st.m r col (st.m r col), st.skipped⟩ hnd.2 hc.2
      refine ⟨SameSolutions.trans (sameSolutions_subtract st.m hcol (fun h => hc.1 h.symm) _) h1, h2, fun h i j => ?_⟩
      rw [h3 h i j]
      simp only [subtractRow, hc.1, if_false, List.mem_cons]
      by_cases hir : i = r
      · subst hir
        simp [hnd.1]
      · simp [hir]

/-- Columns before `k` are done: one on the diagonal, zero below, in the first `n` rows. -/
def LowerDone (n k : Nat) (m : Nat → Nat → K) : Prop :=
  ∀ c < k, m c c = 1 ∧ ∀ i, c < i → i < n → m i c = 0

theorem topStep_spec {eps : K} {n row rows cols : Nat} (hn : n ≤ rows) (hrow : row < n) {st st' : State K}
    (h : topStep eps n row st = .ok st') :
    SameSolutions rows cols st.m st'.m ∧ (st.skipped = true → st'.skipped = true) ∧
      (st'.skipped = false → LowerDone n row st.m → LowerDone n (row + 1) st'.m) := by
  unfold topStep at h
  simp only at h
  split at h
  · cases h
  · rename_i hne
    simp only [Outcome.ok.injEq] at h
    subst h
    obtain ⟨f1, f2, _, _⟩ := findMax_spec st.m row (List.range' row (n - 1 - row)) (st.m row row, row) rfl
    set best := findMax st.m row (List.range' row (n - 1 - row)) (st.m row row, row)
    have hb : row ≤ best.2 ∧ best.2 < n := by
      rcases f2 with h | h
      · rw [h]; exact ⟨Nat.le_refl _, hrow⟩
      · rw [List.mem_range'_1] at h
        omega
    obtain ⟨h1, h2, h3⟩ := eliminate_spec eps row rows cols (by omega)
      (List.range' (row + 1) (n - (row + 1))) ⟨divideRow (swapRows st.m row best.2) row best.1, st.skipped⟩
      List.nodup_range' (by rw [List.mem_range'_1]; omega)
    have hpiv : swapRows st.m row best.2 row row = best.1 := by
      unfold swapRows
      rw [if_pos rfl, f1]
    refine ⟨?_, h2, fun hs hdone => ?_⟩
    · exact SameSolutions.trans (sameSolutions_swap st.m (by omega) (by omega))
        (SameSolutions.trans (sameSolutions_divide _ _ hne hpiv) h1)
    · have e := h3 hs
      -- the matrix before elimination
      have hpre : LowerDone n row (divideRow (swapRows st.m row best.2) row best.1) := by
        intro c hc
        constructor
        · unfold divideRow swapRows
          rw [if_neg (by omega), if_neg (by omega), if_neg (by omega)]
          exact (hdone c hc).1
        · intro i hi hin
          unfold divideRow swapRows
          split
          · rename_i h
            subst h
            rw [if_neg (by omega), (hdone c hc).2 best.2 (by omega) hb.2, zero_div]
          · split
            · exact (hdone c hc).2 row (by omega) (by omega)
            · exact (hdone c hc).2 i hi hin
      have hone : divideRow (swapRows st.m row best.2) row best.1 row row = 1 := by
        simp [divideRow]
      intro c hc
      have hnot : row ∉ List.range' (row + 1) (n - (row + 1)) := by rw [List.mem_range'_1]; omega
      rcases Nat.lt_succ_iff_lt_or_eq.1 hc with hc | rfl
      · constructor
        · rw [e, if_neg (by rw [List.mem_range'_1]; omega)]
          exact (hpre c hc).1
        · intro i hi hin
          rw [e]
          split
          · simp only
            rw [(hpre c hc).2 i hi hin, (hpre c hc).2 row hc hrow]
            ring
          · exact (hpre c hc).2 i hi hin
      · constructor
        · rw [e, if_neg hnot]
          exact hone
        · intro i hi hin
          rw [e, if_pos (by rw [List.mem_range'_1]; omega)]
          simp only
          rw [hone]
          ring

theorem topLoop_spec {eps : K} {n rows cols : Nat} (hn : n ≤ rows) : ∀ (c row : Nat) {st st' : State K},
    row + c = n → topLoop eps n (List.range' row c) st = .ok st' →
    SameSolutions rows cols st.m st'.m ∧ (st.skipped = true → st'.skipped = true) ∧
      (st'.skipped = false → LowerDone n row st.m → LowerDone n n st'.m) := by
  intro c
  induction c with
  | zero =>
    intro row st st' hrow h
    simp only [List.range'_zero, topLoop, Outcome.ok.injEq] at h
    subst h
    refine ⟨SameSolutions.refl _ _ _, id, ?_⟩
    intro _ h
    have : row = n := by omega
    rw [this] at h
    exact h
  | succ c ih =>
    intro row st st' hrow h
    rw [List.range'_succ] at h
    unfold topLoop at h
    split at h
    · cases h
    · cases h
    · rename_i st1 h1
      obtain ⟨a1, a2, a3⟩ := topStep_spec (rows := rows) (cols := cols) hn (by omega) h1
      obtain ⟨b1, b2, b3⟩ := ih (row + 1) (by omega) h
      refine ⟨SameSolutions.trans a1 b1, fun h => b2 (a2 h), fun hs hd => b3 hs (a3 ?_ hd)⟩
      by_contra hc
      rw [Bool.not_eq_false] at hc
      rw [b2 hc] at hs
      cases hs

/-- Columns from `k` on (below `n`) are zero above the diagonal, from row `last` on. -/
def UpperDone (last k n : Nat) (m : Nat → Nat → K) : Prop :=
  ∀ c, k ≤ c → c < n → ∀ i, last ≤ i → i < c → m i c = 0

theorem bottomLoop_spec {eps : K} {last rows cols n : Nat} (hn : n ≤ rows) : ∀ (c : Nat) {st : State K},
    last + c ≤ n →
    SameSolutions rows cols st.m (bottomLoop eps last (List.range' last c).reverse st).m ∧
    (st.skipped = true → (bottomLoop eps last (List.range' last c).reverse st).skipped = true) ∧
    ((bottomLoop eps last (List.range' last c).reverse st).skipped = false → LowerDone n n st.m →
      UpperDone last (last + c) n st.m →
      LowerDone n n (bottomLoop eps last (List.range' last c).reverse st).m ∧
      UpperDone last last n (bottomLoop eps last (List.range' last c).reverse st).m) := by
  intro c
  induction c with
  | zero =>
    intro st _
    simp only [List.range'_zero, List.reverse_nil, bottomLoop, Nat.add_zero]
    exact ⟨SameSolutions.refl _ _ _, id, fun _ h1 h2 => ⟨h1, h2⟩⟩
  | succ c ih =>
    intro st hc
    have hrev : (List.range' last (c + 1)).reverse = (last + c) :: (List.range' last c).reverse := by
      rw [List.range'_concat, List.reverse_append]
      simp
    rw [hrev]
    simp only [bottomLoop]
    obtain ⟨e1, e2, e3⟩ := eliminate_spec eps (last + c) rows cols (by omega)
      (List.range' last (last + c - last)).reverse st (List.nodup_reverse.2 List.nodup_range')
      (by rw [List.mem_reverse, List.mem_range'_1]; omega)
    obtain ⟨i1, i2, i3⟩ := ih (st := eliminate eps (last + c) (List.range' last (last + c - last)).reverse st)
      (by omega)
    refine ⟨SameSolutions.trans e1 i1, fun h => i2 (e2 h), fun hs hl hu => ?_⟩
    have hs1 : (eliminate eps (last + c) (List.range' last (last + c - last)).reverse st).skipped = false := by
      by_contra h
      rw [Bool.not_eq_false] at h
      rw [i2 h] at hs
      cases hs
    have e := e3 hs1
    have hmem : ∀ i, i ∈ (List.range' last (last + c - last)).reverse ↔ last ≤ i ∧ i < last + c := by
      intro i
      rw [List.mem_reverse, List.mem_range'_1]
      omega
    refine i3 hs ?_ ?_
    · intro k hk
      constructor
      · rw [e]
        split
        · rename_i hmi
          rw [hmem] at hmi
          rw [(hl k hk).1, (hl k hk).2 (last + c) (by omega) (by omega)]
          ring
        · exact (hl k hk).1
      · intro i hi hin
        rw [e]
        split
        · rename_i hmi
          rw [hmem] at hmi
          rw [(hl k hk).2 i hi hin, (hl k hk).2 (last + c) (by omega) (by omega)]
          ring
        · exact (hl k hk).2 i hi hin
    · intro k hk hkn i hi hik
      rw [e]
      rcases Nat.lt_or_ge (last + c) k with hlt | hge
      · split
        · rw [hu k (by omega) hkn i hi hik, hu k (by omega) hkn (last + c) (by omega) hlt]
          ring
        · exact hu k (by omega) hkn i hi hik
      · have : k = last + c := by omega
        subst this
        rw [if_pos ((hmem i).2 ⟨hi, hik⟩), (hl (last + c) hkn).1]
        ring

end GaussJordan
end Theia
