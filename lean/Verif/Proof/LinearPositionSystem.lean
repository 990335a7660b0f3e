import Verif.Model.LinearPosition
import Verif.Proof.Eigensolver
import Verif.Proof.LinearRotation
import Verif.Spec.LinearPosition

/-!
# The linear system for the positions
-/

namespace Theia
namespace LinearPosition

open Spec LinearRotation

/-! ## The quadratic form of the entries -/

/-- The vector, continued by zero to negative indices. -/
noncomputable def ext (u : Nat → ℝ) (i : Int) : ℝ := if i < 0 then 0 else u i.toNat

/-- What an entry adds to the form. -/
noncomputable def intForm (u : Nat → ℝ) (e : Int × Int × ℝ) : ℝ :=
  if e.1 < e.2.1 then e.2.2 * (2 * (ext u e.1 * ext u e.2.1))
  else if e.1 = e.2.1 then e.2.2 * (ext u e.1 * ext u e.1) else 0

theorem symmetric_cons_lower (e : Nat × Nat × ℝ) (he : ¬ e.1 ≤ e.2.1) (es : List (Nat × Nat × ℝ)) (r c : Nat) :
    symmetric (stored (e :: es)) r c = symmetric (stored es) r c := by
  unfold symmetric
  rw [stored_cons, stored_cons]
  split_ifs <;> first | omega | simp

theorem symmetric_filter (r c : Nat) : ∀ es : List (Nat × Nat × ℝ),
    symmetric (stored es) r c = symmetric (stored (es.filter (fun e => decide (e.1 ≤ e.2.1)))) r c
  | [] => rfl
  | e :: es => by
    by_cases he : e.1 ≤ e.2.1
    · rw [List.filter_cons_of_pos (by simpa using he), symmetric_cons e he, symmetric_cons e he, symmetric_filter r c es]
    · rw [List.filter_cons_of_neg (by simpa using he), symmetric_cons_lower e he, symmetric_filter r c es]

theorem kept_lt {n : Nat} : ∀ es : List (Int × Int × ℝ), (∀ e ∈ es, e.1 < n ∧ e.2.1 < n) → ∀ e ∈ kept es, e.1 < n ∧ e.2.1 < n
  | [], _, e, he => by simp [kept] at he
  | x :: xs, h, e, he => by
    have ih := kept_lt xs (fun y hy => h y (List.mem_cons_of_mem _ hy))
    unfold kept at he
    split_ifs at he with hx
    · exact ih e he
    · rcases List.mem_cons.1 he with rfl | he
      · have := h x List.mem_cons_self
        dsimp only
        omega
      · exact ih e he

theorem kept_sum (u : Nat → ℝ) : ∀ es : List (Int × Int × ℝ),
    (((kept es).filter (fun e => decide (e.1 ≤ e.2.1))).map (entryForm u u)).sum = (es.map (intForm u)).sum
  | [] => rfl
  | e :: es => by
    have ih := kept_sum u es
    rw [List.map_cons, List.sum_cons, ← ih, kept.eq_2]
    by_cases hn : e.1 < 0 ∨ e.2.1 < 0
    · rw [if_pos hn]
      have : intForm u e = 0 := by
        unfold intForm ext
        rcases hn with h | h
        · simp [h]
        · split_ifs <;> first | omega | simp
      rw [this, zero_add]
    · rw [if_neg hn]
      push Not at hn
      obtain ⟨h1, h2⟩ := hn
      by_cases hle : e.1 ≤ e.2.1
      · rw [List.filter_cons_of_pos (by simpa using Int.toNat_le_toNat hle), List.map_cons, List.sum_cons]
        congr 1
        unfold entryForm intForm ext
        rw [if_neg (not_lt.2 h1), if_neg (not_lt.2 h2)]
        by_cases heq : e.1 = e.2.1
        · rw [if_pos (by rw [heq]), if_neg (by omega), if_pos heq]
        · rw [if_neg (by dsimp only; omega), if_pos (by omega)]
          ring
      · rw [List.filter_cons_of_neg (by simp only [decide_eq_true_eq]; omega)]
        have : intForm u e = 0 := by
          unfold intForm
          rw [if_neg (by omega), if_neg (by omega)]
        rw [this, zero_add]

/-- The form of the matrix is the sum over the entries. -/
theorem form_kept {n : Nat} (u : Nat → ℝ) (es : List (Int × Int × ℝ)) (h : ∀ e ∈ es, e.1 < n ∧ e.2.1 < n) :
    form n (symmetric (stored (kept es))) u u = (es.map (intForm u)).sum := by
  have hs : symmetric (stored (kept es)) = symmetric (stored ((kept es).filter (fun e => decide (e.1 ≤ e.2.1)))) := by
    funext r c
    exact symmetric_filter r c _
  rw [hs, form_stored, kept_sum]
  intro e he
  have := List.mem_filter.1 he
  exact ⟨by simpa using this.2, (kept_lt es h e this.1).2⟩

/-- The three entries of a view. -/
noncomputable def at3 (u : Nat → ℝ) (i : Int) : V3 ℝ := ⟨ext u i, ext u (i + 1), ext u (i + 2)⟩

theorem at3_eq (u : Nat → ℝ) (i : Int) : at3 u (3 * i) = positionOf u i := by
  unfold at3 positionOf ext
  by_cases h : i < 0
  · rw [if_pos h, if_pos (by omega), if_pos (by omega), if_pos (by omega)]
    rfl
  · rw [if_neg h, if_neg (by omega), if_neg (by omega), if_neg (by omega)]
    congr 2 <;> omega

theorem block_same (u : Nat → ℝ) (m : M3 ℝ) (i : Int) :
    ((blockOf (m, i) (m, i)).map (intForm u)).sum = (m.mulVec (at3 u i)).dot (m.mulVec (at3 u i)) := by
  have a1 : ¬ (i : Int) < i := lt_irrefl _
  have a2 : i < i + 1 := by omega
  have a3 : i < i + 2 := by omega
  have a4 : ¬ i + 1 < i := by omega
  have a5 : ¬ i + 1 = i := by omega
  have a6 : ¬ i + 1 < i + 1 := lt_irrefl _
  have a7 : i + 1 < i + 2 := by omega
  have a8 : ¬ i + 2 < i := by omega
  have a9 : ¬ i + 2 = i := by omega
  have b1 : ¬ i + 2 < i + 1 := by omega
  have b2 : ¬ i + 2 = i + 1 := by omega
  have b3 : ¬ i + 2 < i + 2 := lt_irrefl _
  unfold blockOf
  rw [if_neg (by simp)]
  simp only [fillInt, List.map_cons, List.map_nil, List.sum_cons, List.sum_nil, intForm, a1, a2, a3, a4, a5, a6, a7, a8, a9,
    b1, b2, b3, if_true, if_false, at3, M3.mul, M3.transpose, M3.mulVec, V3.dot]
  ring

theorem block_less (u : Nat → ℝ) (a b : M3 ℝ) {i j : Int} (h : i < j) :
    ((blockOf (a, 3 * i) (b, 3 * j)).map (intForm u)).sum =
      2 * (a.mulVec (at3 u (3 * i))).dot (b.mulVec (at3 u (3 * j))) := by
  have hlt : ∀ x y : Int, 0 ≤ x → x ≤ 2 → 0 ≤ y → y ≤ 2 → 3 * i + x < 3 * j + y := by intro x y; omega
  have a00 : 3 * i < 3 * j := by omega
  have a01 : 3 * i < 3 * j + 1 := by omega
  have a02 : 3 * i < 3 * j + 2 := by omega
  have a10 : 3 * i + 1 < 3 * j := by omega
  have a11 : 3 * i + 1 < 3 * j + 1 := by omega
  have a12 : 3 * i + 1 < 3 * j + 2 := by omega
  have a20 : 3 * i + 2 < 3 * j := by omega
  have a21 : 3 * i + 2 < 3 * j + 1 := by omega
  have a22 : 3 * i + 2 < 3 * j + 2 := by omega
  unfold blockOf
  rw [if_neg (by dsimp only; omega)]
  simp only [fillInt, List.map_cons, List.map_nil, List.sum_cons, List.sum_nil, intForm, a00, a01, a02, a10, a11, a12,
    a20, a21, a22, if_true, at3, M3.mul, M3.transpose, M3.mulVec, V3.dot]
  ring

theorem block_greater (a b : M3 ℝ) {i j : Int} (h : j < i) : blockOf (a, 3 * i) (b, 3 * j) = [] := by
  unfold blockOf
  rw [if_pos (by dsimp only; omega)]

theorem block_pair (u : Nat → ℝ) (a b : M3 ℝ) {i j : Int} (h : i ≠ j) :
    ((blockOf (a, 3 * i) (b, 3 * j)).map (intForm u)).sum + ((blockOf (b, 3 * j) (a, 3 * i)).map (intForm u)).sum =
      2 * (a.mulVec (at3 u (3 * i))).dot (b.mulVec (at3 u (3 * j))) := by
  rcases lt_or_gt_of_ne h with h | h
  · rw [block_less u a b h, block_greater b a h]
    simp
  · rw [block_less u b a h, block_greater a b h, V3.dot_comm]
    simp

/-- The value of a constraint. -/
noncomputable def rowValue (row : M3 ℝ × M3 ℝ × M3 ℝ) (y0 y1 y2 : V3 ℝ) : V3 ℝ :=
  ((row.1.mulVec y0).add (row.2.1.mulVec y1)).add (row.2.2.mulVec y2)

theorem row_form (u : Nat → ℝ) (row : M3 ℝ × M3 ℝ × M3 ℝ) {i0 i1 i2 : Int} (h01 : i0 ≠ i1) (h02 : i0 ≠ i2) (h12 : i1 ≠ i2) :
    ((symmetricEntries row (3 * i0) (3 * i1) (3 * i2)).map (intForm u)).sum =
      (rowValue row (positionOf u i0) (positionOf u i1) (positionOf u i2)).dot
        (rowValue row (positionOf u i0) (positionOf u i1) (positionOf u i2)) := by
  have e01 := block_pair u row.1 row.2.1 h01
  have e02 := block_pair u row.1 row.2.2 h02
  have e12 := block_pair u row.2.1 row.2.2 h12
  unfold symmetricEntries
  simp only [List.map_append, List.sum_append, block_same]
  have hx : ∀ x y z : V3 ℝ, ((x.add y).add z).dot ((x.add y).add z) =
      x.dot x + y.dot y + z.dot z + 2 * x.dot y + 2 * x.dot z + 2 * y.dot z := by
    intro x y z
    simp only [V3.dot, V3.add]
    ring
  rw [← at3_eq, ← at3_eq, ← at3_eq, rowValue, hx]
  linarith

theorem blockOf_lt {n : Nat} (a b : M3 ℝ) {i j : Int} (hi : 3 * i + 2 < n) (hj : 3 * j + 2 < n) :
    ∀ e ∈ blockOf (a, 3 * i) (b, 3 * j), e.1 < n ∧ e.2.1 < n := by
  intro e he
  unfold blockOf at he
  split_ifs at he
  · simp at he
  · simp only [fillInt, List.mem_cons, List.not_mem_nil, or_false] at he
    rcases he with rfl | rfl | rfl | rfl | rfl | rfl | rfl | rfl | rfl <;> dsimp only <;> omega

theorem symmetricEntries_lt {n : Nat} (row : M3 ℝ × M3 ℝ × M3 ℝ) {i0 i1 i2 : Int} (h0 : 3 * i0 + 2 < n)
    (h1 : 3 * i1 + 2 < n) (h2 : 3 * i2 + 2 < n) :
    ∀ e ∈ symmetricEntries row (3 * i0) (3 * i1) (3 * i2), e.1 < n ∧ e.2.1 < n := by
  intro e he
  simp only [symmetricEntries, List.mem_append] at he
  rcases he with ((((he | he) | he) | ((he | he) | he)) | ((he | he) | he)) <;>
    exact blockOf_lt _ _ (by assumption) (by assumption) e he

/-! ## Indices and counts -/

theorem size_emplaceInt (m : AMap Nat Int) (k : Nat) (i : Int) :
    (m.emplace k i).size = if k ∈ m.keys then m.size else m.size + 1 := by
  by_cases h : k ∈ m.keys
  · rw [if_pos h]
    have : m.contains k = true := AMap.contains_iff.2 h
    simp [AMap.emplace, this]
  · rw [if_neg h]
    have : m.contains k = false := by
      rw [← Bool.not_eq_true]; exact fun hc => h (AMap.contains_iff.1 hc)
    simp [AMap.emplace, this, AMap.size]

/-- What holds of the indices: the numbers from -1 on, each once. -/
structure IndexInv (m : AMap Nat Int) : Prop where
  wf : m.WF
  lt : ∀ v i, m.get v = some i → -1 ≤ i ∧ i < (m.size : Int) - 1
  inj : ∀ v w i, m.get v = some i → m.get w = some i → v = w

theorem IndexInv.empty : IndexInv AMap.empty :=
  ⟨AMap.wf_empty, fun v i h => by simp [AMap.get, AMap.empty] at h, fun v w i h => by simp [AMap.get, AMap.empty] at h⟩

theorem IndexInv.up {m : AMap Nat Int} (h : IndexInv m) (k : Nat) : IndexInv (indexUp m k) := by
  refine ⟨AMap.wf_emplace h.wf _ _, ?_, ?_⟩
  · intro v i hv
    unfold indexUp at hv ⊢
    rw [size_emplaceInt]
    rw [AMap.get_emplace] at hv
    split_ifs at hv with h1
    · cases hv
      rw [if_neg h1.2]
      push_cast
      omega
    · have := h.lt v i hv
      split_ifs <;> push_cast <;> omega
  · intro v w i hv hw
    unfold indexUp at hv hw
    rw [AMap.get_emplace] at hv hw
    split_ifs at hv hw with h1 h2 h2
    · rw [h1.1, h2.1]
    · cases hv; exact absurd (h.lt w _ hw).2 (by omega)
    · cases hw; exact absurd (h.lt v _ hv).2 (by omega)
    · exact h.inj v w i hv hw

theorem get_indexUp_of_get {m : AMap Nat Int} {k v : Nat} {j : Int} (h : m.get v = some j) : (indexUp m k).get v = some j := by
  unfold indexUp
  rw [AMap.get_emplace, if_neg, h]
  rintro ⟨rfl, hk⟩
  exact hk (AMap.mem_keys_iff.2 ⟨j, h⟩)

theorem mem_keys_indexUp {m : AMap Nat Int} {k v : Nat} : v ∈ (indexUp m k).keys ↔ v = k ∨ v ∈ m.keys := by
  unfold indexUp
  rw [AMap.mem_keys_emplace]

theorem mem_keys_countUp {m : AMap Nat Nat} {k v : Nat} : v ∈ (countUp m k).keys ↔ v = k ∨ v ∈ m.keys := by
  unfold countUp
  rw [AMap.mem_keys_insert]

theorem countUp_pos {m : AMap Nat Nat} (h : ∀ v n, m.get v = some n → 0 < n) (k : Nat) :
    ∀ v n, (countUp m k).get v = some n → 0 < n := by
  intro v n hv
  unfold countUp at hv
  by_cases hk : v = k
  · subst hk
    rw [AMap.get_insert_self] at hv
    cases hv
    omega
  · rw [AMap.get_insert_ne _ _ hk] at hv
    exact h v n hv

/-- What holds of the members. -/
structure Inv (s : State) : Prop where
  index : IndexInv s.index
  countWf : s.count.WF
  keys : ∀ v, v ∈ s.count.keys ↔ v ∈ s.index.keys
  pos : ∀ v n, s.count.get v = some n → 0 < n

theorem Inv.empty : Inv empty :=
  ⟨IndexInv.empty, AMap.wf_empty, fun v => by simp [LinearPosition.empty, AMap.keys, AMap.empty],
    fun v n h => by simp [LinearPosition.empty, AMap.get, AMap.empty] at h⟩

theorem Inv.add {s : State} (h : Inv s) (t : Triplet) : Inv (addTriplet s t) := by
  refine ⟨((h.index.up _).up _).up _, ?_, ?_, ?_⟩
  · exact AMap.wf_insert (AMap.wf_insert (AMap.wf_insert h.countWf _ _) _ _) _ _
  · intro v
    simp only [addTriplet, mem_keys_countUp, mem_keys_indexUp, h.keys]
  · exact countUp_pos (countUp_pos (countUp_pos h.pos _) _) _

theorem Inv.addAll : ∀ (ts : List Triplet) {s : State}, Inv s → Inv (ts.foldl addTriplet s)
  | [], _, h => h
  | t :: ts, _, h => Inv.addAll ts (h.add t)

theorem mem_keys_addAll (v : Nat) : ∀ (ts : List Triplet) (s : State),
    v ∈ (ts.foldl addTriplet s).index.keys ↔ v ∈ s.index.keys ∨ ∃ t ∈ ts, Corner t v
  | [], s => by simp
  | t :: ts, s => by
    rw [List.foldl_cons, mem_keys_addAll v ts]
    simp only [addTriplet, mem_keys_indexUp, List.exists_mem_cons_iff, Corner]
    constructor
    · rintro ((h | h | h | h) | h)
      · exact Or.inr (Or.inl (Or.inr (Or.inr h)))
      · exact Or.inr (Or.inl (Or.inr (Or.inl h)))
      · exact Or.inr (Or.inl (Or.inl h))
      · exact Or.inl h
      · exact Or.inr (Or.inr h)
    · rintro (h | (h | h | h) | h)
      · exact Or.inl (Or.inr (Or.inr (Or.inr h)))
      · exact Or.inl (Or.inr (Or.inr (Or.inl h)))
      · exact Or.inl (Or.inr (Or.inl h))
      · exact Or.inl (Or.inl h)
      · exact Or.inr h

theorem get_addAll_of_get {v : Nat} {i : Int} : ∀ (ts : List Triplet) {s : State}, s.index.get v = some i →
    (ts.foldl addTriplet s).index.get v = some i
  | [], _, h => h
  | t :: ts, s, h => get_addAll_of_get ts (s := addTriplet s t)
      (get_indexUp_of_get (get_indexUp_of_get (get_indexUp_of_get h)))

theorem get_first (t : Triplet) (ts : List Triplet) : ((t :: ts).foldl addTriplet empty).index.get t.1 = some (-1) := by
  rw [List.foldl_cons]
  apply get_addAll_of_get
  apply get_indexUp_of_get
  apply get_indexUp_of_get
  unfold indexUp
  rw [AMap.get_emplace, if_pos ⟨rfl, by simp [empty, AMap.keys, AMap.empty]⟩]
  rfl

theorem Inv.size {s : State} (h : Inv s) : s.count.size = s.index.size := by
  rw [AMap.size_eq_length_keys, AMap.size_eq_length_keys]
  exact ((List.perm_ext_iff_of_nodup h.countWf h.index.wf).2 h.keys).length_eq

/-- The index of a view. -/
def idx (s : State) (v : Nat) : Int := (s.index.get v).getD 0

theorem get_idx {s : State} {v : Nat} (h : v ∈ s.index.keys) : s.index.get v = some (idx s v) := by
  obtain ⟨j, hj⟩ := AMap.mem_keys_iff.1 h
  simp [idx, hj]

theorem weight_pos {s : State} (h : Inv s) {t : Triplet} (h0 : t.1 ∈ s.index.keys) (h1 : t.2.1 ∈ s.index.keys)
    (h2 : t.2.2 ∈ s.index.keys) : 0 < weight s.count t := by
  have hp : ∀ v, v ∈ s.index.keys → 0 < (s.count.get v).getD 0 := by
    intro v hv
    obtain ⟨n, hn⟩ := AMap.mem_keys_iff.1 ((h.keys v).2 hv)
    rw [hn]
    exact h.pos v n hn
  unfold weight
  apply one_div_pos.2
  apply Real.sqrt_pos.2
  exact_mod_cast lt_min (hp _ h0) (lt_min (hp _ h1) (hp _ h2))

/-- The indices of the views are the numbers from -1 on. -/
theorem indices_perm {s : State} (h : Inv s) :
    (s.index.keys.map (idx s)).Perm ((List.range s.index.size).map (fun i : Nat => (i : Int) - 1)) := by
  have hnd : (s.index.keys.map (idx s)).Nodup := by
    apply List.Nodup.map_on _ h.index.wf
    intro v hv w hw e
    exact h.index.inj v w _ (get_idx hv) (e ▸ get_idx hw)
  have hsub : s.index.keys.map (idx s) ⊆ (List.range s.index.size).map (fun i : Nat => (i : Int) - 1) := by
    intro i hi
    obtain ⟨v, hv, rfl⟩ := List.mem_map.1 hi
    have := h.index.lt _ _ (get_idx hv)
    have h1 : ((idx s v + 1).toNat : Int) = idx s v + 1 := Int.toNat_of_nonneg (by omega)
    exact List.mem_map.2 ⟨(idx s v + 1).toNat, List.mem_range.2 (by omega), by rw [h1]; ring⟩
  exact (List.subperm_of_subset hnd hsub).perm_of_length_le (by simp [AMap.size_eq_length_keys])

theorem sum_views {s : State} (h : Inv s) (g : Int → ℝ) :
    (s.index.keys.map (fun v => g (idx s v))).sum = ((List.range s.index.size).map (fun i : Nat => g ((i : Int) - 1))).sum := by
  have := ((indices_perm h).map g).sum_eq
  rw [List.map_map, List.map_map] at this
  exact this

/-- The squared norm of the solution is the sum over the views. -/
theorem norm_sum {s : State} (h : Inv s) (u : Nat → ℝ) :
    (s.index.keys.map (fun v => (positionOf u (idx s v)).dot (positionOf u (idx s v)))).sum =
      vecInner ((s.index.size - 1) * 3) u u := by
  rw [sum_views h (fun i => (positionOf u i).dot (positionOf u i))]
  unfold vecInner
  rw [mul_comm, sum_triples, sum_range_list]
  cases hs : s.index.size with
  | zero => simp
  | succ n =>
    rw [List.range_succ_eq_map, List.map_cons, List.sum_cons, List.map_map, Nat.add_sub_cancel]
    have h0 : (positionOf u (((0 : Nat) : Int) - 1)).dot (positionOf u (((0 : Nat) : Int) - 1)) = 0 := by
      rw [positionOf, if_pos (by norm_num)]
      exact V3.dot_zero _
    rw [h0, zero_add]
    congr 1
    apply List.map_congr_left
    intro i _
    have hi : ((Nat.succ i : Nat) : Int) - 1 = (i : Int) := by push_cast; ring
    simp only [Function.comp_apply, hi]
    rw [positionOf, if_neg (by omega)]
    simp only [Int.toNat_natCast, V3.dot]
    rw [mul_comm i 3]

end LinearPosition
end Theia
