import Mathlib.Algebra.BigOperators.Ring.Finset
import Mathlib.Tactic.Abel
import Verif.Model.LinearRotation
import Verif.Spec.LinearRotation
import Verif.Proof.ProjectionMatrix
import Verif.Proof.Svd

/-!
# Linear estimation of global rotations: proofs
-/

namespace Theia
namespace LinearRotation

open Spec AngleAxis ProjectionMatrix

/-! ## Inner products and quadratic forms -/

section Forms

variable {n : Nat} {m : Nat → Nat → ℝ}

theorem inner_comm (v w : Nat → ℝ) : vecInner n v w = vecInner n w v := by
  unfold vecInner; exact Finset.sum_congr rfl (fun r _ => mul_comm _ _)

theorem inner_sub_left (v w z : Nat → ℝ) : vecInner n (v - w) z = vecInner n v z - vecInner n w z := by
  unfold vecInner; rw [← Finset.sum_sub_distrib]; exact Finset.sum_congr rfl (fun r _ => by simp only [Pi.sub_apply]; ring)

theorem inner_sub_right (v w z : Nat → ℝ) : vecInner n z (v - w) = vecInner n z v - vecInner n z w := by
  rw [inner_comm, inner_sub_left, inner_comm v, inner_comm w]

theorem inner_smul_left (a : ℝ) (v w : Nat → ℝ) : vecInner n (a • v) w = a * vecInner n v w := by
  unfold vecInner; rw [Finset.mul_sum]
  exact Finset.sum_congr rfl (fun r _ => by simp only [Pi.smul_apply, smul_eq_mul]; ring)

theorem inner_smul_right (a : ℝ) (v w : Nat → ℝ) : vecInner n w (a • v) = a * vecInner n w v := by
  rw [inner_comm, inner_smul_left, inner_comm v]

theorem inner_nonneg (v : Nat → ℝ) : 0 ≤ vecInner n v v := Finset.sum_nonneg (fun _ _ => mul_self_nonneg _)

/-- The bilinear form of the matrix. -/
noncomputable def form (n : Nat) (m : Nat → Nat → ℝ) (v w : Nat → ℝ) : ℝ := vecInner n v (applyMatrix n m w)

theorem apply_sub (v w : Nat → ℝ) : applyMatrix n m (v - w) = applyMatrix n m v - applyMatrix n m w := by
  funext r
  simp only [applyMatrix, Pi.sub_apply, ← Finset.sum_sub_distrib]
  exact Finset.sum_congr rfl (fun r _ => by ring)

theorem apply_smul (a : ℝ) (v : Nat → ℝ) : applyMatrix n m (a • v) = a • applyMatrix n m v := by
  funext r
  simp only [applyMatrix, Pi.smul_apply, smul_eq_mul, Finset.mul_sum]
  exact Finset.sum_congr rfl (fun r _ => by ring)

theorem form_eq_sum (v w : Nat → ℝ) :
    form n m v w = ∑ r ∈ Finset.range n, ∑ c ∈ Finset.range n, m r c * (v r * w c) := by
  unfold form vecInner applyMatrix
  apply Finset.sum_congr rfl
  intro r _
  rw [Finset.mul_sum]
  exact Finset.sum_congr rfl (fun c _ => by ring)

theorem form_comm (hm : ∀ r c, m r c = m c r) (v w : Nat → ℝ) : form n m v w = form n m w v := by
  rw [form_eq_sum, form_eq_sum, Finset.sum_comm]
  apply Finset.sum_congr rfl; intro r _
  apply Finset.sum_congr rfl; intro c _
  rw [hm c r]; ring

theorem form_eigen {u : Nat → ℝ} {l : ℝ} (h : ∀ r, r < n → applyMatrix n m u r = l * u r) (v : Nat → ℝ) :
    form n m v u = l * vecInner n v u := by
  unfold form vecInner
  rw [Finset.mul_sum]
  apply Finset.sum_congr rfl; intro r hr
  rw [h r (Finset.mem_range.1 hr)]; ring

/-- Bessel's inequality for three orthonormal vectors. -/
theorem bessel {y : Fin 3 → Nat → ℝ} (hy : ∀ i j, vecInner n (y i) (y j) = if i = j then 1 else 0) (v : Nat → ℝ) :
    vecInner n v (y 0) ^ 2 + vecInner n v (y 1) ^ 2 + vecInner n v (y 2) ^ 2 ≤ vecInner n v v := by
  have h := inner_nonneg (n := n) (v - vecInner n v (y 0) • y 0 - vecInner n v (y 1) • y 1 - vecInner n v (y 2) • y 2)
  simp only [inner_sub_left, inner_sub_right, inner_smul_left, inner_smul_right] at h
  have h00 := hy 0 0; have h11 := hy 1 1; have h22 := hy 2 2
  have h01 := hy 0 1; have h02 := hy 0 2; have h12 := hy 1 2
  have h10 := hy 1 0; have h20 := hy 2 0; have h21 := hy 2 1
  simp at h00 h11 h22 h01 h02 h12 h10 h20 h21
  simp only [h00, h11, h22, h01, h02, h12, h10, h20, h21, inner_comm (y 0) v, inner_comm (y 1) v, inner_comm (y 2) v] at h
  nlinarith [h]

/-- The part of a vector orthogonal to the eigenvectors. -/
theorem form_split {u : Fin 3 → Nat → ℝ} (hm : ∀ r c, m r c = m c r)
    (hu : ∀ i j, vecInner n (u i) (u j) = if i = j then 1 else 0) {l : Fin 3 → ℝ}
    (hl : ∀ i r, r < n → applyMatrix n m (u i) r = l i * u i r)
    (hs : ∀ v, (∀ i, vecInner n v (u i) = 0) → ∀ i, l i * vecInner n v v ≤ vecInner n v (applyMatrix n m v))
    (y : Nat → ℝ) (i : Fin 3) :
    l i * (vecInner n y y - vecInner n y (u 0) ^ 2 - vecInner n y (u 1) ^ 2 - vecInner n y (u 2) ^ 2) +
      (l 0 * vecInner n y (u 0) ^ 2 + l 1 * vecInner n y (u 1) ^ 2 + l 2 * vecInner n y (u 2) ^ 2) ≤ form n m y y := by
  have h00 := hu 0 0; have h11 := hu 1 1; have h22 := hu 2 2
  have h01 := hu 0 1; have h02 := hu 0 2; have h12 := hu 1 2
  have h10 := hu 1 0; have h20 := hu 2 0; have h21 := hu 2 1
  simp at h00 h11 h22 h01 h02 h12 h10 h20 h21
  have key := hs (y - vecInner n y (u 0) • u 0 - vecInner n y (u 1) • u 1 - vecInner n y (u 2) • u 2) (by
    intro j
    simp only [inner_sub_left, inner_smul_left]
    fin_cases j <;> simp [h00, h11, h22, h01, h02, h12, h10, h20, h21]) i
  have e0 := fun v => form_eigen (hl 0) v
  have e1 := fun v => form_eigen (hl 1) v
  have e2 := fun v => form_eigen (hl 2) v
  have f0 : form n m (u 0) y = l 0 * vecInner n y (u 0) := by rw [form_comm hm, e0]
  have f1 : form n m (u 1) y = l 1 * vecInner n y (u 1) := by rw [form_comm hm, e1]
  have f2 : form n m (u 2) y = l 2 * vecInner n y (u 2) := by rw [form_comm hm, e2]
  unfold form at e0 e1 e2 f0 f1 f2 ⊢
  simp only [apply_sub, apply_smul, inner_sub_left, inner_sub_right, inner_smul_left, inner_smul_right, e0, e1, e2, f0, f1,
    f2] at key
  simp only [h00, h11, h22, h01, h02, h12, h10, h20, h21, inner_comm (u 0) y, inner_comm (u 1) y, inner_comm (u 2) y] at key
  nlinarith [key]

/-- Three eigenvectors of the smallest eigenvalues have the smallest sum of forms among orthonormal triples. -/
theorem ky_fan {u : Fin 3 → Nat → ℝ} (hm : ∀ r c, m r c = m c r) (hu : SmallestEigenvectors n m u)
    {y : Fin 3 → Nat → ℝ} (hy : ∀ i j, vecInner n (y i) (y j) = if i = j then 1 else 0) :
    form n m (u 0) (u 0) + form n m (u 1) (u 1) + form n m (u 2) (u 2) ≤
      form n m (y 0) (y 0) + form n m (y 1) (y 1) + form n m (y 2) (y 2) := by
  obtain ⟨ho, l, hl, hs⟩ := hu
  obtain ⟨i, h0, h1, h2⟩ : ∃ i, l 0 ≤ l i ∧ l 1 ≤ l i ∧ l 2 ≤ l i := by
    rcases le_total (l 0) (l 1) with h | h <;> rcases le_total (l 1) (l 2) with h' | h' <;>
      rcases le_total (l 0) (l 2) with h'' | h''
    · exact ⟨2, by linarith, by linarith, le_rfl⟩
    · exact ⟨2, by linarith, by linarith, le_rfl⟩
    · exact ⟨1, by linarith, le_rfl, by linarith⟩
    · exact ⟨1, by linarith, le_rfl, by linarith⟩
    · exact ⟨2, by linarith, by linarith, le_rfl⟩
    · exact ⟨0, le_rfl, by linarith, by linarith⟩
    · exact ⟨0, le_rfl, by linarith, by linarith⟩
    · exact ⟨0, le_rfl, by linarith, by linarith⟩
  have hf : ∀ k, form n m (u k) (u k) = l k := by
    intro k
    rw [form_eigen (hl k), ho k k]; simp
  rw [hf, hf, hf]
  have b0 := bessel hy (u 0)
  have b1 := bessel hy (u 1)
  have b2 := bessel hy (u 2)
  rw [ho 0 0] at b0; rw [ho 1 1] at b1; rw [ho 2 2] at b2
  simp only [if_true] at b0 b1 b2
  have s0 := form_split hm ho hl hs (y 0) i
  have s1 := form_split hm ho hl hs (y 1) i
  have s2 := form_split hm ho hl hs (y 2) i
  rw [hy 0 0] at s0; rw [hy 1 1] at s1; rw [hy 2 2] at s2
  simp only [if_true] at s0 s1 s2
  simp only [inner_comm (u _) (y _)] at b0 b1 b2
  have c0 := mul_nonneg (sub_nonneg.2 h0) (sub_nonneg.2 b0)
  have c1 := mul_nonneg (sub_nonneg.2 h1) (sub_nonneg.2 b1)
  have c2 := mul_nonneg (sub_nonneg.2 h2) (sub_nonneg.2 b2)
  nlinarith [c0, c1, c2, s0, s1, s2]

end Forms

/-! ## The matrix of the constraints -/

theorem symmetric_comm (m : Nat → Nat → ℝ) (r c : Nat) : symmetric m r c = symmetric m c r := by
  unfold symmetric
  rcases Nat.lt_trichotomy r c with h | h | h
  · rw [if_pos h.le, if_neg (by omega)]
  · subst h; rfl
  · rw [if_neg (by omega), if_pos h.le]

/-- What one entry of the upper triangle adds to the form. -/
noncomputable def entryForm (v w : Nat → ℝ) (e : Nat × Nat × ℝ) : ℝ :=
  if e.1 = e.2.1 then e.2.2 * (v e.1 * w e.1) else e.2.2 * (v e.1 * w e.2.1 + v e.2.1 * w e.1)

theorem stored_cons (e : Nat × Nat × ℝ) (es : List (Nat × Nat × ℝ)) (r c : Nat) :
    stored (e :: es) r c = (if r = e.1 then if c = e.2.1 then e.2.2 else 0 else 0) + stored es r c := by
  unfold stored
  by_cases h : e.1 = r ∧ e.2.1 = c
  · rw [List.filter_cons_of_pos (by simpa using h)]
    simp [h.1.symm, h.2.symm]
  · rw [List.filter_cons_of_neg (by simpa using h)]
    by_cases h1 : r = e.1
    · rw [if_pos h1, if_neg (fun h2 => h ⟨h1.symm, h2.symm⟩)]; simp
    · rw [if_neg h1]; simp

theorem symmetric_cons (e : Nat × Nat × ℝ) (he : e.1 ≤ e.2.1) (es : List (Nat × Nat × ℝ)) (r c : Nat) :
    symmetric (stored (e :: es)) r c = ((if r = e.1 then if c = e.2.1 then e.2.2 else 0 else 0) +
      (if r = e.2.1 then if c = e.1 then (if e.1 = e.2.1 then 0 else e.2.2) else 0 else 0)) + symmetric (stored es) r c := by
  unfold symmetric
  rw [stored_cons, stored_cons]
  split_ifs <;> first | omega | simp

theorem form_stored {n : Nat} (v w : Nat → ℝ) : ∀ (es : List (Nat × Nat × ℝ)),
    (∀ e ∈ es, e.1 ≤ e.2.1 ∧ e.2.1 < n) →
    form n (symmetric (stored es)) v w = (es.map (entryForm v w)).sum := by
  intro es
  induction es with
  | nil =>
    intro _
    rw [form_eq_sum]
    simp [symmetric, stored]
  | cons e es ih =>
    intro h
    obtain ⟨he, hn⟩ := h e List.mem_cons_self
    rw [List.map_cons, List.sum_cons, ← ih (fun x hx => h x (List.mem_cons_of_mem _ hx)), form_eq_sum, form_eq_sum]
    simp only [symmetric_cons e he, add_mul, Finset.sum_add_distrib]
    congr 1
    have h1 : ∀ (a b : Nat) (x : ℝ), a < n → b < n →
        ∑ r ∈ Finset.range n, ∑ c ∈ Finset.range n, (if r = a then if c = b then x else 0 else 0) * (v r * w c) =
          x * (v a * w b) := by
      intro a b x ha hb
      rw [Finset.sum_eq_single a, Finset.sum_eq_single b]
      · simp
      · intro c _ hc; rw [if_pos rfl, if_neg hc]; simp
      · intro hc; exact absurd (Finset.mem_range.2 hb) hc
      · intro r _ hr; exact Finset.sum_eq_zero (fun c _ => by rw [if_neg hr]; simp)
      · intro hc; exact absurd (Finset.mem_range.2 ha) hc
    rw [h1 _ _ _ (by omega) hn, h1 _ _ _ hn (by omega)]
    unfold entryForm
    by_cases hd : e.1 = e.2.1
    · rw [if_pos hd, if_pos hd, ← hd]; ring
    · rw [if_neg hd, if_neg hd]; ring

/-! ## Constraints -/

/-- The three entries of a view. -/
def part (v : Nat → ℝ) (i : Nat) : V3 ℝ := ⟨v (3 * i), v (3 * i + 1), v (3 * i + 2)⟩

/-- What one constraint adds to the form. -/
theorem constraint_form (v w : Nat → ℝ) {i1 i2 : Nat} (h : i1 ≠ i2) {R : M3 ℝ} (hR : R.IsRotation) :
    ((diagonal i1 i2 ++ offDiagonal i1 i2 R).map (entryForm v w)).sum =
      ((part v i2).sub (R.mulVec (part v i1))).dot ((part w i2).sub (R.mulVec (part w i1))) := by
  have hd := hR.dot (part v i1) (part w i1)
  have e : ((part v i2).sub (R.mulVec (part v i1))).dot ((part w i2).sub (R.mulVec (part w i1))) =
      (part v i2).dot (part w i2) + (part v i1).dot (part w i1) - (part v i2).dot (R.mulVec (part w i1)) -
        (R.mulVec (part v i1)).dot (part w i2) := by
    rw [← hd]; simp only [V3.dot, V3.sub]; ring
  rw [e]
  have n1 : ∀ a b : Nat, a < 3 → b < 3 → 3 * i1 + a ≠ 3 * i2 + b := by intro a b ha hb; omega
  have n2 : ∀ a b : Nat, a < 3 → b < 3 → 3 * i2 + a ≠ 3 * i1 + b := by intro a b ha hb; omega
  have n100 := n1 0 0; have n101 := n1 0 1; have n102 := n1 0 2
  have n110 := n1 1 0; have n120 := n1 2 0
  have n200 := n2 0 0; have n201 := n2 0 1; have n202 := n2 0 2
  have n210 := n2 1 0; have n220 := n2 2 0
  simp only [Nat.add_zero] at n100 n101 n102 n110 n120 n200 n201 n202 n210 n220
  unfold offDiagonal
  by_cases hlt : i1 < i2
  · rw [if_pos hlt]
    simp only [diagonal, fill, List.cons_append, List.nil_append, List.map_cons, List.map_nil, List.sum_cons, List.sum_nil,
      entryForm, if_true, if_neg (n100 (by omega) (by omega)), if_neg (n101 (by omega) (by omega)),
      if_neg (n102 (by omega) (by omega)), if_neg (n110 (by omega) (by omega)), if_neg (n120 (by omega) (by omega)),
      if_neg (n1 1 1 (by omega) (by omega)), if_neg (n1 1 2 (by omega) (by omega)),
      if_neg (n1 2 1 (by omega) (by omega)), if_neg (n1 2 2 (by omega) (by omega)), part, scale, M3.transpose, V3.smul,
      M3.mulVec, V3.dot]
    ring
  · rw [if_neg hlt]
    simp only [diagonal, fill, List.cons_append, List.nil_append, List.map_cons, List.map_nil, List.sum_cons, List.sum_nil,
      entryForm, if_true, if_neg (n200 (by omega) (by omega)), if_neg (n201 (by omega) (by omega)),
      if_neg (n202 (by omega) (by omega)), if_neg (n210 (by omega) (by omega)), if_neg (n220 (by omega) (by omega)),
      if_neg (n2 1 1 (by omega) (by omega)), if_neg (n2 1 2 (by omega) (by omega)),
      if_neg (n2 2 1 (by omega) (by omega)), if_neg (n2 2 2 (by omega) (by omega)), part, scale, V3.smul, M3.mulVec, V3.dot]
    ring

/-! ## Indices -/

theorem size_emplace (m : AMap Nat Nat) (k i : Nat) :
    (m.emplace k i).size = if k ∈ m.keys then m.size else m.size + 1 := by
  by_cases h : k ∈ m.keys
  · rw [if_pos h]
    have : m.contains k = true := AMap.contains_iff.2 h
    simp [AMap.emplace, this]
  · rw [if_neg h]
    have : m.contains k = false := by
      rw [← Bool.not_eq_true]; exact fun hc => h (AMap.contains_iff.1 hc)
    simp [AMap.emplace, this, AMap.size]

/-- What holds of the map from views to indices: the indices are those below the size, each once. -/
structure IndexInv (m : AMap Nat Nat) : Prop where
  wf : m.WF
  lt : ∀ v i, m.get v = some i → i < m.size
  inj : ∀ v w i, m.get v = some i → m.get w = some i → v = w

theorem IndexInv.emplace {m : AMap Nat Nat} (h : IndexInv m) (k : Nat) : IndexInv (m.emplace k m.size) := by
  refine ⟨AMap.wf_emplace h.wf _ _, ?_, ?_⟩
  · intro v i hv
    rw [size_emplace]
    rw [AMap.get_emplace] at hv
    split_ifs at hv with h1
    · cases hv; rw [if_neg h1.2]; omega
    · have := h.lt v i hv
      split_ifs <;> omega
  · intro v w i hv hw
    rw [AMap.get_emplace] at hv hw
    split_ifs at hv hw with h1 h2 h2
    · rw [h1.1, h2.1]
    · cases hv; exact absurd (h.lt w _ hw) (by omega)
    · cases hw; exact absurd (h.lt v _ hv) (by omega)
    · exact h.inj v w i hv hw

theorem IndexInv.indexed {m : AMap Nat Nat} (h : IndexInv m) (p : Nat × Nat) : IndexInv (indexed m p) :=
  (h.emplace p.1).emplace p.2

theorem get_emplace_of_get {m : AMap Nat Nat} {k i v j : Nat} (h : m.get v = some j) : (m.emplace k i).get v = some j := by
  rw [AMap.get_emplace, if_neg, h]
  rintro ⟨rfl, hk⟩
  exact hk (AMap.mem_keys_iff.2 ⟨j, h⟩)

theorem get_indexed_of_get {m : AMap Nat Nat} {p : Nat × Nat} {v j : Nat} (h : m.get v = some j) :
    (indexed m p).get v = some j := get_emplace_of_get (get_emplace_of_get h)

theorem mem_keys_indexed {m : AMap Nat Nat} {p : Nat × Nat} {v : Nat} :
    v ∈ (indexed m p).keys ↔ v ∈ m.keys ∨ v = p.1 ∨ v = p.2 := by
  unfold indexed
  rw [AMap.mem_keys_emplace, AMap.mem_keys_emplace]
  tauto

theorem size_indexed_le (m : AMap Nat Nat) (p : Nat × Nat) : m.size ≤ (indexed m p).size := by
  unfold indexed
  simp only [size_emplace]
  split_ifs <;> omega

/-- The index of a view. -/
def idx (s : State) (v : Nat) : Nat := (s.index.get v).getD 0

/-- What holds of the estimator after the constraints `cs`. -/
structure Inv (cs : List ((Nat × Nat) × V3 ℝ)) (s : State) : Prop where
  index : IndexInv s.index
  keys : ∀ v, v ∈ s.index.keys ↔ ∃ c ∈ cs, v = c.1.1 ∨ v = c.1.2
  upper : ∀ e ∈ s.entries, e.1 ≤ e.2.1 ∧ e.2.1 < 3 * s.index.size
  form : ∀ v w, (s.entries.map (entryForm v w)).sum = (cs.map (fun c =>
    ((part v (idx s c.1.2)).sub ((toM c.2).mulVec (part v (idx s c.1.1)))).dot
      ((part w (idx s c.1.2)).sub ((toM c.2).mulVec (part w (idx s c.1.1)))))).sum
  entries : cs ≠ [] → s.entries ≠ []

theorem inv_empty : Inv [] empty :=
  ⟨⟨AMap.wf_empty, fun v i h => by simp [empty, AMap.get, AMap.empty] at h,
    fun v w i h => by simp [empty, AMap.get, AMap.empty] at h⟩,
    fun v => by simp [empty, AMap.keys, AMap.empty], fun e h => by simp [empty] at h, fun v w => by simp [empty],
    fun h => absurd rfl h⟩

theorem entries_upper {i1 i2 n : Nat} (h : i1 ≠ i2) (h1 : i1 < n) (h2 : i2 < n) (R : M3 ℝ) :
    ∀ e ∈ diagonal i1 i2 ++ offDiagonal i1 i2 R, e.1 ≤ e.2.1 ∧ e.2.1 < 3 * n := by
  intro e he
  rw [List.mem_append] at he
  rcases he with he | he
  · simp only [diagonal, List.mem_cons, List.not_mem_nil, or_false] at he
    rcases he with rfl | rfl | rfl | rfl | rfl | rfl <;> simp only <;> omega
  · unfold offDiagonal at he
    split_ifs at he with hlt <;>
      (simp only [fill, List.mem_cons, List.not_mem_nil, or_false] at he
       rcases he with rfl | rfl | rfl | rfl | rfl | rfl | rfl | rfl | rfl <;> simp only <;> omega)

theorem Inv.add {cs : List ((Nat × Nat) × V3 ℝ)} {s : State} (h : Inv cs s) {c : (Nat × Nat) × V3 ℝ}
    (hc : c.1.1 ≠ c.1.2) : Inv (cs ++ [c]) (addConstraint s c) := by
  have hi := h.index.indexed c.1
  obtain ⟨i1, g1⟩ := AMap.mem_keys_iff.1 (mem_keys_indexed.2 (Or.inr (Or.inl rfl)) : c.1.1 ∈ (indexed s.index c.1).keys)
  obtain ⟨i2, g2⟩ := AMap.mem_keys_iff.1 (mem_keys_indexed.2 (Or.inr (Or.inr rfl)) : c.1.2 ∈ (indexed s.index c.1).keys)
  have hne : i1 ≠ i2 := fun e => hc (hi.inj _ _ _ g1 (e ▸ g2))
  have l1 := hi.lt _ _ g1
  have l2 := hi.lt _ _ g2
  have hs : addConstraint s c = ⟨indexed s.index c.1, s.entries ++ diagonal i1 i2 ++ offDiagonal i1 i2 (toM c.2)⟩ := by
    simp [addConstraint, g1, g2]
  have hx : ∀ v, v ∈ s.index.keys → idx (addConstraint s c) v = idx s v := by
    intro v hv
    obtain ⟨j, hj⟩ := AMap.mem_keys_iff.1 hv
    rw [hs]
    simp [idx, hj, get_indexed_of_get hj]
  have x1 : idx (addConstraint s c) c.1.1 = i1 := by rw [hs]; simp [idx, g1]
  have x2 : idx (addConstraint s c) c.1.2 = i2 := by rw [hs]; simp [idx, g2]
  refine ⟨?_, ?_, ?_, ?_, ?_⟩
  · rw [hs]; exact hi
  · intro v
    rw [hs]
    simp only [mem_keys_indexed, h.keys v, List.mem_append, List.mem_singleton]
    constructor
    · rintro (⟨d, hd, hv⟩ | hv)
      · exact ⟨d, Or.inl hd, hv⟩
      · exact ⟨c, Or.inr rfl, hv⟩
    · rintro ⟨d, hd | rfl, hv⟩
      · exact Or.inl ⟨d, hd, hv⟩
      · exact Or.inr hv
  · rw [hs]
    intro e he
    simp only [List.append_assoc] at he
    rw [List.mem_append] at he
    rcases he with he | he
    · have := h.upper e he
      have := size_indexed_le s.index c.1
      simp only
      omega
    · exact entries_upper hne l1 l2 _ e he
  · intro v w
    rw [List.map_append, List.sum_append, List.map_singleton, List.sum_singleton, x1, x2]
    have e1 : (cs.map (fun d =>
        ((part v (idx (addConstraint s c) d.1.2)).sub ((toM d.2).mulVec (part v (idx (addConstraint s c) d.1.1)))).dot
          ((part w (idx (addConstraint s c) d.1.2)).sub ((toM d.2).mulVec (part w (idx (addConstraint s c) d.1.1)))))).sum =
        (s.entries.map (entryForm v w)).sum := by
      rw [h.form v w]
      congr 1
      apply List.map_congr_left
      intro d hd
      rw [hx d.1.1 ((h.keys _).2 ⟨d, hd, Or.inl rfl⟩), hx d.1.2 ((h.keys _).2 ⟨d, hd, Or.inr rfl⟩)]
    rw [e1, ← constraint_form v w hne (isRotation_toM c.2), hs]
    simp only [List.append_assoc, List.map_append, List.sum_append]
  · intro _
    rw [hs]
    simp [diagonal]

theorem Inv.addAll : ∀ (ds : List ((Nat × Nat) × V3 ℝ)) {cs : List ((Nat × Nat) × V3 ℝ)} {s : State}, Inv cs s →
    (∀ c ∈ ds, c.1.1 ≠ c.1.2) → Inv (cs ++ ds) (addAll s ds) := by
  intro ds
  induction ds with
  | nil => intro cs s h _; simpa [LinearRotation.addAll] using h
  | cons d ds ih =>
    intro cs s h hd
    have := ih (h.add (hd d List.mem_cons_self)) (fun c hc => hd c (List.mem_cons_of_mem _ hc))
    rw [List.append_assoc] at this
    exact this

/-! ## Views and rows -/

theorem sum_triples (f : Nat → ℝ) (n : Nat) :
    ∑ r ∈ Finset.range (3 * n), f r = ∑ i ∈ Finset.range n, (f (3 * i) + f (3 * i + 1) + f (3 * i + 2)) := by
  induction n with
  | zero => simp
  | succ n ih =>
    rw [show 3 * (n + 1) = 3 * n + 1 + 1 + 1 by ring, Finset.sum_range_succ, Finset.sum_range_succ, Finset.sum_range_succ, ih,
      Finset.sum_range_succ]
    ring

theorem sum_range_list (g : Nat → ℝ) (n : Nat) : ∑ i ∈ Finset.range n, g i = ((List.range n).map g).sum := by
  induction n with
  | zero => simp
  | succ n ih => rw [Finset.sum_range_succ, ih, List.range_succ]; simp

/-- The indices of the views are the numbers below their number. -/
theorem indices_perm {cs : List ((Nat × Nat) × V3 ℝ)} {s : State} (h : Inv cs s) {views : List Nat}
    (hv : ViewsOf cs views) : (views.map (idx s)).Perm (List.range s.index.size) ∧ views.length = s.index.size := by
  have hmem : ∀ v, v ∈ views ↔ v ∈ s.index.keys := fun v => by rw [hv.2, h.keys]
  have hp : views.Perm s.index.keys := (List.perm_ext_iff_of_nodup hv.1 h.index.wf).2 hmem
  have hlen : views.length = s.index.size := by rw [AMap.size_eq_length_keys, hp.length_eq]
  refine ⟨?_, hlen⟩
  have hget : ∀ v ∈ views, s.index.get v = some (idx s v) := by
    intro v hv'
    obtain ⟨j, hj⟩ := AMap.mem_keys_iff.1 ((hmem v).1 hv')
    simp [idx, hj]
  have hnd : (views.map (idx s)).Nodup := by
    apply List.Nodup.map_on _ hv.1
    intro v hv1 w hw1 e
    exact h.index.inj v w _ (hget v hv1) (e ▸ hget w hw1)
  have hsub : views.map (idx s) ⊆ List.range s.index.size := by
    intro i hi
    obtain ⟨v, hv1, rfl⟩ := List.mem_map.1 hi
    exact List.mem_range.2 (h.index.lt _ _ (hget v hv1))
  exact (List.subperm_of_subset hnd hsub).perm_of_length_le (by simp [hlen])

/-- Sums over the rows are sums over the views. -/
theorem sum_views {cs : List ((Nat × Nat) × V3 ℝ)} {s : State} (h : Inv cs s) {views : List Nat} (hv : ViewsOf cs views)
    (f : Nat → ℝ) : ∑ r ∈ Finset.range (3 * s.index.size), f r =
      (views.map (fun v => f (3 * idx s v) + f (3 * idx s v + 1) + f (3 * idx s v + 2))).sum := by
  rw [sum_triples, sum_range_list, ← (((indices_perm h hv).1.map _).sum_eq), List.map_map]
  rfl

/-- A combination of the columns. -/
noncomputable def comb (u : Fin 3 → Nat → ℝ) (p : V3 ℝ) : Nat → ℝ := fun r => u 0 r * p.x + u 1 r * p.y + u 2 r * p.z

theorem stack_sum {cs : List ((Nat × Nat) × V3 ℝ)} {s : State} (h : Inv cs s) {views : List Nat} (hv : ViewsOf cs views)
    (u : Fin 3 → Nat → ℝ) (p q : V3 ℝ) :
    (views.map (fun v => ((block u (idx s v)).mulVec p).dot ((block u (idx s v)).mulVec q))).sum =
      vecInner (3 * s.index.size) (comb u p) (comb u q) := by
  unfold vecInner
  rw [sum_views h hv]
  congr 1

theorem comb_eq (u : Fin 3 → Nat → ℝ) (p : V3 ℝ) : comb u p = p.x • u 0 - (-p.y) • u 1 - (-p.z) • u 2 := by
  funext r
  simp only [comb, Pi.sub_apply, Pi.smul_apply, smul_eq_mul]; ring

theorem stack_orthonormal {cs : List ((Nat × Nat) × V3 ℝ)} {s : State} (h : Inv cs s) {views : List Nat}
    (hv : ViewsOf cs views) {u : Fin 3 → Nat → ℝ}
    (hu : ∀ i j, vecInner (3 * s.index.size) (u i) (u j) = if i = j then 1 else 0) :
    StackOrthonormal views (fun v => block u (idx s v)) := by
  intro p q
  rw [stack_sum h hv]
  have h00 := hu 0 0; have h11 := hu 1 1; have h22 := hu 2 2
  have h01 := hu 0 1; have h02 := hu 0 2; have h12 := hu 1 2
  have h10 := hu 1 0; have h20 := hu 2 0; have h21 := hu 2 1
  simp at h00 h11 h22 h01 h02 h12 h10 h20 h21
  rw [comb_eq, comb_eq]
  simp only [inner_sub_left, inner_sub_right, inner_smul_left, inner_smul_right, h00, h11, h22, h01, h02, h12, h10, h20, h21,
    V3.dot]
  ring

/-- The cost of the blocks of three vectors. -/
theorem cost_eq {cs : List ((Nat × Nat) × V3 ℝ)} {s : State} (h : Inv cs s) (u : Fin 3 → Nat → ℝ) :
    rotationCost cs (fun v => block u (idx s v)) =
      form (3 * s.index.size) (symmetric (stored s.entries)) (u 0) (u 0) +
      form (3 * s.index.size) (symmetric (stored s.entries)) (u 1) (u 1) +
      form (3 * s.index.size) (symmetric (stored s.entries)) (u 2) (u 2) := by
  rw [form_stored _ _ _ h.upper, form_stored _ _ _ h.upper, form_stored _ _ _ h.upper, h.form, h.form, h.form,
    ← List.sum_map_add, ← List.sum_map_add]
  unfold rotationCost
  congr 1
  apply List.map_congr_left
  intro c _
  simp only [frobeniusSq, block, part, M3.mul, M3.transpose, M3.mulVec, V3.dot, V3.sub]
  ring

/-- The row of a matrix. -/
def rowOf (m : M3 ℝ) : Nat → V3 ℝ
  | 0 => m.r1
  | 1 => m.r2
  | _ => m.r3

/-- The entry of a vector. -/
def entryOf (v : V3 ℝ) : Fin 3 → ℝ
  | 0 => v.x
  | 1 => v.y
  | 2 => v.z

/-- The vectors whose blocks are given matrices. -/
def stackOf (s : State) (views : List Nat) (Y : Nat → M3 ℝ) (k : Fin 3) (r : Nat) : ℝ :=
  entryOf (rowOf (Y ((views.find? (fun v => decide (idx s v = r / 3))).getD 0)) (r % 3)) k

theorem block_stackOf {cs : List ((Nat × Nat) × V3 ℝ)} {s : State} (h : Inv cs s) {views : List Nat}
    (hv : ViewsOf cs views) (Y : Nat → M3 ℝ) {v : Nat} (hm : v ∈ views) : block (stackOf s views Y) (idx s v) = Y v := by
  have hget : ∀ v ∈ views, s.index.get v = some (idx s v) := by
    intro v hv'
    obtain ⟨j, hj⟩ := AMap.mem_keys_iff.1 ((h.keys v).2 ((hv.2 v).1 hv'))
    simp [idx, hj]
  have hf : views.find? (fun w => decide (idx s w = idx s v)) = some v := by
    cases e : views.find? (fun w => decide (idx s w = idx s v)) with
    | none =>
      have := List.find?_eq_none.1 e v hm
      simp at this
    | some w =>
      have h1 := List.find?_some e
      have h2 := List.mem_of_find?_eq_some e
      simp only [decide_eq_true_eq] at h1
      rw [h.index.inj w v _ (hget w h2) (h1 ▸ hget v hm)]
  have d0 : 3 * idx s v / 3 = idx s v := by omega
  have d1 : (3 * idx s v + 1) / 3 = idx s v := by omega
  have d2 : (3 * idx s v + 2) / 3 = idx s v := by omega
  have m0 : 3 * idx s v % 3 = 0 := by omega
  have m1 : (3 * idx s v + 1) % 3 = 1 := by omega
  have m2 : (3 * idx s v + 2) % 3 = 2 := by omega
  simp only [block, stackOf, d0, d1, d2, m0, m1, m2, hf, Option.getD_some, rowOf, entryOf]

theorem stackOf_orthonormal {cs : List ((Nat × Nat) × V3 ℝ)} {s : State} (h : Inv cs s) {views : List Nat}
    (hv : ViewsOf cs views) {Y : Nat → M3 ℝ} (hY : StackOrthonormal views Y) (i j : Fin 3) :
    vecInner (3 * s.index.size) (stackOf s views Y i) (stackOf s views Y j) = if i = j then 1 else 0 := by
  have key : ∀ p q, vecInner (3 * s.index.size) (comb (stackOf s views Y) p) (comb (stackOf s views Y) q) = p.dot q := by
    intro p q
    rw [← stack_sum h hv, ← hY p q]
    congr 1
    apply List.map_congr_left
    intro v hm
    rw [block_stackOf h hv Y hm]
  have c0 : comb (stackOf s views Y) ⟨1, 0, 0⟩ = stackOf s views Y 0 := by funext r; simp [comb]
  have c1 : comb (stackOf s views Y) ⟨0, 1, 0⟩ = stackOf s views Y 1 := by funext r; simp [comb]
  have c2 : comb (stackOf s views Y) ⟨0, 0, 1⟩ = stackOf s views Y 2 := by funext r; simp [comb]
  have k00 := key ⟨1, 0, 0⟩ ⟨1, 0, 0⟩; have k01 := key ⟨1, 0, 0⟩ ⟨0, 1, 0⟩; have k02 := key ⟨1, 0, 0⟩ ⟨0, 0, 1⟩
  have k10 := key ⟨0, 1, 0⟩ ⟨1, 0, 0⟩; have k11 := key ⟨0, 1, 0⟩ ⟨0, 1, 0⟩; have k12 := key ⟨0, 1, 0⟩ ⟨0, 0, 1⟩
  have k20 := key ⟨0, 0, 1⟩ ⟨1, 0, 0⟩; have k21 := key ⟨0, 0, 1⟩ ⟨0, 1, 0⟩; have k22 := key ⟨0, 0, 1⟩ ⟨0, 0, 1⟩
  simp only [c0, c1, c2, V3.dot] at k00 k01 k02 k10 k11 k12 k20 k21 k22
  fin_cases i <;> fin_cases j <;> simp [k00, k01, k02, k10, k11, k12, k20, k21, k22]

/-- The blocks of the eigenvectors have the least cost. -/
theorem optimal {cs : List ((Nat × Nat) × V3 ℝ)} {s : State} (h : Inv cs s) {views : List Nat} (hv : ViewsOf cs views)
    {u : Fin 3 → Nat → ℝ} (hu : SmallestEigenvectors (3 * s.index.size) (symmetric (stored s.entries)) u)
    {Y : Nat → M3 ℝ} (hY : StackOrthonormal views Y) :
    rotationCost cs (fun v => block u (idx s v)) ≤ rotationCost cs Y := by
  have e : rotationCost cs Y = rotationCost cs (fun v => block (stackOf s views Y) (idx s v)) := by
    unfold rotationCost
    congr 1
    apply List.map_congr_left
    intro c hc
    simp only
    rw [block_stackOf h hv Y ((hv.2 _).2 ⟨c, hc, Or.inl rfl⟩), block_stackOf h hv Y ((hv.2 _).2 ⟨c, hc, Or.inr rfl⟩)]
  rw [e, cost_eq h, cost_eq h]
  exact ky_fan (symmetric_comm _) hu (stackOf_orthonormal h hv hY)

/-! ## Collecting the orientations -/

theorem collect_old (svd : M3 ℝ → M3 ℝ × M3 ℝ) (ofM : M3 ℝ → V3 ℝ) (u : Fin 3 → Nat → ℝ) (v : Nat) :
    ∀ (es : List (Nat × Nat)) (o : AMap Nat (V3 ℝ)), v ∈ o.keys ∨ v ∉ es.map Prod.fst →
      (collect svd ofM u es o).get v = o.get v := by
  intro es
  induction es with
  | nil => intro o _; rfl
  | cons e es ih =>
    intro o h
    show (collect svd ofM u es _).get v = _
    rw [ih]
    · rw [AMap.get_emplace, if_neg]
      rintro ⟨rfl, hk⟩
      rcases h with h | h
      · exact hk h
      · exact h (by simp)
    · rcases h with h | h
      · exact Or.inl (AMap.mem_keys_emplace.2 (Or.inr h))
      · exact Or.inr (fun hm => h (by rw [List.map_cons]; exact List.mem_cons_of_mem _ hm))

theorem collect_new (svd : M3 ℝ → M3 ℝ × M3 ℝ) (ofM : M3 ℝ → V3 ℝ) (u : Fin 3 → Nat → ℝ) (v i : Nat) :
    ∀ (es : List (Nat × Nat)) (o : AMap Nat (V3 ℝ)), (es.map Prod.fst).Nodup → v ∉ o.keys → (v, i) ∈ es →
      (collect svd ofM u es o).get v = some (ofM (projectToRotation svd (block u i))) := by
  intro es
  induction es with
  | nil => intro o _ _ h; simp at h
  | cons e es ih =>
    intro o hn ho h
    show (collect svd ofM u es _).get v = _
    rw [List.map_cons, List.nodup_cons] at hn
    rcases List.mem_cons.1 h with rfl | h
    · rw [collect_old _ _ _ _ _ _ (Or.inr hn.1), AMap.get_emplace, if_pos ⟨rfl, ho⟩]
    · have hne : v ≠ e.1 := by
        rintro rfl
        exact hn.1 (List.mem_map.2 ⟨_, h, rfl⟩)
      apply ih _ hn.2 _ h
      rw [AMap.mem_keys_emplace]
      rintro (h1 | h1)
      · exact hne h1
      · exact ho h1

/-! ## Consistent constraints -/

theorem frobenius_nonneg (a b : M3 ℝ) : 0 ≤ frobeniusSq a b := by
  unfold frobeniusSq
  have n1 := V3.self_nonneg (a.r1.sub b.r1)
  have n2 := V3.self_nonneg (a.r2.sub b.r2)
  have n3 := V3.self_nonneg (a.r3.sub b.r3)
  linarith

theorem eq_of_frobenius {a b : M3 ℝ} (h : frobeniusSq a b ≤ 0) : a = b := by
  unfold frobeniusSq at h
  have n1 := V3.self_nonneg (a.r1.sub b.r1)
  have n2 := V3.self_nonneg (a.r2.sub b.r2)
  have n3 := V3.self_nonneg (a.r3.sub b.r3)
  exact M3.ext (V3.sub_eq_zero (V3.self_eq_zero (by linarith))) (V3.sub_eq_zero (V3.self_eq_zero (by linarith)))
    (V3.sub_eq_zero (V3.self_eq_zero (by linarith)))

theorem frobenius_self (a : M3 ℝ) : frobeniusSq a a = 0 := by simp [frobeniusSq, V3.sub, V3.dot]

theorem mul_scale (a b : M3 ℝ) (s : ℝ) : a.mul (scale s b) = scale s (a.mul b) := by
  apply M3.ext <;> apply V3.ext <;> simp only [M3.mul, scale, M3.transpose, M3.mulVec, V3.dot, V3.smul] <;> ring

theorem scale_scale (a b : ℝ) (m : M3 ℝ) : scale a (scale b m) = scale (a * b) m := by
  apply M3.ext <;> apply V3.ext <;> simp only [scale, V3.smul] <;> ring

theorem scale_one (m : M3 ℝ) : scale 1 m = m := by
  apply M3.ext <;> apply V3.ext <;> simp only [scale, V3.smul] <;> ring

theorem scale_mulVec (s : ℝ) (m : M3 ℝ) (p : V3 ℝ) : (scale s m).mulVec p = (m.mulVec p).smul s := by
  apply V3.ext <;> simp only [scale, M3.mulVec, V3.dot, V3.smul] <;> ring

/-- The projection of a positive multiple of an orthogonal matrix. -/
theorem project_scaled {svd : M3 ℝ → M3 ℝ × M3 ℝ} {O : M3 ℝ} {s : ℝ} (hs : 0 < s) (hO : IsOrthogonal O)
    (h : IsSvd (scale s O) (svd (scale s O)).1 (svd (scale s O)).2) :
    projectToRotation svd (scale s O) = if O.det < 0 then scale (-1) O else O := by
  have hW := isOrthogonal_mul h.1 (isOrthogonal_transpose h.2.1)
  have hle := nearest_orthogonal h hO
  rw [frobenius_eq hW, frobenius_eq hO] at hle
  have heq : (svd (scale s O)).1.mul (svd (scale s O)).2.transpose = O := by
    generalize (svd (scale s O)).1.mul (svd (scale s O)).2.transpose = W at hle hW
    have ht : ∀ q : M3 ℝ, tr ((scale s O).transpose.mul q) = s * tr (O.transpose.mul q) := by
      intro q
      simp only [tr, M3.mul, scale, M3.transpose, M3.mulVec, V3.dot, V3.smul]; ring
    rw [ht, ht, hO.1] at hle
    have h3 : tr M3.one = (3 : ℝ) := by simp only [tr, M3.one]; norm_num
    rw [h3] at hle
    have hge : 3 ≤ tr (O.transpose.mul W) := by
      have : s * 3 ≤ s * tr (O.transpose.mul W) := by linarith
      exact le_of_mul_le_mul_left this hs
    symm
    apply eq_of_frobenius
    have h0 : frobeniusSq O O = 0 := frobenius_self O
    rw [frobenius_eq hO, hO.1, h3] at h0
    rw [frobenius_eq hW]
    linarith
  unfold projectToRotation
  simp only [heq]

theorem cost_terms_zero {cs : List ((Nat × Nat) × V3 ℝ)} {X : Nat → M3 ℝ} (h : rotationCost cs X ≤ 0) :
    ∀ c ∈ cs, X c.1.2 = (toM c.2).mul (X c.1.1) := by
  unfold rotationCost at h
  induction cs with
  | nil => intro c hc; simp at hc
  | cons d ds ih =>
    rw [List.map_cons, List.sum_cons] at h
    have h1 := frobenius_nonneg (X d.1.2) ((toM d.2).mul (X d.1.1))
    have h2 : 0 ≤ (ds.map (fun c => frobeniusSq (X c.1.2) ((toM c.2).mul (X c.1.1)))).sum := by
      apply List.sum_nonneg
      intro x hx
      obtain ⟨c, _, rfl⟩ := List.mem_map.1 hx
      exact frobenius_nonneg _ _
    intro c hc
    rcases List.mem_cons.1 hc with rfl | hc
    · exact eq_of_frobenius (by linarith)
    · exact ih (by linarith) c hc

theorem sum_const_map (views : List Nat) (x : ℝ) : (views.map (fun _ => x)).sum = views.length * x := by
  induction views with
  | nil => simp
  | cons v vs ih => rw [List.map_cons, List.sum_cons, ih, List.length_cons]; push_cast; ring

/-- The true rotations, scaled, are orthonormal and cost nothing. -/
theorem truth_orthonormal {views : List Nat} (hn : views ≠ []) {G : Nat → M3 ℝ} (hG : ∀ v, (G v).IsRotation) :
    StackOrthonormal views (fun v => scale (Real.sqrt views.length)⁻¹ (G v)) := by
  intro p q
  have hpos : (0 : ℝ) < views.length := by
    exact_mod_cast List.length_pos_iff.2 hn
  have e : views.map (fun v => ((scale (Real.sqrt views.length)⁻¹ (G v)).mulVec p).dot
      ((scale (Real.sqrt views.length)⁻¹ (G v)).mulVec q)) = views.map (fun _ => (views.length : ℝ)⁻¹ * p.dot q) := by
    apply List.map_congr_left
    intro v _
    rw [scale_mulVec, scale_mulVec, ← (hG v).dot p q]
    have hs : (Real.sqrt views.length)⁻¹ * (Real.sqrt views.length)⁻¹ = (views.length : ℝ)⁻¹ := by
      rw [← mul_inv, Real.mul_self_sqrt hpos.le]
    rw [← hs]
    simp only [V3.dot, V3.smul]; ring
  rw [e, sum_const_map]
  field_simp

theorem truth_cost {cs : List ((Nat × Nat) × V3 ℝ)} {G : Nat → M3 ℝ} (hG : ConsistentWith cs G) (s : ℝ) :
    rotationCost cs (fun v => scale s (G v)) = 0 := by
  unfold rotationCost
  have : cs.map (fun c => frobeniusSq (scale s (G c.1.2)) ((toM c.2).mul (scale s (G c.1.1)))) = cs.map (fun _ => (0 : ℝ)) := by
    apply List.map_congr_left
    intro c hc
    rw [mul_scale, ← hG.2 c hc, frobenius_self]
  rw [this]
  simp

/-- Orthonormal matrices that cost nothing are the true rotations up to a common orthogonal matrix and the scale. -/
theorem recovered {cs : List ((Nat × Nat) × V3 ℝ)} {views : List Nat} (hn : views ≠ [])
    (hconn : ConnectedBy cs views) {G : Nat → M3 ℝ} (hG : ConsistentWith cs G) {X : Nat → M3 ℝ}
    (hX : StackOrthonormal views X) (hz : ∀ c ∈ cs, X c.1.2 = (toM c.2).mul (X c.1.1)) :
    ∃ Q, IsOrthogonal Q ∧ ∀ v ∈ views, X v = scale (Real.sqrt views.length)⁻¹ ((G v).mul Q) := by
  obtain ⟨v0, h0⟩ := List.exists_mem_of_ne_nil _ hn
  have hpos : (0 : ℝ) < views.length := by
    exact_mod_cast List.length_pos_iff.2 hn
  have hs : 0 < Real.sqrt (views.length : ℝ) := Real.sqrt_pos.2 hpos
  have hstep : ∀ a b, (∃ r, ((a, b), r) ∈ cs) → (G a).transpose.mul (X a) = (G b).transpose.mul (X b) := by
    rintro a b ⟨r, hr⟩
    have e1 : G b = (toM r).mul (G a) := hG.2 _ hr
    have e2 : X b = (toM r).mul (X a) := hz _ hr
    rw [e1, e2, M3.transpose_mul, M3.mul_assoc, ← M3.mul_assoc (toM r).transpose, (isRotation_toM r).left, M3.one_mul]
  have hall : ∀ a b, Relation.EqvGen (fun a b => ∃ r, ((a, b), r) ∈ cs) a b →
      (G a).transpose.mul (X a) = (G b).transpose.mul (X b) := by
    intro a b h
    induction h with
    | rel a b h => exact hstep a b h
    | refl a => rfl
    | symm a b _ ih => exact ih.symm
    | trans a b c _ _ i1 i2 => exact i1.trans i2
  have hX' : ∀ v ∈ views, X v = (G v).mul ((G v0).transpose.mul (X v0)) := by
    intro v hv
    rw [hall v0 v (hconn v0 h0 v hv), ← M3.mul_assoc, (hG.1 v).right, M3.one_mul]
  generalize (G v0).transpose.mul (X v0) = Y at hX'
  refine ⟨scale (Real.sqrt views.length) Y, ?_, ?_⟩
  · apply Svd.orthogonal_of_dot
    intro p q
    have h := hX p q
    have e : views.map (fun v => ((X v).mulVec p).dot ((X v).mulVec q)) =
        views.map (fun _ => (Y.mulVec p).dot (Y.mulVec q)) := by
      apply List.map_congr_left
      intro v hv
      rw [hX' v hv, M3.mulVec_mul, M3.mulVec_mul, (hG.1 v).dot]
    rw [e, sum_const_map] at h
    rw [scale_mulVec, scale_mulVec, ← h]
    have hsq := Real.mul_self_sqrt hpos.le
    simp only [V3.dot, V3.smul]
    linear_combination ((Y.mulVec p).x * (Y.mulVec q).x + (Y.mulVec p).y * (Y.mulVec q).y +
      (Y.mulVec p).z * (Y.mulVec q).z) * hsq
  · intro v hv
    rw [hX' v hv, mul_scale, scale_scale, inv_mul_cancel₀ hs.ne', scale_one]

end LinearRotation
end Theia
