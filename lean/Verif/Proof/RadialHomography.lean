import Mathlib.Algebra.BigOperators.Fin
import Mathlib.Tactic.Linarith
import Mathlib.Tactic.FieldSimp
import Mathlib.Tactic.LinearCombination
import Verif.Proof.LastSingular
import Verif.Proof.LinearSolvers
import Verif.Proof.CameraLenses
import Verif.Spec.RadialHomography

/-!
# Lemmas about homographies with radial distortion
-/

namespace Theia
namespace RadialHomography

open CameraModels Spec LinearSolvers

theorem sum_rowM (p : V2 × V2) (v : Fin 8 → ℝ) : ∑ i, rowM p i * v i = lineConstraint v p.1 p.2 := by
  simp only [Fin.sum_univ_eight, rowM, lineConstraint, squared, Matrix.cons_val]
  ring

theorem sum_rowT (n : Fin 8 → ℝ) (l2 : ℝ) (p : V2 × V2) (v : Fin 5 → ℝ) :
    ∑ i, rowT n l2 p i * v i = depthConstraint ⟨n 0, n 1, n 2⟩ l2 v p.1 p.2 := by
  simp only [Fin.sum_univ_five, rowT, depthConstraint, squared, lensRay, V3.dot, Matrix.cons_val]
  ring

/-! ### Singular vectors -/

/-- The last singular vector is the shortest for its length. -/
theorem last_min {n : Nat} {last : List (Fin n → ℝ) → Fin n → ℝ} (h : LastSingularVector last) (A : List (Fin n → ℝ))
    (v : Fin n → ℝ) : imageSq A (last A) * ∑ i, v i ^ 2 ≤ imageSq A v := by
  have hs : 0 ≤ ∑ i, v i ^ 2 := Finset.sum_nonneg fun _ _ => sq_nonneg _
  rcases hs.eq_or_lt with h0 | h0
  · rw [← h0, mul_zero]
    exact imageSq_nonneg _ _
  · have hq := Real.sqrt_pos.2 h0
    have h1 := (h A).2 ((Real.sqrt (∑ i, v i ^ 2))⁻¹ • v) (by
      simp only [Pi.smul_apply, smul_eq_mul, mul_pow, ← Finset.mul_sum]
      rw [inv_pow, Real.sq_sqrt hs, inv_mul_cancel₀ h0.ne'])
    have h2 : imageSq A (last A) ≤ imageSq A ((Real.sqrt (∑ i, v i ^ 2))⁻¹ • v) := h1
    rw [imageSq_smul, inv_pow, Real.sq_sqrt hs, inv_mul_eq_div, le_div_iff₀ h0] at h2
    exact h2

theorem last_kernel {n : Nat} {last : List (Fin n → ℝ) → Fin n → ℝ} (h : LastSingularVector last) (A : List (Fin n → ℝ))
    {v : Fin n → ℝ} (hv : 0 < ∑ i, v i ^ 2) (h0 : ∀ r ∈ A, ∑ i, r i * v i = 0) : ∀ r ∈ A, ∑ i, r i * last A i = 0 := by
  have h1 := last_min h A v
  rw [(imageSq_eq_zero A v).2 h0] at h1
  have h2 := imageSq_nonneg A (last A)
  exact (imageSq_eq_zero A _).1 (le_antisymm (by nlinarith) h2)

/-- Two vectors as wanted exist. -/
theorem exists_lastTwo : ∃ last2 : List (Fin 8 → ℝ) → Fin 2 → Fin 8 → ℝ, LastTwoVectors last2 := by
  have key : ∀ A : List (Fin 8 → ℝ), ∃ V : Fin 2 → Fin 8 → ℝ, A.length ≤ 6 →
      LinearIndependent ℝ V ∧ ∀ r ∈ A, ∀ k, ∑ i, r i * V k i = 0 := by
    intro A
    by_cases hA : A.length ≤ 6
    · let f : (Fin 8 → ℝ) →ₗ[ℝ] (Fin A.length → ℝ) := Matrix.mulVecLin (Matrix.of fun i j => A.get i j)
      have hr := LinearMap.finrank_range_add_finrank_ker f
      have h1 : Module.finrank ℝ (LinearMap.range f) ≤ A.length := by
        have := Submodule.finrank_le (LinearMap.range f)
        simpa using this
      rw [Module.finrank_fin_fun] at hr
      have h2 : 2 ≤ Module.finrank ℝ (LinearMap.ker f) := by omega
      let b := Module.finBasis ℝ (LinearMap.ker f)
      refine ⟨fun k => (b (Fin.castLE h2 k) : Fin 8 → ℝ), fun _ => ⟨?_, ?_⟩⟩
      · have := b.linearIndependent.map' (LinearMap.ker f).subtype (Submodule.ker_subtype _)
        exact this.comp _ (Fin.castLE_injective h2)
      · intro r hr' k
        obtain ⟨i, rfl⟩ := List.get_of_mem hr'
        have := congrFun (LinearMap.mem_ker.1 (b (Fin.castLE h2 k)).2) i
        exact this
    · exact ⟨fun _ _ => 0, fun h => absurd h hA⟩
  choose V hV using key
  exact ⟨V, fun A h => hV A h⟩

theorem exists_lastTwo_with (A : List (Fin 8 → ℝ)) (V : Fin 2 → Fin 8 → ℝ) (h1 : LinearIndependent ℝ V)
    (h2 : ∀ r ∈ A, ∀ k, ∑ i, r i * V k i = 0) :
    ∃ last2 : List (Fin 8 → ℝ) → Fin 2 → Fin 8 → ℝ, LastTwoVectors last2 ∧ last2 A = V := by
  classical
  obtain ⟨l, hl⟩ := exists_lastTwo
  refine ⟨fun A' => if A' = A then V else l A', fun A' h => ?_, if_pos rfl⟩
  by_cases hA : A' = A
  · simp only [if_pos hA]
    rw [hA]
    exact ⟨h1, h2⟩
  · simp only [if_neg hA]
    exact hl A' h

/-! ### The solver -/

theorem candidate_some {last5 pts lmin lmax n c} (h : candidate last5 pts lmin lmax n = .ok (some c)) :
    n 2 ≠ 0 ∧ c.l2 = n 6 / n 2 ∧ lmin ≤ c.l2 ∧ c.l2 ≤ lmax ∧ lmin ≤ c.l1 ∧ c.l1 ≤ lmax ∧
      c.H.r1 = ⟨n 0, n 1, n 2⟩ ∧ c.H.r2 = ⟨n 3, n 4, n 5⟩ ∧
      ∃ v : Fin 5 → ℝ, v = last5 (pts.map (rowT n c.l2)) ∧ v 4 ≠ 0 ∧
        v = v 4 • ![c.H.r3.x, c.H.r3.y, c.H.r3.z, c.l1, 1] := by
  unfold candidate at h
  by_cases h0 : n 2 = 0
  · simp [h0] at h
  simp only [if_neg h0] at h
  by_cases h1 : n 6 / n 2 < lmin ∨ n 6 / n 2 > lmax
  · simp [h1] at h
  simp only [if_neg h1] at h
  by_cases h2 : last5 (pts.map (rowT n (n 6 / n 2))) 4 = 0
  · simp [h2] at h
  simp only [if_neg h2] at h
  split at h
  · simp at h
  rename_i h3
  simp only [Outcome.ok.injEq, Option.some.injEq] at h
  subst h
  push Not at h1 h3
  refine ⟨h0, rfl, h1.1, h1.2, h3.1, h3.2, rfl, rfl, _, rfl, h2, ?_⟩
  funext i
  fin_cases i <;> simp [mul_div_cancel₀ _ h2]

theorem candidate_ok {last5 pts lmin lmax n o} (h : candidate last5 pts lmin lmax n = .ok o) :
    n 2 ≠ 0 ∧ (o = none → (lmin ≤ n 6 / n 2 ∧ n 6 / n 2 ≤ lmax) →
      last5 (pts.map (rowT n (n 6 / n 2))) 4 ≠ 0 ∧
        ¬(lmin ≤ last5 (pts.map (rowT n (n 6 / n 2))) 3 / last5 (pts.map (rowT n (n 6 / n 2))) 4 ∧
          last5 (pts.map (rowT n (n 6 / n 2))) 3 / last5 (pts.map (rowT n (n 6 / n 2))) 4 ≤ lmax)) := by
  unfold candidate at h
  by_cases h0 : n 2 = 0
  · simp [h0] at h
  refine ⟨h0, fun ho hr => ?_⟩
  simp only [if_neg h0] at h
  rw [if_neg (by push Not; exact hr)] at h
  by_cases h2 : last5 (pts.map (rowT n (n 6 / n 2))) 4 = 0
  · simp [h2] at h
  refine ⟨h2, fun hr2 => ?_⟩
  simp only [if_neg h2] at h
  rw [if_neg (by push Not; exact hr2)] at h
  rw [ho] at h
  simp at h

theorem collect_ok {last5 pts lmin lmax v w} : ∀ {rs : List ℝ} {results res : List Result},
    collect last5 pts lmin lmax v w rs results = .ok res → ∃ new, res = results ++ new ∧ new.length ≤ rs.length ∧
      (∀ c ∈ new, ∃ r ∈ rs, candidate last5 pts lmin lmax (fun i => r * v i + w i) = .ok (some c)) ∧
      ∀ r ∈ rs, ∃ o, candidate last5 pts lmin lmax (fun i => r * v i + w i) = .ok o ∧ ∀ c, o = some c → c ∈ new
  | [], results, res, h => by
    simp only [collect, Outcome.ok.injEq] at h
    exact ⟨[], by simp [h], by simp, by simp, by simp⟩
  | r :: rs, results, res, h => by
    simp only [collect] at h
    split at h
    · rename_i h1
      obtain ⟨new, e, hl, ha, hb⟩ := collect_ok h
      refine ⟨new, e, by simp; omega, fun c hc => ?_, fun r' hr' => ?_⟩
      · obtain ⟨r', hr', hc'⟩ := ha c hc
        exact ⟨r', List.mem_cons_of_mem _ hr', hc'⟩
      · rcases List.mem_cons.1 hr' with rfl | hr'
        · exact ⟨none, h1, by simp⟩
        · exact hb r' hr'
    · rename_i c h1
      obtain ⟨new, e, hl, ha, hb⟩ := collect_ok h
      refine ⟨c :: new, by simp [e], by simp; omega, fun c' hc => ?_, fun r' hr' => ?_⟩
      · rcases List.mem_cons.1 hc with rfl | hc
        · exact ⟨r, List.mem_cons_self, h1⟩
        · obtain ⟨r', hr', hc'⟩ := ha c' hc
          exact ⟨r', List.mem_cons_of_mem _ hr', hc'⟩
      · rcases List.mem_cons.1 hr' with rfl | hr'
        · exact ⟨some c, h1, by rintro c' ⟨⟩; exact List.mem_cons_self⟩
        · obtain ⟨o, ho, hm⟩ := hb r' hr'
          exact ⟨o, ho, fun c' h' => List.mem_cons_of_mem _ (hm c' h')⟩
    · cases h
    · cases h

/-- The root is one of the quadratic. -/
def IsRoot (q : ℝ × ℝ × ℝ) (r : ℝ) : Prop := q.1 * r ^ 2 + q.2.1 * r + q.2.2 = 0

theorem root_sq {q : ℝ × ℝ × ℝ} {r : ℝ} (h : IsRoot q r) : (2 * q.1 * r + q.2.1) ^ 2 = discriminant q := by
  unfold IsRoot at h
  unfold discriminant
  linear_combination 4 * q.1 * h

theorem roots_some {eps : ℝ} {q : ℝ × ℝ × ℝ} {rs : List ℝ} (h : roots eps q = .ok (some rs)) :
    q.1 ≠ 0 ∧ rs.length ≤ 2 ∧ ((discriminant q = 0 ∨ ¬NearZero eps (discriminant q)) →
      ∀ r, r ∈ rs ↔ IsRoot q r) := by
  unfold roots at h
  simp only at h
  have back : ∀ r, q.1 ≠ 0 → (2 * q.1 * r + q.2.1) ^ 2 = discriminant q → IsRoot q r := by
    intro r ha hr
    unfold discriminant at hr
    unfold IsRoot
    have : 4 * q.1 * (q.1 * r ^ 2 + q.2.1 * r + q.2.2) = 0 := by linear_combination hr
    rcases mul_eq_zero.1 this with h' | h'
    · exact absurd (by linarith) ha
    · exact h'
  by_cases hn : NearZero eps (discriminant q)
  · rw [if_pos hn] at h
    by_cases ha : q.1 = 0
    · simp [ha] at h
    rw [if_neg ha] at h
    simp only [Outcome.ok.injEq, Option.some.injEq] at h
    subst h
    refine ⟨ha, by simp, fun hd r => ?_⟩
    have hd : discriminant q = 0 := hd.resolve_right (fun h => h hn)
    simp only [List.mem_singleton]
    constructor
    · rintro rfl
      refine back _ ha ?_
      rw [hd]
      field_simp
      ring
    · intro hr
      have := root_sq hr
      rw [hd] at this
      have := pow_eq_zero_iff (two_ne_zero) |>.1 this
      rw [eq_div_iff (by simpa using ha)]
      linarith
  · rw [if_neg hn] at h
    by_cases hd : discriminant q > 0
    swap
    · rw [if_neg hd] at h
      simp at h
    rw [if_pos hd] at h
    by_cases ha : q.1 = 0
    · simp [ha] at h
    rw [if_neg ha] at h
    simp only [Outcome.ok.injEq, Option.some.injEq] at h
    subst h
    refine ⟨ha, by simp, fun _ r => ?_⟩
    have hs := Real.sq_sqrt hd.le
    have h2a : 2 * q.1 ≠ 0 := by simpa using ha
    simp only [List.mem_cons, List.not_mem_nil, or_false]
    constructor
    · rintro (rfl | rfl)
      · refine back _ ha ?_
        rw [mul_div_cancel₀ _ h2a]
        linear_combination hs
      · refine back _ ha ?_
        rw [mul_div_cancel₀ _ h2a]
        linear_combination hs
    · intro hr
      have := root_sq hr
      rw [← hs] at this
      rcases sq_eq_sq_iff_eq_or_eq_neg.1 this with h' | h'
      · left
        rw [eq_div_iff h2a]
        linarith
      · right
        rw [eq_div_iff h2a]
        linarith

theorem roots_none {eps : ℝ} (he : 0 < eps) {q : ℝ × ℝ × ℝ} (h : roots eps q = .ok none) (r : ℝ) : ¬IsRoot q r := by
  intro hr
  have h1 := root_sq hr
  have h2 := sq_nonneg (2 * q.1 * r + q.2.1)
  rw [h1] at h2
  unfold roots at h
  simp only at h
  by_cases hn : NearZero eps (discriminant q)
  · rw [if_pos hn] at h
    split at h <;> simp at h
  · rw [if_neg hn] at h
    by_cases hd : discriminant q > 0
    · rw [if_pos hd] at h
      split at h <;> simp at h
    · apply hn
      have : discriminant q = 0 := le_antisymm (not_lt.1 hd) h2
      rw [NearZero, this]
      constructor <;> linarith

/-- With a quadratic that is not degenerate a first column that is a solution cannot happen. -/
theorem isRoot_iff (v w : Fin 8 → ℝ) (r : ℝ) : IsRoot (quadratic v w) r ↔
    (r * v 5 + w 5) * (r * v 6 + w 6) = (r * v 2 + w 2) * (r * v 7 + w 7) := by
  unfold IsRoot quadratic
  constructor <;> intro h <;> linear_combination h

theorem sixPoint_ok {eps last2 last5 left right results lmin lmax b res}
    (h : sixPoint eps last2 last5 left right results lmin lmax = .ok (b, res)) :
    6 ≤ left.length ∧ 6 ≤ right.length ∧ ∃ V : Fin 2 → Fin 8 → ℝ, V = last2 (((left.zip right).take 6).map rowM) ∧
      ((b = false ∧ res = results ∧ roots eps (quadratic (V 0) (V 1)) = .ok none) ∨
        (b = true ∧ ∃ rs, roots eps (quadratic (V 0) (V 1)) = .ok (some rs) ∧
          collect last5 ((left.zip right).take 6) lmin lmax (V 0) (V 1) rs results = .ok res)) := by
  unfold sixPoint at h
  by_cases hl : left.length < 6 ∨ right.length < 6
  · simp [hl] at h
  rw [if_neg hl] at h
  push Not at hl
  refine ⟨hl.1, hl.2, _, rfl, ?_⟩
  simp only at h
  split at h
  · rename_i h1
    simp only [Outcome.ok.injEq, Prod.mk.injEq] at h
    exact Or.inl ⟨h.1.symm, h.2.symm, h1⟩
  · rename_i rs h1
    split at h
    · rename_i r h2
      simp only [Outcome.ok.injEq, Prod.mk.injEq] at h
      exact Or.inr ⟨h.1.symm, rs, h1, by rw [h2, h.2]⟩
    · cases h
    · cases h
  · cases h
  · cases h

/-- The results that are new, and the roots they come from. -/
theorem sixPoint_new {eps last2 last5 left right results lmin lmax b res}
    (h : sixPoint eps last2 last5 left right results lmin lmax = .ok (b, res)) :
    ∃ V : Fin 2 → Fin 8 → ℝ, V = last2 (((left.zip right).take 6).map rowM) ∧ ∃ new, res = results ++ new ∧ new.length ≤ 2 ∧
      (b = false → new = []) ∧
      ∀ c ∈ new, ∃ rs, ∃ r ∈ rs, roots eps (quadratic (V 0) (V 1)) = .ok (some rs) ∧
        candidate last5 ((left.zip right).take 6) lmin lmax (fun i => r * V 0 i + V 1 i) = .ok (some c) := by
  obtain ⟨-, -, V, hV, ⟨hb, hr, -⟩ | ⟨hb, rs, hrs, hc⟩⟩ := sixPoint_ok h
  · exact ⟨V, hV, [], by simp [hr], by simp, fun _ => rfl, by simp⟩
  · obtain ⟨new, e, hl, ha, -⟩ := collect_ok hc
    refine ⟨V, hV, new, e, hl.trans (roots_some hrs).2.1, by simp [hb], fun c hc => ?_⟩
    obtain ⟨r, hr, hcand⟩ := ha c hc
    exact ⟨rs, r, hr, hrs, hcand⟩

theorem kernel_combination {last2 : List (Fin 8 → ℝ) → Fin 2 → Fin 8 → ℝ} (h2 : LastTwoVectors last2) {pts : List (V2 × V2)}
    (hl : pts.length ≤ 6) (s t : ℝ) {p : V2 × V2} (hp : p ∈ pts) :
    lineConstraint (s • last2 (pts.map rowM) 0 + t • last2 (pts.map rowM) 1) p.1 p.2 = 0 := by
  have h := (h2 (pts.map rowM) (by simpa using hl)).2 (rowM p) (List.mem_map_of_mem hp)
  have e : ∀ v w : Fin 8 → ℝ, lineConstraint (s • v + t • w) p.1 p.2 = s * lineConstraint v p.1 p.2 + t * lineConstraint w p.1 p.2 := by
    intro v w
    simp only [lineConstraint, Pi.add_apply, Pi.smul_apply, smul_eq_mul]
    ring
  rw [e, ← sum_rowM, ← sum_rowM, h 0, h 1]
  ring

/-- Two independent vectors of a space spanned by two span it. -/
theorem span_two {V : Fin 2 → Fin 8 → ℝ} (hV : LinearIndependent ℝ V) {e f : Fin 8 → ℝ}
    {P : (Fin 8 → ℝ) → Prop} (hP : ∀ v, P v → ∃ s t : ℝ, v = s • e + t • f) (h0 : P (V 0)) (h1 : P (V 1)) {n : Fin 8 → ℝ}
    (hn : P n) : ∃ s t : ℝ, n = s • V 0 + t • V 1 := by
  obtain ⟨a, b, h0⟩ := hP _ h0
  obtain ⟨c, d, h1⟩ := hP _ h1
  obtain ⟨s, t, hn⟩ := hP _ hn
  have hV' := LinearIndependent.pair_iff.1 (show LinearIndependent ℝ ![V 0, V 1] by
    have : V = ![V 0, V 1] := by funext k; fin_cases k <;> rfl
    rwa [this] at hV)
  have hd : a * d - b * c ≠ 0 := by
    intro hd
    have k1 := hV' d (-b) (by
      rw [h0, h1]
      funext i
      simp only [Pi.add_apply, Pi.smul_apply, smul_eq_mul, Pi.zero_apply]
      linear_combination e i * hd)
    have k2 := hV' c (-a) (by
      rw [h0, h1]
      funext i
      simp only [Pi.add_apply, Pi.smul_apply, smul_eq_mul, Pi.zero_apply]
      linear_combination -f i * hd)
    have ha : a = 0 := by linarith [k2.2]
    have hb : b = 0 := by linarith [k1.2]
    have := hV' 1 0 (by rw [h0, ha, hb]; simp)
    exact one_ne_zero this.1
  refine ⟨(s * d - t * c) / (a * d - b * c), (t * a - s * b) / (a * d - b * c), ?_⟩
  rw [hn, h0, h1]
  funext i
  simp only [Pi.add_apply, Pi.smul_apply, smul_eq_mul]
  rw [div_mul_eq_mul_div, div_mul_eq_mul_div, ← add_div, eq_div_iff hd]
  ring

/-- The vector the first stage looks for. -/
noncomputable def firstRows (H : M3 ℝ) (l2 : ℝ) : Fin 8 → ℝ :=
  ![H.r1.x, H.r1.y, H.r1.z, H.r2.x, H.r2.y, H.r2.z, H.r1.z * l2, H.r2.z * l2]

theorem line_of_mapsOnto {H : M3 ℝ} {l1 l2 : ℝ} {x u : V2} (h : MapsOnto H l1 l2 x u) : lineConstraint (firstRows H l2) x u = 0 := by
  have := congrArg V3.z h
  simp only [V3.cross, V3.zero, M3.mulVec, lensRay, V3.dot] at this
  simp only [lineConstraint, firstRows, Matrix.cons_val]
  linear_combination -this

/-- If the pairs determine the space, the call does not end without having tried the rows of the homography. -/
theorem tried {eps : ℝ} (he : 0 < eps) {last2 : List (Fin 8 → ℝ) → Fin 2 → Fin 8 → ℝ} (h2 : LastTwoVectors last2)
    {last5 : List (Fin 5 → ℝ) → Fin 5 → ℝ} {left right : List V2} {results res : List Result} {lmin lmax : ℝ} {b : Bool}
    (h : sixPoint eps last2 last5 left right results lmin lmax = .ok (b, res)) {V : Fin 2 → Fin 8 → ℝ}
    (hV : V = last2 (((left.zip right).take 6).map rowM))
    (hd : discriminant (quadratic (V 0) (V 1)) = 0 ∨ ¬NearZero eps (discriminant (quadratic (V 0) (V 1)))) {H : M3 ℝ} {l1 l2 : ℝ}
    (hH : ∀ p ∈ (left.zip right).take 6, MapsOnto H l1 l2 p.1 p.2) (hne : firstRows H l2 ≠ 0)
    (hdet : ∃ e f : Fin 8 → ℝ, ∀ v, (∀ p ∈ (left.zip right).take 6, lineConstraint v p.1 p.2 = 0) → ∃ s t : ℝ, v = s • e + t • f) :
    b = true ∧ ∃ t : ℝ, t ≠ 0 ∧ ∃ n : Fin 8 → ℝ, n = t⁻¹ • firstRows H l2 ∧
      ∃ o, candidate last5 ((left.zip right).take 6) lmin lmax n = .ok o ∧ ∀ c, o = some c → c ∈ res.drop results.length := by
  obtain ⟨e, f, hdet⟩ := hdet
  have hlen : ((left.zip right).take 6).length ≤ 6 := by simp
  have hk : ∀ s t : ℝ, ∀ p ∈ (left.zip right).take 6, lineConstraint (s • V 0 + t • V 1) p.1 p.2 = 0 := by
    intro s t p hp
    rw [hV]
    exact kernel_combination h2 hlen s t hp
  obtain ⟨s, t, hst⟩ := span_two (V := V) (by rw [hV]; exact (h2 _ (by simp)).1) hdet
    (fun p hp => by simpa using hk 1 0 p hp) (fun p hp => by simpa using hk 0 1 p hp)
    (n := firstRows H l2) (fun p hp => line_of_mapsOnto (hH p hp))
  have hq : (s * V 0 5 + t * V 1 5) * (s * V 0 6 + t * V 1 6) = (s * V 0 2 + t * V 1 2) * (s * V 0 7 + t * V 1 7) := by
    have k : ∀ i, s * V 0 i + t * V 1 i = firstRows H l2 i := fun i => by rw [hst]; simp
    rw [k, k, k, k]
    simp only [firstRows, Matrix.cons_val]
    ring
  obtain ⟨-, -, V', hV', hcase⟩ := sixPoint_ok h
  obtain rfl : V' = V := hV'.trans hV.symm
  have ht : (∃ rs, roots eps (quadratic (V' 0) (V' 1)) = .ok (some rs)) → t ≠ 0 := by
    rintro ⟨rs, hrs⟩ rfl
    have ha := (roots_some hrs).1
    have hs : s ≠ 0 := by
      rintro rfl
      apply hne
      rw [hst]
      simp
    apply ha
    simp only [quadratic]
    have : s * s * (V' 0 5 * V' 0 6 - V' 0 2 * V' 0 7) = 0 := by linear_combination hq
    rcases mul_eq_zero.1 this with h' | h'
    · exact absurd (mul_self_eq_zero.1 h') hs
    · linarith
  have hroot : t ≠ 0 → IsRoot (quadratic (V' 0) (V' 1)) (s / t) := by
    intro ht
    rw [isRoot_iff]
    have k : ∀ i, s / t * V' 0 i + V' 1 i = (s * V' 0 i + t * V' 1 i) / t := fun i => by field_simp
    rw [k, k, k, k, div_mul_div_comm, div_mul_div_comm, hq]
  rcases hcase with ⟨-, -, hnone⟩ | ⟨hb, rs, hrs, hc⟩
  · exfalso
    by_cases ht0 : t = 0
    · -- then the first coefficient vanishes and the call does not end
      have hs : s ≠ 0 := by
        rintro rfl
        apply hne
        rw [hst, ht0]
        simp
      subst ht0
      have ha : (quadratic (V' 0) (V' 1)).1 = 0 := by
        simp only [quadratic]
        have : s * s * (V' 0 5 * V' 0 6 - V' 0 2 * V' 0 7) = 0 := by linear_combination hq
        rcases mul_eq_zero.1 this with h' | h'
        · exact absurd (mul_self_eq_zero.1 h') hs
        · linarith
      unfold roots at hnone
      simp only at hnone
      by_cases hn : NearZero eps (discriminant (quadratic (V' 0) (V' 1)))
      · rw [if_pos hn, if_pos ha] at hnone
        cases hnone
      · rw [if_neg hn] at hnone
        by_cases hpos : discriminant (quadratic (V' 0) (V' 1)) > 0
        · rw [if_pos hpos, if_pos ha] at hnone
          cases hnone
        · apply hn
          have h1 : discriminant (quadratic (V' 0) (V' 1)) = (quadratic (V' 0) (V' 1)).2.1 ^ 2 := by
            unfold discriminant
            rw [ha]
            ring
          have h2 := sq_nonneg (quadratic (V' 0) (V' 1)).2.1
          have : discriminant (quadratic (V' 0) (V' 1)) = 0 := by linarith
          rw [NearZero, this]
          constructor <;> linarith
    · exact roots_none he hnone _ (hroot ht0)
  · have ht0 := ht ⟨rs, hrs⟩
    obtain ⟨new, e', -, -, hall⟩ := collect_ok hc
    obtain ⟨o, ho, hm⟩ := hall (s / t) (((roots_some hrs).2.2 hd _).2 (hroot ht0))
    refine ⟨hb, t, ht0, _, rfl, o, ?_, ?_⟩
    · rw [← ho]
      congr 1
      rw [hst]
      funext i
      simp only [Pi.smul_apply, Pi.add_apply, smul_eq_mul]
      field_simp
    · rw [e', List.drop_left]
      exact hm

/-! ### The error -/

theorem divide_ok {a b c : ℝ} (h : divide a b = .ok c) : b ≠ 0 ∧ c = a / b := by
  unfold divide at h
  by_cases hb : b = 0
  · simp [hb] at h
  · rw [if_neg hb] at h
    simp only [Outcome.ok.injEq] at h
    exact ⟨hb, h.symm⟩

theorem divide_of {a b : ℝ} (h : b ≠ 0) : divide a b = .ok (a / b) := if_neg h

/-- What distorting does with a parameter that is not positive: the point is scaled such that undistorting undoes it. -/
theorem distort_scale {eps l f a b : ℝ} (he : 0 < eps) (hl : l ≤ 0) (hf : f ≠ 0) (hr : LensResolves eps l a b) :
    ∃ D : ℝ, 0 < D ∧ divisionDistort eps (l / (f * f)) (f * a, f * b) = (f * a * D, f * b * D) ∧
      1 + l * ((a * D) ^ 2 + (b * D) ^ 2) = D := by
  have e : l / (f * f) * (f * a * (f * a) + f * b * (f * b)) = l * (a ^ 2 + b ^ 2) := by
    field_simp
  have e2 : 2 * (l / (f * f)) * (f * a * (f * a) + f * b * (f * b)) = 2 * l * (a ^ 2 + b ^ 2) := by
    linear_combination 2 * e
  rcases hr with h0 | h0
  · refine ⟨1, one_pos, ?_, by rw [mul_one, mul_one, h0, add_zero]⟩
    unfold divisionDistort
    simp only
    rw [divisionScale_tiny (by rw [e2, mul_assoc, h0]; simpa using he)]
  · have hq0 : 0 ≤ 1 - 4 * (l * (a ^ 2 + b ^ 2)) := by nlinarith [sq_nonneg a, sq_nonneg b]
    have hq := Real.sqrt_nonneg (1 - 4 * (l * (a ^ 2 + b ^ 2)))
    have hs := Real.sq_sqrt hq0
    refine ⟨2 / (1 + Real.sqrt (1 - 4 * (l * (a ^ 2 + b ^ 2)))), by positivity, ?_, ?_⟩
    · unfold divisionDistort
      simp only
      rw [divisionScale_ok (q := Real.sqrt (1 - 4 * (l * (a ^ 2 + b ^ 2)))) (by rw [e2]; exact not_lt.2 h0) he hq (by
        rw [hs]; linear_combination -4 * e)]
    · have := division_distorted (k := l) (x := a) (y := b) hq (by rw [hs]; ring)
      linear_combination this

/-- The scale is determined. -/
theorem scale_unique {l a b D D' : ℝ} (hl : l ≤ 0) (h : 0 < D) (h' : 0 < D') (e : 1 + l * ((a * D) ^ 2 + (b * D) ^ 2) = D)
    (e' : 1 + l * ((a * D') ^ 2 + (b * D') ^ 2) = D') : D = D' := by
  have k : (D - D') * (1 - l * (a ^ 2 + b ^ 2) * (D + D')) = 0 := by linear_combination e' - e
  rcases mul_eq_zero.1 k with k | k
  · linarith
  · have : l * (a ^ 2 + b ^ 2) * (D + D') ≤ 0 :=
      mul_nonpos_of_nonpos_of_nonneg (mul_nonpos_of_nonpos_of_nonneg hl (by positivity)) (by linarith)
    linarith

theorem undistortPoint_ok {p : V2} {f k : ℝ} {b : V3 ℝ} (h : undistortPoint p f k = .ok b) :
    f ≠ 0 ∧ 1 + k * squared p ≠ 0 ∧ b = ⟨p.1 / f / (1 + k * squared p), p.2 / f / (1 + k * squared p), 1⟩ := by
  simp only [undistortPoint, Outcome.bind_eq_ok] at h
  obtain ⟨s, hs, x, hx, y, hy, h⟩ := h
  obtain ⟨h0, rfl⟩ := divide_ok hs
  obtain ⟨hf, rfl⟩ := divide_ok hx
  obtain ⟨-, rfl⟩ := divide_ok hy
  simp only [Outcome.ok.injEq] at h
  refine ⟨hf, h0, ?_⟩
  rw [← h]
  apply V3.ext <;> simp only
  · field_simp
  · field_simp

/-- What is known when the error is computed: the points in the other image and the error. -/
theorem symmetricError_ok {eps : ℝ} {m : Result} {x u : V2} {f1 f2 e : ℝ}
    (h : symmetricError eps m (f1 * x.1, f1 * x.2) (f2 * u.1, f2 * u.2) f1 f2 = .ok e) :
    f1 ≠ 0 ∧ f2 ≠ 0 ∧ m.H.det ≠ 0 ∧ 1 + m.l1 * (x.1 ^ 2 + x.2 ^ 2) ≠ 0 ∧ 1 + m.l2 * (u.1 ^ 2 + u.2 ^ 2) ≠ 0 ∧
      ∃ a b s c d t : ℝ, s ≠ 0 ∧ t ≠ 0 ∧ m.H.mulVec (lensRay m.l2 u) = ⟨s * a, s * b, s⟩ ∧
        (inverse m.H).mulVec (lensRay m.l1 x) = ⟨t * c, t * d, t⟩ ∧
        ∃ p q : V2, p = divisionDistort eps (m.l1 / (f1 * f1)) (f1 * a, f1 * b) ∧
          q = divisionDistort eps (m.l2 / (f2 * f2)) (f2 * c, f2 * d) ∧
          e = 1 / 2 * (squared (f1 * x.1 - p.1, f1 * x.2 - p.2) + squared (f2 * u.1 - q.1, f2 * u.2 - q.2)) := by
  simp only [symmetricError, Outcome.bind_eq_ok] at h
  obtain ⟨k1, hk1, k2, hk2, b1, hb1, b2, hb2, r21, hr21, inv, hinv, r12, hr12, p, hp, q, hq, h⟩ := h
  obtain ⟨-, rfl⟩ := divide_ok hk1
  obtain ⟨-, rfl⟩ := divide_ok hk2
  obtain ⟨hf1, hd1, rfl⟩ := undistortPoint_ok hb1
  obtain ⟨hf2, hd2, rfl⟩ := undistortPoint_ok hb2
  have e1 : m.l1 / (f1 * f1) * squared (f1 * x.1, f1 * x.2) = m.l1 * (x.1 ^ 2 + x.2 ^ 2) := by
    unfold squared
    field_simp
  have e2 : m.l2 / (f2 * f2) * squared (f2 * u.1, f2 * u.2) = m.l2 * (u.1 ^ 2 + u.2 ^ 2) := by
    unfold squared
    field_simp
  rw [e1] at hd1
  rw [e2] at hd2
  have c1 : (⟨(f1 * x.1) / f1 / (1 + m.l1 / (f1 * f1) * squared (f1 * x.1, f1 * x.2)),
      (f1 * x.2) / f1 / (1 + m.l1 / (f1 * f1) * squared (f1 * x.1, f1 * x.2)), 1⟩ : V3 ℝ) =
      (lensRay m.l1 x).smul (1 + m.l1 * (x.1 ^ 2 + x.2 ^ 2))⁻¹ := by
    rw [e1, mul_div_cancel_left₀ _ hf1, mul_div_cancel_left₀ _ hf1]
    apply V3.ext <;> simp only [lensRay, V3.smul]
    · rw [div_eq_inv_mul]
    · rw [div_eq_inv_mul]
    · rw [inv_mul_cancel₀ hd1]
  have c2 : (⟨(f2 * u.1) / f2 / (1 + m.l2 / (f2 * f2) * squared (f2 * u.1, f2 * u.2)),
      (f2 * u.2) / f2 / (1 + m.l2 / (f2 * f2) * squared (f2 * u.1, f2 * u.2)), 1⟩ : V3 ℝ) =
      (lensRay m.l2 u).smul (1 + m.l2 * (u.1 ^ 2 + u.2 ^ 2))⁻¹ := by
    rw [e2, mul_div_cancel_left₀ _ hf2, mul_div_cancel_left₀ _ hf2]
    apply V3.ext <;> simp only [lensRay, V3.smul]
    · rw [div_eq_inv_mul]
    · rw [div_eq_inv_mul]
    · rw [inv_mul_cancel₀ hd2]
  rw [c2] at hr21
  rw [c1] at hr12
  -- projections
  have proj : ∀ (G : M3 ℝ) (v : V3 ℝ) (D : ℝ) (r : V3 ℝ), D ≠ 0 → project G (v.smul D⁻¹) = .ok r →
      (G.mulVec v).z ≠ 0 ∧ r = ⟨(G.mulVec v).x / (G.mulVec v).z, (G.mulVec v).y / (G.mulVec v).z, 1⟩ := by
    intro G v D r hD hr
    unfold project at hr
    rw [M3.mulVec_smul] at hr
    by_cases hz : (G.mulVec v).z = 0
    · simp only at hr
      rw [if_pos (show (V3.smul D⁻¹ (G.mulVec v)).z = 0 by simp [V3.smul, hz])] at hr
      cases hr
    · simp only at hr
      rw [if_neg (show (V3.smul D⁻¹ (G.mulVec v)).z ≠ 0 from mul_ne_zero (inv_ne_zero hD) hz)] at hr
      simp only [Outcome.ok.injEq, V3.smul] at hr
      refine ⟨hz, ?_⟩
      rw [← hr]
      apply V3.ext <;> simp only
      · field_simp
      · field_simp
      · exact div_self (mul_ne_zero (inv_ne_zero hD) hz)
  obtain ⟨hs, rfl⟩ := proj _ _ _ _ hd2 hr21
  unfold inverseOf at hinv
  have hdet : m.H.det ≠ 0 := by
    intro h0
    rw [if_pos h0] at hinv
    cases hinv
  rw [if_neg hdet] at hinv
  simp only [Outcome.ok.injEq] at hinv
  subst hinv
  obtain ⟨ht, rfl⟩ := proj _ _ _ _ hd1 hr12
  have dist : ∀ {x y f k : ℝ} {p : V2}, distortPoint eps ⟨x, y, 1⟩ f k = .ok p → p = divisionDistort eps k (f * x, f * y) := by
    intro x y f k p hp
    simp only [distortPoint, divide_of one_ne_zero, div_one, Outcome.ok_bind, Outcome.ok.injEq] at hp
    exact hp.symm
  refine ⟨hf1, hf2, hdet, hd1, hd2, _, _, _, _, _, _, hs, ht, ?_, ?_, p, q, dist hp, dist hq, ?_⟩
  · apply V3.ext <;> simp only
    · rw [mul_div_cancel₀ _ hs]
    · rw [mul_div_cancel₀ _ hs]
  · apply V3.ext <;> simp only
    · rw [mul_div_cancel₀ _ ht]
    · rw [mul_div_cancel₀ _ ht]
  · simp only [Outcome.ok.injEq] at h
    exact h.symm

end RadialHomography
end Theia
