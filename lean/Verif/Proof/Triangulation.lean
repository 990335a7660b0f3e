import Mathlib.LinearAlgebra.FiniteDimensional.Basic
import Mathlib.Tactic.FinCases
import Verif.Base.RealVectors
import Verif.Model.Triangulation
import Verif.Spec.Triangulation

/-!
# Lemmas on triangulation
-/

namespace Theia
namespace Triangulation

open Spec

/-! ## Midpoint -/

/-- The squared distance from a line with a unit direction. -/
noncomputable def lineErr (r : V3 ℝ × V3 ℝ) (X : V3 ℝ) : ℝ :=
  (X.sub r.1).dot (X.sub r.1) - r.2.dot (X.sub r.1) * r.2.dot (X.sub r.1)

/-- The sum of the squared distances. -/
noncomputable def totalErr : List (V3 ℝ × V3 ℝ) → V3 ℝ → ℝ
  | [], _ => 0
  | r :: rs, X => lineErr r X + totalErr rs X

/-- The quadratic form of the 3x3 block. -/
noncomputable def form : List (V3 ℝ) → V3 ℝ → ℝ
  | [], _ => 0
  | d :: ds, v => (v.dot v - d.dot v * d.dot v) + form ds v

theorem lineDistance_iff {r : V3 ℝ × V3 ℝ} (hd : r.2.dot r.2 = 1) (X : V3 ℝ) (e : ℝ) :
    LineDistance r X e ↔ e = lineErr r X := by
  obtain ⟨o, d⟩ := r
  simp only at hd
  have key : ∀ s, sqDist X (onLine o d s) = lineErr (o, d) X + (s - d.dot (X.sub o)) ^ 2 := by
    intro s
    have : sqDist X (onLine o d s) = lineErr (o, d) X + (s - d.dot (X.sub o)) ^ 2 + s ^ 2 * (d.dot d - 1) := by
      simp only [sqDist, onLine, lineErr, V3.dot, V3.sub, V3.add, V3.smul]; ring
    rw [this, hd]; ring
  constructor
  · rintro ⟨⟨s, hs⟩, hmin⟩
    have h1 := hmin (d.dot (X.sub o))
    rw [key] at h1 hs
    have : 0 ≤ (s - d.dot (X.sub o)) ^ 2 := sq_nonneg _
    simp only [sub_self] at h1
    nlinarith
  · rintro rfl
    refine ⟨⟨d.dot (X.sub o), by rw [key]; ring⟩, fun s => ?_⟩
    rw [key]
    have : 0 ≤ (s - d.dot (X.sub o)) ^ 2 := sq_nonneg _
    linarith

theorem totalDistance_iff {rs : List (V3 ℝ × V3 ℝ)} (hd : ∀ r ∈ rs, r.2.dot r.2 = 1) (X : V3 ℝ) (e : ℝ) :
    TotalDistance rs X e ↔ e = totalErr rs X := by
  induction rs generalizing e with
  | nil =>
    constructor
    · intro h; cases h; rfl
    · rintro rfl; exact .nil X
  | cons r rs ih =>
    have hr := hd r List.mem_cons_self
    have hrs := fun e => ih (fun r h => hd r (List.mem_cons_of_mem _ h)) e
    constructor
    · intro h
      cases h with
      | cons h1 h2 =>
        rw [(lineDistance_iff hr X _).1 h1, (hrs _).1 h2]; rfl
    · rintro rfl
      exact .cons ((lineDistance_iff hr X _).2 rfl) ((hrs _).2 rfl)

theorem midpointMatrix_linear (ds : List (V3 ℝ)) : Linear4 (midpointMatrix ds) := by
  constructor
  · intro u v
    induction ds with
    | nil => simp [midpointMatrix, V3.add, V3.zero]
    | cons d ds ih =>
      simp only [midpointMatrix, ih]
      refine Prod.ext (V3.ext ?_ ?_ ?_) ?_ <;>
        simp only [midpointTerm, add4, V3.add, V3.sub, V3.smul, V3.dot] <;> ring
  · intro s v
    induction ds with
    | nil => simp [midpointMatrix, V3.smul, V3.zero]
    | cons d ds ih =>
      simp only [midpointMatrix, ih]
      refine Prod.ext (V3.ext ?_ ?_ ?_) ?_ <;>
        simp only [midpointTerm, add4, V3.add, V3.sub, V3.smul, V3.dot] <;> ring

theorem midpointMatrix_form (ds : List (V3 ℝ)) (v : V4) :
    v.1.dot (midpointMatrix ds v).1 + v.2 * (midpointMatrix ds v).2 = form ds v.1 + ds.length * (v.2 * v.2) := by
  induction ds with
  | nil => simp [midpointMatrix, form, V3.dot, V3.zero]
  | cons d ds ih =>
    have : v.1.dot (midpointMatrix (d :: ds) v).1 + v.2 * (midpointMatrix (d :: ds) v).2 =
        (v.1.dot v.1 - d.dot v.1 * d.dot v.1) + v.2 * v.2 +
          (v.1.dot (midpointMatrix ds v).1 + v.2 * (midpointMatrix ds v).2) := by
      simp only [midpointMatrix, midpointTerm, add4, V3.add, V3.sub, V3.smul, V3.dot]; ring
    rw [this, ih]
    simp only [form, List.length_cons, Nat.cast_add, Nat.cast_one]
    ring

theorem midpointMatrix_snd (ds : List (V3 ℝ)) (v : V4) : (midpointMatrix ds v).2 = ds.length * v.2 := by
  induction ds with
  | nil => simp [midpointMatrix]
  | cons d ds ih =>
    simp only [midpointMatrix, add4, midpointTerm, ih, List.length_cons, Nat.cast_add, Nat.cast_one]
    ring

theorem midpointRhs_snd (rs : List (V3 ℝ × V3 ℝ)) : (midpointRhs rs).2 = rs.length := by
  induction rs with
  | nil => simp [midpointRhs]
  | cons d ds ih =>
    simp only [midpointRhs, add4, midpointTerm, ih, List.length_cons, Nat.cast_add, Nat.cast_one]
    ring

theorem form_nonneg {ds : List (V3 ℝ)} (hd : ∀ d ∈ ds, d.dot d = 1) (v : V3 ℝ) : 0 ≤ form ds v := by
  induction ds with
  | nil => simp [form]
  | cons d ds ih =>
    have h1 := V3.cauchy d v
    rw [hd d List.mem_cons_self] at h1
    have h2 := ih (fun d h => hd d (List.mem_cons_of_mem _ h))
    simp only [form]
    linarith

theorem form_zero {ds : List (V3 ℝ)} (hd : ∀ d ∈ ds, d.dot d = 1) {v : V3 ℝ} (h : form ds v = 0) :
    ∀ d ∈ ds, d.cross v = V3.zero := by
  induction ds with
  | nil => simp
  | cons d ds ih =>
    have h1 := V3.cauchy d v
    have hd1 := hd d List.mem_cons_self
    rw [hd1] at h1
    have hds : ∀ d ∈ ds, d.dot d = 1 := fun d h => hd d (List.mem_cons_of_mem _ h)
    have h2 := form_nonneg hds v
    simp only [form] at h
    intro e he
    rcases List.mem_cons.1 he with rfl | he
    · apply V3.self_eq_zero
      rw [V3.cross_self_dot, hd1]
      linarith
    · exact ih hds (by linarith) e he

theorem form_zero_of_cross {ds : List (V3 ℝ)} (hd : ∀ d ∈ ds, d.dot d = 1) {v : V3 ℝ}
    (h : ∀ d ∈ ds, d.cross v = V3.zero) : form ds v = 0 := by
  induction ds with
  | nil => simp [form]
  | cons d ds ih =>
    have h1 := V3.cross_self_dot d v
    rw [h d List.mem_cons_self, hd d List.mem_cons_self, V3.dot_zero] at h1
    simp only [form]
    rw [ih (fun d h => hd d (List.mem_cons_of_mem _ h)) (fun d hd => h d (List.mem_cons_of_mem _ hd))]
    linarith

theorem cross_smul_smul (v : V3 ℝ) (s t : ℝ) : (v.smul s).cross (v.smul t) = V3.zero := by
  apply V3.ext <;> simp only [V3.smul, V3.cross, V3.zero] <;> ring

theorem cross_anti (a b : V3 ℝ) (h : a.cross b = V3.zero) : b.cross a = V3.zero := by
  simp only [V3.cross, V3.zero, V3.mk.injEq] at h ⊢
  obtain ⟨h1, h2, h3⟩ := h
  exact ⟨by linarith, by linarith, by linarith⟩

/-- Two vectors parallel to a nonzero vector are parallel. -/
theorem parallel_trans {d e v : V3 ℝ} (hv : v ≠ V3.zero) (h1 : d.cross v = V3.zero) (h2 : e.cross v = V3.zero) :
    d.cross e = V3.zero := by
  have hp := V3.self_pos hv
  have k1 : d.smul (v.dot v) = v.smul (d.dot v) := by
    simp only [V3.cross, V3.zero, V3.mk.injEq] at h1
    obtain ⟨a, b, c⟩ := h1
    apply V3.ext <;> simp only [V3.smul, V3.dot]
    · linear_combination (-v.z) * b + v.y * c
    · linear_combination v.z * a + (-v.x) * c
    · linear_combination (-v.y) * a + v.x * b
  have k2 : e.smul (v.dot v) = v.smul (e.dot v) := by
    simp only [V3.cross, V3.zero, V3.mk.injEq] at h2
    obtain ⟨a, b, c⟩ := h2
    apply V3.ext <;> simp only [V3.smul, V3.dot]
    · linear_combination (-v.z) * b + v.y * c
    · linear_combination v.z * a + (-v.x) * c
    · linear_combination (-v.y) * a + v.x * b
  have k3 : (d.cross e).smul (v.dot v * v.dot v) = V3.zero := by
    have : (d.cross e).smul (v.dot v * v.dot v) = (d.smul (v.dot v)).cross (e.smul (v.dot v)) := by
      apply V3.ext <;> simp only [V3.smul, V3.cross] <;> ring
    rw [this, k1, k2, cross_smul_smul]
  exact V3.eq_zero_of_smul (by positivity) k3

theorem totalErr_shift {rs : List (V3 ℝ × V3 ℝ)} (X v : V3 ℝ) :
    totalErr rs (X.add v) = totalErr rs X + form (rs.map Prod.snd) v +
      2 * v.dot ((midpointMatrix (rs.map Prod.snd) (X, 1)).1.sub (midpointRhs rs).1) := by
  induction rs with
  | nil => simp [totalErr, form, midpointMatrix, midpointRhs, V3.sub, V3.zero, V3.dot]
  | cons r rs ih =>
    simp only [totalErr, ih, form, List.map_cons, midpointMatrix, midpointRhs, lineErr, midpointTerm, add4]
    simp only [V3.add, V3.sub, V3.smul, V3.dot]
    ring

theorem midpoint_solution_exact {rs : List (V3 ℝ × V3 ℝ)} (hd : ∀ r ∈ rs, r.2.dot r.2 = 1) {X : V3 ℝ}
    (h : ∀ r ∈ rs, ∃ s, X = onLine r.1 r.2 s) : totalErr rs X = 0 := by
  induction rs with
  | nil => rfl
  | cons r rs ih =>
    obtain ⟨s, hs⟩ := h r List.mem_cons_self
    have hr := hd r List.mem_cons_self
    have : lineErr r X = s * s * (r.2.dot r.2) * (1 - r.2.dot r.2) := by
      rw [hs]; simp only [lineErr, onLine, V3.add, V3.sub, V3.smul, V3.dot]; ring
    simp only [totalErr]
    rw [this, hr, ih (fun r h => hd r (List.mem_cons_of_mem _ h)) (fun r hr => h r (List.mem_cons_of_mem _ hr))]
    ring

theorem totalErr_nonneg {rs : List (V3 ℝ × V3 ℝ)} (hd : ∀ r ∈ rs, r.2.dot r.2 = 1) (X : V3 ℝ) : 0 ≤ totalErr rs X := by
  induction rs with
  | nil => simp [totalErr]
  | cons r rs ih =>
    have h1 := V3.cauchy r.2 (X.sub r.1)
    rw [hd r List.mem_cons_self] at h1
    have h2 := ih (fun r h => hd r (List.mem_cons_of_mem _ h))
    simp only [totalErr, lineErr]
    linarith

theorem positiveDefinite_iff {ds : List (V3 ℝ)} (hd : ∀ d ∈ ds, d.dot d = 1) (hne : ds ≠ []) :
    PositiveDefinite (midpointMatrix ds) ↔ ∃ d ∈ ds, ∃ e ∈ ds, ¬ Parallel d e := by
  have hlen : (0 : ℝ) < ds.length := by
    have := List.length_pos_of_ne_nil hne
    exact_mod_cast this
  constructor
  · intro hpd
    by_contra hcon
    obtain ⟨d0, rest, rfl⟩ : ∃ d0 rest, ds = d0 :: rest := by
      cases ds with
      | nil => exact absurd rfl hne
      | cons a b => exact ⟨a, b, rfl⟩
    have hall : ∀ d ∈ d0 :: rest, d.cross d0 = V3.zero := by
      intro d hd'
      by_contra hx
      exact hcon ⟨d, hd', d0, List.mem_cons_self, hx⟩
    have h0 := hd d0 List.mem_cons_self
    have := hpd (d0, 0) (by
      intro e
      have : d0 = V3.zero := congrArg Prod.fst e
      rw [this, V3.dot_zero] at h0
      exact zero_ne_one h0)
    rw [midpointMatrix_form, form_zero_of_cross hd hall] at this
    simp at this
  · rintro ⟨d, hd1, e, he1, hp⟩ v hv
    rw [midpointMatrix_form]
    have h1 := form_nonneg hd v.1
    have h2 : 0 ≤ (ds.length : ℝ) * (v.2 * v.2) := mul_nonneg hlen.le (mul_self_nonneg _)
    rcases lt_or_eq_of_le (add_nonneg h1 h2) with h | h
    · exact h
    · exfalso
      have hf : form ds v.1 = 0 := by linarith
      have hw : v.2 = 0 := by
        have : (ds.length : ℝ) * (v.2 * v.2) = 0 := by linarith
        exact mul_self_eq_zero.1 ((mul_eq_zero.1 this).resolve_left hlen.ne')
      have hv1 : v.1 ≠ V3.zero := by
        intro e
        exact hv (Prod.ext e hw)
      exact hp (parallel_trans hv1 (form_zero hd hf d hd1) (form_zero hd hf e he1))

theorem map_snd_zip (os ds : List (V3 ℝ)) (h : os.length = ds.length) : (os.zip ds).map Prod.snd = ds := by
  rw [List.map_snd_zip]; omega

/-- A positive definite linear map of dimension four is onto. -/
theorem solvable {A : V4 → V4} (hlin : Linear4 A) (hpd : PositiveDefinite A) (b : V4) : ∃ x, A x = b := by
  let tup : (Fin 4 → ℝ) → V4 := fun f => (⟨f 0, f 1, f 2⟩, f 3)
  let back : V4 → (Fin 4 → ℝ) := fun v => ![v.1.x, v.1.y, v.1.z, v.2]
  let L : (Fin 4 → ℝ) →ₗ[ℝ] (Fin 4 → ℝ) :=
    { toFun := fun f => back (A (tup f))
      map_add' := by
        intro f g
        have := hlin.1 (tup f) (tup g)
        have e : tup (f + g) = ((tup f).1.add (tup g).1, (tup f).2 + (tup g).2) := rfl
        rw [e, this]
        funext i
        fin_cases i <;> simp [back, V3.add]
      map_smul' := by
        intro s f
        have := hlin.2 s (tup f)
        have e : tup (s • f) = ((tup f).1.smul s, s * (tup f).2) := rfl
        rw [e, this]
        funext i
        fin_cases i <;> simp [back, V3.smul] }
  have hinj : Function.Injective L := by
    rw [← LinearMap.ker_eq_bot, LinearMap.ker_eq_bot']
    intro f hf
    by_contra hne
    have htup : tup f ≠ (V3.zero, 0) := by
      intro e
      apply hne
      have h1 := congrArg (fun v : V4 => v.1.x) e
      have h2 := congrArg (fun v : V4 => v.1.y) e
      have h3 := congrArg (fun v : V4 => v.1.z) e
      have h4 := congrArg (fun v : V4 => v.2) e
      simp only [tup, V3.zero] at h1 h2 h3 h4
      funext i
      fin_cases i <;> assumption
    have hp := hpd _ htup
    have hz : back (A (tup f)) = 0 := hf
    have e1 := congrFun hz 0
    have e2 := congrFun hz 1
    have e3 := congrFun hz 2
    have e4 := congrFun hz 3
    simp [back] at e1 e2 e3 e4
    simp only [V3.dot, e1, e2, e3, e4] at hp
    simp at hp
  obtain ⟨f, hf⟩ := (LinearMap.injective_iff_surjective.1 hinj) (back b)
  refine ⟨tup f, ?_⟩
  have hz : back (A (tup f)) = back b := hf
  have e1 := congrFun hz 0
  have e2 := congrFun hz 1
  have e3 := congrFun hz 2
  have e4 := congrFun hz 3
  simp [back] at e1 e2 e3 e4
  exact Prod.ext (V3.ext e1 e2 e3) e4

/-- There is a procedure with the specification of the Cholesky solver. -/
theorem exists_cholesky : ∃ llt, Cholesky llt := by
  classical
  refine ⟨fun A b => if h : Linear4 A ∧ PositiveDefinite A then some (Classical.choose (solvable h.1 h.2 b)) else none, ?_⟩
  intro A b hlin
  constructor
  · intro hpd
    refine ⟨Classical.choose (solvable hlin hpd b), ?_, Classical.choose_spec (solvable hlin hpd b)⟩
    exact dif_pos ⟨hlin, hpd⟩
  · intro hpd
    exact dif_neg (fun h : Linear4 A ∧ PositiveDefinite A => hpd h.2)

end Triangulation
end Theia
