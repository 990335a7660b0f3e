import Verif.Model.RotationFilters
import Verif.Proof.ViewGraph

/-!
# Lemmas on the rotation filters
-/

namespace Theia
namespace RotationFilters

open AngleAxis TwoView ViewGraph

variable {I : Type}

/-- Removing a list of edges. -/
theorem removeAll_spec : ∀ (ps : List (Nat × Nat)) (g : ViewGraph I), Inv g → (∀ p ∈ ps, p.1 < p.2) →
    Inv (removeAll ps g) ∧
    (∀ p, (removeAll ps g).edges.get p = if p ∈ ps then none else g.edges.get p) ∧
    (∀ x, x ∈ (removeAll ps g).vertices.keys ↔ x ∈ g.vertices.keys) := by
  intro ps
  induction ps with
  | nil => intro g h _; exact ⟨h, by intro p; simp [removeAll], by intro x; rfl⟩
  | cons p ps ih =>
    intro g h hlt
    have hp : ordPair p.1 p.2 = p := by
      unfold ordPair
      rw [if_pos (hlt p (List.mem_cons_self ..))]
    unfold removeAll
    by_cases hm : ordPair p.1 p.2 ∈ g.edges.keys
    · obtain ⟨_, h1, h2, h3⟩ := removeEdge_spec h hm
      obtain ⟨i1, i2, i3⟩ := ih _ h1 (fun q hq => hlt q (List.mem_cons_of_mem _ hq))
      refine ⟨i1, ?_, fun x => (i3 x).trans (h3 x)⟩
      intro q
      rw [i2, h2, hp]
      by_cases hq : q = p
      · simp [hq]
      · simp [hq]
    · rw [removeEdge_unknown hm]
      obtain ⟨i1, i2, i3⟩ := ih g h (fun q hq => hlt q (List.mem_cons_of_mem _ hq))
      refine ⟨i1, ?_, i3⟩
      intro q
      rw [i2]
      by_cases hq : q = p
      · subst hq
        rw [hp] at hm
        simp [AMap.get_eq_none_iff.2 hm]
      · simp [hq]

/-- The result of a removal is again the result of a history of calls. -/
theorem removeAll_run : ∀ (ps : List (Nat × Nat)) (ops : List (Op I)),
    removeAll ps (ViewGraph.run ops) = ViewGraph.run (ops ++ ps.map fun p => Op.removeEdge p.1 p.2) := by
  intro ps
  induction ps with
  | nil => intro ops; simp [removeAll]
  | cons p ps ih =>
    intro ops
    unfold removeAll
    have : ((ViewGraph.run ops).removeEdge p.1 p.2).2 = ViewGraph.run (ops ++ [Op.removeEdge p.1 p.2]) := by
      unfold ViewGraph.run
      rw [List.foldl_append]
      rfl
    rw [this, ih]
    simp

theorem mem_pairsToRemove (ofM : M3 ℝ → V3 ℝ) (orientations : AMap Nat (V3 ℝ)) (maxSq : ℝ) :
    ∀ (es : List ((Nat × Nat) × Info)) (p : Nat × Nat), p ∈ pairsToRemove ofM orientations maxSq es ↔
      ∃ i, (p, i) ∈ es ∧ ¬ ∃ o1 o2, orientations.get p.1 = some o1 ∧ orientations.get p.2 = some o2 ∧
        Acceptable ofM o1 o2 i.rotation maxSq := by
  intro es p
  induction es with
  | nil => simp [pairsToRemove]
  | cons e es ih =>
    have key : p ∈ pairsToRemove ofM orientations maxSq (e :: es) ↔
        (p = e.1 ∧ ¬ ∃ o1 o2, orientations.get p.1 = some o1 ∧ orientations.get p.2 = some o2 ∧
          Acceptable ofM o1 o2 e.2.rotation maxSq) ∨ p ∈ pairsToRemove ofM orientations maxSq es := by
      rw [pairsToRemove]
      split
      · rename_i o1 o2 h1 h2
        split
        · rename_i ha
          constructor
          · exact Or.inr
          · rintro (⟨rfl, hn⟩ | h)
            · exact absurd ⟨o1, o2, h1, h2, ha⟩ hn
            · exact h
        · rename_i ha
          rw [List.mem_cons]
          constructor
          · rintro (rfl | h)
            · refine Or.inl ⟨rfl, ?_⟩
              rintro ⟨a, b, ha', hb', hab⟩
              rw [h1] at ha'
              rw [h2] at hb'
              cases ha'
              cases hb'
              exact ha hab
            · exact Or.inr h
          · rintro (⟨rfl, _⟩ | h)
            · exact Or.inl rfl
            · exact Or.inr h
      · rename_i hnone
        rw [List.mem_cons]
        constructor
        · rintro (rfl | h)
          · refine Or.inl ⟨rfl, ?_⟩
            rintro ⟨a, b, ha', hb', _⟩
            exact hnone a b ha' hb'
          · exact Or.inr h
        · rintro (⟨rfl, _⟩ | h)
          · exact Or.inl rfl
          · exact Or.inr h
    rw [key, ih]
    constructor
    · rintro (⟨rfl, hn⟩ | ⟨i, hi, hn⟩)
      · exact ⟨e.2, List.mem_cons_self .., hn⟩
      · exact ⟨i, List.mem_cons_of_mem _ hi, hn⟩
    · rintro ⟨i, hi, hn⟩
      rcases List.mem_cons.1 hi with h | h
      · left
        rw [← h]
        exact ⟨rfl, hn⟩
      · exact Or.inr ⟨i, h, hn⟩

/-- The loop over triplets of edges of the graph. -/
theorem tripletLoop_spec (ofM : M3 ℝ → V3 ℝ) (maxError : ℝ) (g : ViewGraph Info) :
    ∀ (ts : List (Nat × Nat × Nat)) (invalid : List (Nat × Nat)),
    (∀ t ∈ ts, ∃ i12 i13 i23, g.getEdge t.1 t.2.1 = some i12 ∧ g.getEdge t.1 t.2.2 = some i13 ∧
      g.getEdge t.2.1 t.2.2 = some i23) →
    ∃ out, tripletLoop ofM maxError g ts invalid = .ok out ∧
      ∀ p, p ∈ out ↔ p ∈ invalid ∧ ¬ ∃ t ∈ ts, (p = (t.1, t.2.1) ∨ p = (t.1, t.2.2) ∨ p = (t.2.1, t.2.2)) ∧
        ∃ i12 i13 i23, g.getEdge t.1 t.2.1 = some i12 ∧ g.getEdge t.1 t.2.2 = some i13 ∧
          g.getEdge t.2.1 t.2.2 = some i23 ∧ loopError ofM i12 i13 i23 < maxError := by
  intro ts
  induction ts with
  | nil => intro invalid _; exact ⟨invalid, rfl, by intro p; simp⟩
  | cons t ts ih =>
    intro invalid h
    obtain ⟨i12, i13, i23, h12, h13, h23⟩ := h t (List.mem_cons_self ..)
    unfold tripletLoop
    simp only [h12, h13, h23]
    split
    · rename_i hlt
      obtain ⟨out, ho, hm⟩ := ih (eraseTriplet t invalid) (fun x hx => h x (List.mem_cons_of_mem _ hx))
      refine ⟨out, ho, ?_⟩
      intro p
      rw [hm]
      have he : p ∈ eraseTriplet t invalid ↔
          p ∈ invalid ∧ ¬ (p = (t.1, t.2.1) ∨ p = (t.1, t.2.2) ∨ p = (t.2.1, t.2.2)) := by
        unfold eraseTriplet
        simp only [List.mem_filter, decide_eq_true_eq, ne_eq]
        tauto
      rw [he]
      constructor
      · rintro ⟨⟨a, b⟩, c⟩
        refine ⟨a, ?_⟩
        rintro ⟨x, hx, hp, hl⟩
        rcases List.mem_cons.1 hx with rfl | hx
        · exact b hp
        · exact c ⟨x, hx, hp, hl⟩
      · rintro ⟨a, c⟩
        exact ⟨⟨a, fun hp => c ⟨t, List.mem_cons_self .., hp, i12, i13, i23, h12, h13, h23, hlt⟩⟩,
          fun ⟨x, hx, hp⟩ => c ⟨x, List.mem_cons_of_mem _ hx, hp⟩⟩
    · rename_i hlt
      obtain ⟨out, ho, hm⟩ := ih invalid (fun x hx => h x (List.mem_cons_of_mem _ hx))
      refine ⟨out, ho, ?_⟩
      intro p
      rw [hm]
      constructor
      · rintro ⟨a, c⟩
        refine ⟨a, ?_⟩
        rintro ⟨x, hx, hp, j12, j13, j23, g12, g13, g23, hl⟩
        rcases List.mem_cons.1 hx with rfl | hx
        · rw [h12] at g12
          rw [h13] at g13
          rw [h23] at g23
          cases g12
          cases g13
          cases g23
          exact hlt hl
        · exact c ⟨x, hx, hp, j12, j13, j23, g12, g13, g23, hl⟩
      · rintro ⟨a, c⟩
        exact ⟨a, fun ⟨x, hx, hp⟩ => c ⟨x, List.mem_cons_of_mem _ hx, hp⟩⟩

/-- Acceptance in terms of the angle between the rotations. -/
theorem acceptable_iff {ofM : M3 ℝ → V3 ℝ} (hlog : IsLog ofM) (o1 o2 r : V3 ℝ) {x : ℝ} (hx : 0 ≤ x) :
    Acceptable ofM o1 o2 r (x * x) ↔
      angle ((toM r).transpose.mul ((toM o2).mul (toM o1).transpose)) ≤ x := by
  have h1 : ((toM o2).mul (toM o1).transpose).IsRotation := (isRotation_toM _).mul (isRotation_toM _).transpose
  have h2 : ((toM r).transpose.mul ((toM o2).mul (toM o1).transpose)).IsRotation := (isRotation_toM _).transpose.mul h1
  unfold Acceptable multiply
  simp only [toM_neg]
  rw [(hlog _ h1).1, hlog.sq h2]
  have hn : 0 ≤ angle ((toM r).transpose.mul ((toM o2).mul (toM o1).transpose)) := Real.arccos_nonneg _
  exact mul_self_le_mul_self_iff hn hx |>.symm

theorem loopError_eq {ofM : M3 ℝ → V3 ℝ} (hlog : IsLog ofM) (i12 i13 i23 : Info) :
    loopError ofM i12 i13 i23 =
      angle (((toM i23.rotation).mul (toM i12.rotation)).mul (toM i13.rotation).transpose) * (180 / Real.pi) := by
  unfold loopError radToDeg
  simp only
  rw [hlog.angle (((isRotation_toM _).mul (isRotation_toM _)).mul (isRotation_toM _).transpose)]

end RotationFilters
end Theia
