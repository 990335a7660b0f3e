import Verif.Proof.Reservoir
import Verif.Spec.Fisher

/-!
# C110: Fisher vectors
-/

namespace Theia

open Fisher Spec.FisherV

namespace Fisher

variable {G : Type}

theorem hasNaN_clean {d : Nat} {f : Feature} (h : Clean d f) : hasNaN f = false := by
  simp only [hasNaN, List.any_eq_false]
  intro x hx
  have := h.2 x hx
  cases x <;> simp_all

theorem addFeatures_good (rnd : Nat → Nat) (k : Nat) (fs xs : List Feature) (s : State G)
    (h : Reservoir.Good k xs s.sampler) :
    (addFeatures rnd fs s = .abort ∧ ∃ f ∈ fs, hasNaN f = true) ∨
    ((∀ f ∈ fs, hasNaN f = false) ∧ ∃ r, addFeatures rnd fs s = .ok { s with sampler := r } ∧
      Reservoir.Good k (xs ++ fs) r) := by
  induction fs generalizing xs s with
  | nil => exact .inr ⟨by simp, s.sampler, rfl, by simpa using h⟩
  | cons f fs ih =>
    simp only [addFeatures]
    by_cases hn : hasNaN f = true
    · rw [if_pos hn]
      exact .inl ⟨rfl, f, by simp, hn⟩
    · rw [if_neg hn]
      obtain ⟨r, hr, hg⟩ := Reservoir.add_good h f (rnd s.sampler.numElementsAdded)
      rw [hr]
      simp only
      rcases ih (xs ++ [f]) { s with sampler := r } hg with ⟨e, g, hg1, hg2⟩ | ⟨h1, r', e, hg'⟩
      · exact .inl ⟨e, g, by simp [hg1], hg2⟩
      · refine .inr ⟨?_, r', e, by simpa using hg'⟩
        intro g hg
        rcases List.mem_cons.1 hg with rfl | hg
        · simpa using hn
        · exact h1 g hg

theorem dimension_eq {fs : List Feature} {d : Nat} (h : dimension fs = .ok d) : fs ≠ [] ∧ ∀ f ∈ fs, f.length = d := by
  cases fs with
  | nil => cases h
  | cons f fs =>
    simp only [dimension] at h
    split at h
    · rename_i ha
      simp only [Outcome.ok.injEq] at h
      subst h
      refine ⟨by simp, ?_⟩
      intro g hg
      rcases List.mem_cons.1 hg with rfl | hg
      · rfl
      · simpa using List.all_eq_true.1 ha g hg
    · cases h

theorem dimension_ok {fs : List Feature} {d : Nat} (hne : fs ≠ []) (h : ∀ f ∈ fs, f.length = d) : dimension fs = .ok d := by
  cases fs with
  | nil => exact absurd rfl hne
  | cons f fs =>
    have h0 := h f (by simp)
    simp only [dimension]
    rw [if_pos, h0]
    rw [List.all_eq_true]
    intro g hg
    simp [h0, h g (by simp [hg])]

/-- What is known of the extractor: the sampler has seen `xs`, and the mixture was fitted to a sample of `tr`. -/
structure Inv (vl : VL G) (k most : Nat) (xs : List Feature) (tr : Option (List Feature)) (s : State G) : Prop where
  clusters : s.clusters = k
  sampler : Reservoir.Good most xs s.sampler
  none : tr = none → s.gmm = none
  some : ∀ fs, tr = some fs → ∃ sample d g, SampleOf most fs sample ∧ sample ≠ [] ∧ (∀ f ∈ sample, f.length = d) ∧
    vl.cluster k sample = some g ∧ s.gmm = some (d, g)

theorem inv_add {vl : VL G} {k most : Nat} {xs : List Feature} {tr : Option (List Feature)} {s s' : State G}
    {rnd : Nat → Nat} (h : Inv vl k most xs tr s) (fs : List Feature) (e : addFeatures rnd fs s = .ok s') :
    Inv vl k most (xs ++ fs) tr s' := by
  rcases addFeatures_good rnd most fs xs s h.sampler with ⟨e', -⟩ | ⟨-, r, e', hg⟩
  · rw [e'] at e; cases e
  · rw [e'] at e
    simp only [Outcome.ok.injEq] at e
    subst e
    exact ⟨h.clusters, hg, h.none, h.some⟩

theorem inv_train {vl : VL G} {k most : Nat} {xs : List Feature} {tr : Option (List Feature)} {s : State G}
    {r : Bool × State G} (h : Inv vl k most xs tr s) (e : train vl s = .ok r) :
    r.1 = true ∧ Inv vl k most xs (some xs) r.2 := by
  unfold train at e
  split at e
  · cases e
  · rw [Outcome.bind_eq_ok] at e
    obtain ⟨d, hd, e⟩ := e
    split at e
    · cases e
    · split at e
      · cases e
      · rename_i g hg
        simp only [Outcome.ok.injEq] at e
        subst e
        obtain ⟨hne, hdim⟩ := dimension_eq hd
        refine ⟨rfl, h.clusters, h.sampler, fun h => (Option.some_ne_none _ h).elim, ?_⟩
        intro fs hfs
        cases hfs
        exact ⟨s.sampler.samples, d, g, ⟨h.sampler.len, h.sampler.sub, h.sampler.all⟩, hne, hdim, h.clusters ▸ hg, rfl⟩

theorem run_inv {vl : VL G} {k most : Nat} (rnd : Nat → Nat) (ops : List Op) {xs : List Feature}
    {tr : Option (List Feature)} {s s' : State G} (h : Inv vl k most xs tr s) (e : run vl rnd ops s = .ok s') :
    Inv vl k most (xs ++ added ops)
      (match untilTraining ops with | some p => some (xs ++ added p) | none => tr) s' := by
  induction ops generalizing xs tr s with
  | nil =>
    simp only [run, Outcome.ok.injEq] at e
    subst e
    simpa [added, untilTraining] using h
  | cons o os ih =>
    simp only [run, Outcome.bind_eq_ok] at e
    obtain ⟨s1, e1, e2⟩ := e
    cases o with
    | add fs =>
      have := ih (inv_add h fs e1) e2
      simp only [added, untilTraining]
      cases hu : untilTraining os with
      | none => simpa [hu] using this
      | some p => simpa [hu, added] using this
    | train =>
      simp only [step, Outcome.bind_eq_ok] at e1
      obtain ⟨r, e1, e3⟩ := e1
      simp only [Outcome.ok.injEq] at e3
      subst e3
      have := ih (inv_train h e1).2 e2
      simp only [added, untilTraining]
      cases hu : untilTraining os with
      | none => simpa [hu, added] using this
      | some p => simpa [hu, added] using this

theorem inv_new (vl : VL G) (k most : Nat) : Inv vl k most [] none (new k most) :=
  ⟨rfl, ⟨rfl, rfl, by simp [new, Reservoir.new], by simp [new, Reservoir.new], by simp [new, Reservoir.new],
    by simp [new, Reservoir.new]⟩, fun _ => rfl, fun _ h => by cases h⟩

end Fisher

variable {G : Type}

/-- **C110, partial.** Missing, because the code does not do it: refusing images before the first training and features
of another dimension (`C110_untrained`, `C110_dimension`). After any calls that returned, with a training among them, and for all random numbers: the mixture is the
one fitted at the last training to a sample of the features added before it, of the announced size, and to all of them
in order if there were no more than that. For features of the dimension of the training, and at least one, the Fisher
vector is that of this mixture and has twice the dimension times the number of clusters entries. -/
theorem C110_history_partial (vl : VL G) (rnd : Nat → Nat) (k most : Nat) (ops before : List Op) (s : State G)
    (h : run vl rnd ops (new k most) = .ok s) (ht : untilTraining ops = some before) :
    ∃ sample d g, SampleOf most (added before) sample ∧ sample ≠ [] ∧ (∀ f ∈ sample, f.length = d) ∧
      vl.cluster k sample = some g ∧
      ∀ fs : List Feature, fs ≠ [] → 0 < d → (∀ f ∈ fs, f.length = d) →
        ∃ v, extract vl s fs = .ok v ∧ v = List.ofFn (vl.encode g d k fs) ∧ v.length = 2 * d * k := by
  have inv := run_inv rnd ops (inv_new vl k most) h
  rw [ht] at inv
  obtain ⟨sample, d, g, h1, h2, h3, h4, h5⟩ := inv.some (added before) rfl
  refine ⟨sample, d, g, h1, h2, h3, h4, ?_⟩
  intro fs hne hd hfs
  refine ⟨_, ?_, rfl, by simp⟩
  have hdim := dimension_ok hne hfs
  match fs, hne with
  | f :: fs, _ =>
    have hf : f.length ≠ 0 := by rw [hfs f (by simp)]; omega
    have hk := inv.clusters
    subst hk
    simp only [extract, if_neg hf, hdim, Outcome.ok_bind, h5, if_neg (Nat.lt_irrefl d)]

/-- **C110.** Calls return: adding any features without entries that are not numbers, all of one dimension, and training
whenever at least one was added, if features are kept at all and the mixture can be fitted. Train returns true. -/
theorem C110_returns (vl : VL G) (rnd : Nat → Nat) (k most d : Nat) (hm : 0 < most)
    (hc : ∀ fs, fs ≠ [] → ∃ g, vl.cluster k fs = some g) (first : List Feature) (hne : first ≠ []) (ops : List Op)
    (h : ∀ f ∈ first ++ added ops, Clean d f) :
    ∃ s, run vl rnd (.add first :: ops) (new k most) = .ok s ∧ ∃ s', train vl s = .ok (true, s') := by
  have trains : ∀ (xs : List Feature) (tr : Option (List Feature)) (s : State G), Inv vl k most xs tr s → xs ≠ [] →
      (∀ f ∈ xs, Clean d f) → ∃ s', train vl s = .ok (true, s') := by
    intro xs tr s inv hx hcl
    have hpos := List.length_pos_iff.2 hx
    have hl := inv.sampler.len
    have hsne : s.sampler.samples ≠ [] := by
      apply List.length_pos_iff.1
      omega
    obtain ⟨g, hg⟩ := hc _ hsne
    unfold train
    rw [if_neg (by omega), dimension_ok hsne (fun f hf => (hcl f (inv.sampler.sub f hf)).1), Outcome.ok_bind, if_neg,
      inv.clusters, hg]
    · exact ⟨_, rfl⟩
    · rw [Bool.not_eq_true, List.any_eq_false]
      intro f hf
      rw [hasNaN_clean (hcl f (inv.sampler.sub f hf))]
      simp
  have adds : ∀ (fs xs : List Feature) (tr : Option (List Feature)) (s : State G), Inv vl k most xs tr s →
      (∀ f ∈ fs, Clean d f) → ∃ s', addFeatures rnd fs s = .ok s' := by
    intro fs xs tr s inv hcl
    rcases addFeatures_good rnd most fs xs s inv.sampler with ⟨-, f, hf, hn⟩ | ⟨-, r, e, -⟩
    · rw [hasNaN_clean (hcl f hf)] at hn
      cases hn
    · exact ⟨_, e⟩
  have main : ∀ (os : List Op) (xs : List Feature) (tr : Option (List Feature)) (s : State G), Inv vl k most xs tr s →
      xs ≠ [] → (∀ f ∈ xs ++ added os, Clean d f) →
      ∃ s', run vl rnd os s = .ok s' ∧ ∃ s'', train vl s' = .ok (true, s'') := by
    intro os
    induction os with
    | nil =>
      intro xs tr s inv hx hcl
      exact ⟨s, rfl, trains xs tr s inv hx (fun f hf => hcl f (by simp [hf]))⟩
    | cons o os ih =>
      intro xs tr s inv hx hcl
      cases o with
      | add fs =>
        obtain ⟨s1, e1⟩ := adds fs xs tr s inv (fun f hf => hcl f (by simp [added, hf]))
        simp only [run, step, e1, Outcome.ok_bind]
        exact ih _ _ s1 (inv_add inv fs e1) (by simp [hx]) (by simpa [added] using hcl)
      | train =>
        obtain ⟨s1, e1⟩ := trains xs tr s inv hx (fun f hf => hcl f (by simp [hf]))
        simp only [run, step, e1, Outcome.ok_bind]
        exact ih _ _ s1 (inv_train inv e1).2 hx (by simpa [added] using hcl)
  obtain ⟨s1, e1⟩ := adds first [] none (new k most) (inv_new vl k most) (fun f hf => h f (by simp [hf]))
  simp only [run, step, e1, Outcome.ok_bind]
  exact main ops _ _ s1 (inv_add (inv_new vl k most) first e1) (by simpa using hne) (by simpa using h)

/-- **C110.** A feature with an entry that is not a number ends the program, as does training without features (also if
none are kept, because the largest number is zero) and describing an image without features. -/
theorem C110_abort (vl : VL G) (rnd : Nat → Nat) (k most : Nat) (ops : List Op) (s : State G)
    (h : run vl rnd ops (new k most) = .ok s) (fs : List Feature) :
    ((∃ f ∈ fs, none ∈ f) → addFeatures rnd fs s = .abort) ∧
    (most = 0 ∨ added ops = [] → train vl s = .abort) ∧
    (fs = [] ∨ fs.head? = some [] → extract vl s fs = .abort) := by
  have inv := run_inv rnd ops (inv_new vl k most) h
  refine ⟨?_, ?_, ?_⟩
  · rintro ⟨f, hf, hn⟩
    rcases addFeatures_good rnd most fs _ s inv.sampler with ⟨e, -⟩ | ⟨h0, -⟩
    · exact e
    · have := h0 f hf
      simp only [hasNaN, List.any_eq_false] at this
      simpa using this _ hn
  · intro h0
    have hl := inv.sampler.len
    unfold train
    rw [if_pos]
    rcases h0 with rfl | h0
    · simpa using hl
    · simpa [h0] using hl
  · intro h0
    match fs, h0 with
    | [], _ => rfl
    | f :: fs, h0 =>
      simp at h0
      subst h0
      rfl

/-- **C110, finding.** Describing an image before the first training reads through a null pointer, for every image with
features of one dimension and after any calls. -/
theorem C110_untrained (vl : VL G) (rnd : Nat → Nat) (k most d : Nat) (ops : List Op) (s : State G)
    (h : run vl rnd ops (new k most) = .ok s) (ht : untilTraining ops = none) (fs : List Feature) (hne : fs ≠ [])
    (hd : 0 < d) (hfs : ∀ f ∈ fs, f.length = d) : extract vl s fs = .ub := by
  have inv := run_inv rnd ops (inv_new vl k most) h
  rw [ht] at inv
  have hg := inv.none rfl
  have hdim := dimension_ok hne hfs
  match fs, hne with
  | f :: fs, _ =>
    have hf : f.length ≠ 0 := by rw [hfs f (by simp)]; omega
    simp only [extract, if_neg hf, hdim, Outcome.ok_bind, hg]

/-- **C110, finding.** The dimension is not compared with that of the training. With more dimensions the means are read
past their end; with fewer the call returns a vector of another size. -/
theorem C110_dimension (vl : VL G) (s : State G) (d e : Nat) (g : G) (hg : s.gmm = some (d, g)) (fs : List Feature)
    (hne : fs ≠ []) (he : 0 < e) (hfs : ∀ f ∈ fs, f.length = e) :
    (d < e → extract vl s fs = .ub) ∧
    (e < d → ∃ v, extract vl s fs = .ok v ∧ v.length = 2 * e * s.clusters) := by
  have hdim := dimension_ok hne hfs
  match fs, hne with
  | f :: fs, _ =>
    have hf : f.length ≠ 0 := by rw [hfs f (by simp)]; omega
    constructor
    · intro h
      simp only [extract, if_neg hf, hdim, Outcome.ok_bind, hg, if_pos h]
    · intro h
      refine ⟨_, by simp only [extract, if_neg hf, hdim, Outcome.ok_bind, hg, if_neg (by omega : ¬ d < e)]; rfl, by simp⟩

section Examples

/-- A mixture that is the list of its features; the encoding counts them. -/
private def toy : VL (List Feature) := ⟨fun _ fs => some fs, fun g _ _ _ _ => g.length⟩

/-- Two calls with three features, of which two are kept, a training, one more feature, and an image. -/
example : ∃ s, run toy (fun _ => 1) [.add [[some 1], [some 2]], .add [[some 3]], .train, .add [[some 4]]] (new 2 2) = .ok s ∧
    untilTraining [.add [[some 1], [some 2]], .add [[some 3]], .train, .add [[some 4]]] =
      some [.add [[some 1], [some 2]], .add [[some 3]]] ∧
    s.gmm = some (1, [[some 1], [some 3]]) ∧ extract toy s [[some 7]] = .ok [2, 2, 2, 2] :=
  ⟨_, rfl, rfl, rfl, rfl⟩

/-- The conditions of `C110_returns` can be met. -/
example : Clean 1 [some 5] ∧ ∀ fs, fs ≠ [] → ∃ g, toy.cluster 3 fs = some g :=
  ⟨⟨rfl, by simp⟩, fun fs _ => ⟨fs, rfl⟩⟩

/-- An untrained extractor. -/
example : extract toy (new 2 2) [[some 7]] = .ub := rfl

end Examples

end Theia
