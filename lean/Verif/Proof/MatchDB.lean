import Verif.Spec.MatchDB
import Mathlib.Data.List.Induction
import Mathlib.Tactic.Tauto

namespace Theia

open Spec

namespace MatchDB

variable {F I M B : Type}

theorem latestFeatures_snoc {h : List (Op F I M)} {op : Op F I M} {n : ImageName} {f : F} :
    LatestFeatures (h ++ [op]) n f ↔
      op = .putFeatures n f ∨ ((∀ f', op ≠ .putFeatures n f') ∧ LatestFeatures h n f) := by
  constructor
  · rintro ⟨bf, af, heq, hno⟩
    rcases List.eq_nil_or_concat af with rfl | ⟨af', x, rfl⟩
    · have := List.append_inj_right' heq (by simp)
      left
      simpa using this
    · right
      rw [List.concat_eq_append] at heq hno
      rw [← List.cons_append, ← List.append_assoc] at heq
      obtain ⟨h1, h2⟩ := List.append_inj' heq (by simp)
      have hx : op = x := by simpa using h2
      refine ⟨fun f' hf => hno f' (by simp [← hf, hx]), bf, af', h1, fun f' hf => hno f' (by simp [hf])⟩
  · rintro (rfl | ⟨hne, bf, af, rfl, hno⟩)
    · exact ⟨h, [], rfl, by simp⟩
    · refine ⟨bf, af ++ [op], by simp, ?_⟩
      intro f' hf
      rcases List.mem_append.1 hf with hf | hf
      · exact hno f' hf
      · exact hne f' (by simpa using (List.mem_singleton.1 hf).symm)

theorem latestPrior_snoc {h : List (Op F I M)} {op : Op F I M} {n : ImageName} {p : I} :
    LatestPrior (h ++ [op]) n p ↔
      op = .putPrior n p ∨ ((∀ f', op ≠ .putPrior n f') ∧ LatestPrior h n p) := by
  constructor
  · rintro ⟨bf, af, heq, hno⟩
    rcases List.eq_nil_or_concat af with rfl | ⟨af', x, rfl⟩
    · have := List.append_inj_right' heq (by simp)
      left
      simpa using this
    · right
      rw [List.concat_eq_append] at heq hno
      rw [← List.cons_append, ← List.append_assoc] at heq
      obtain ⟨h1, h2⟩ := List.append_inj' heq (by simp)
      have hx : op = x := by simpa using h2
      refine ⟨fun f' hf => hno f' (by simp [← hf, hx]), bf, af', h1, fun f' hf => hno f' (by simp [hf])⟩
  · rintro (rfl | ⟨hne, bf, af, rfl, hno⟩)
    · exact ⟨h, [], rfl, by simp⟩
    · refine ⟨bf, af ++ [op], by simp, ?_⟩
      intro f' hf
      rcases List.mem_append.1 hf with hf | hf
      · exact hno f' hf
      · exact hne f' (by simpa using (List.mem_singleton.1 hf).symm)

theorem latestMatch_snoc {h : List (Op F I M)} {op : Op F I M} {a b : ImageName} {m : M} :
    LatestMatch (h ++ [op]) a b m ↔
      op = .putMatch a b m ∨
        ((∀ m', op ≠ .putMatch a b m') ∧ op ≠ .removeAllMatches ∧ LatestMatch h a b m) := by
  constructor
  · rintro ⟨bf, af, heq, hno, hrm⟩
    rcases List.eq_nil_or_concat af with rfl | ⟨af', x, rfl⟩
    · have := List.append_inj_right' heq (by simp)
      left
      simpa using this
    · right
      rw [List.concat_eq_append] at heq hno hrm
      rw [← List.cons_append, ← List.append_assoc] at heq
      obtain ⟨h1, h2⟩ := List.append_inj' heq (by simp)
      have hx : op = x := by simpa using h2
      refine ⟨fun f' hf => hno f' (by simp [← hf, hx]), fun hf => hrm (by simp [← hf, hx]), bf, af', h1,
        fun f' hf => hno f' (by simp [hf]), fun hf => hrm (by simp [hf])⟩
  · rintro (rfl | ⟨hne, hnr, bf, af, rfl, hno, hrm⟩)
    · exact ⟨h, [], rfl, by simp, by simp⟩
    · refine ⟨bf, af ++ [op], by simp, ?_, ?_⟩
      · intro f' hf
        rcases List.mem_append.1 hf with hf | hf
        · exact hno f' hf
        · exact hne f' (by simpa using (List.mem_singleton.1 hf).symm)
      · intro hf
        rcases List.mem_append.1 hf with hf | hf
        · exact hrm hf
        · exact hnr (by simpa using (List.mem_singleton.1 hf).symm)

theorem run_snoc (h : List (Op F I M)) (op : Op F I M) : Mem.run (h ++ [op]) = (Mem.run h).step op := by
  simp [Mem.run]

theorem rocks_run_snoc (c : Codec F I M B) (h : List (Op F I M)) (op : Op F I M) :
    Rocks.run c (h ++ [op]) = (Rocks.run c h).step c op := by
  simp [Rocks.run]

theorem features_get (h : List (Op F I M)) (n : ImageName) (f : F) :
    (Mem.run h).features.get n = some f ↔ LatestFeatures h n f := by
  induction h using List.reverseRecOn generalizing f with
  | nil => simp [Mem.run, Mem.new, LatestFeatures]
  | append_singleton h op ih =>
    rw [run_snoc, latestFeatures_snoc]
    cases op with
    | putFeatures n' f' =>
      rw [Mem.step, Mem.putFeatures]
      simp only [AMap.get_insert]
      split
      · next hn => subst hn; simp
      · next hn =>
        rw [ih]
        have : ¬ n' = n := fun h => hn h.symm
        simp [this]
    | putPrior n' p => rw [Mem.step, Mem.putPrior]; simpa using ih f
    | putMatch a b m => rw [Mem.step, Mem.putMatch]; simpa using ih f
    | removeAllMatches => rw [Mem.step, Mem.removeAllMatches]; simpa using ih f

theorem priors_get (h : List (Op F I M)) (n : ImageName) (f : I) :
    (Mem.run h).priors.get n = some f ↔ LatestPrior h n f := by
  induction h using List.reverseRecOn generalizing f with
  | nil => simp [Mem.run, Mem.new, LatestPrior]
  | append_singleton h op ih =>
    rw [run_snoc, latestPrior_snoc]
    cases op with
    | putPrior n' f' =>
      rw [Mem.step, Mem.putPrior]
      simp only [AMap.get_insert]
      split
      · next hn => subst hn; simp
      · next hn =>
        rw [ih]
        have : ¬ n' = n := fun h => hn h.symm
        simp [this]
    | putFeatures n' p => rw [Mem.step, Mem.putFeatures]; simpa using ih f
    | putMatch a b m => rw [Mem.step, Mem.putMatch]; simpa using ih f
    | removeAllMatches => rw [Mem.step, Mem.removeAllMatches]; simpa using ih f

theorem matches_get (h : List (Op F I M)) (a b : ImageName) (m : M) :
    (Mem.run h).matches_.get (a, b) = some m ↔ LatestMatch h a b m := by
  induction h using List.reverseRecOn generalizing m with
  | nil => simp [Mem.run, Mem.new, LatestMatch]
  | append_singleton h op ih =>
    rw [run_snoc, latestMatch_snoc]
    cases op with
    | putMatch a' b' m' =>
      rw [Mem.step, Mem.putMatch]
      simp only [AMap.get_insert]
      split
      · next hn =>
        cases hn
        simp
      · next hn =>
        rw [ih]
        have : ¬ (a' = a ∧ b' = b) := fun h => hn (by rw [h.1, h.2])
        simp only [Op.putMatch.injEq, ne_eq, reduceCtorEq, not_false_eq_true, true_and]
        constructor
        · intro hl; exact Or.inr ⟨fun m' hm => this ⟨hm.1, hm.2.1⟩, hl⟩
        · rintro (hm | hm)
          · exact absurd ⟨hm.1, hm.2.1⟩ this
          · exact hm.2
    | putFeatures n' p => rw [Mem.step, Mem.putFeatures]; simpa using ih m
    | putPrior n' p => rw [Mem.step, Mem.putPrior]; simpa using ih m
    | removeAllMatches => rw [Mem.step, Mem.removeAllMatches]; simp

theorem run_wf (h : List (Op F I M)) :
    (Mem.run h).features.WF ∧ (Mem.run h).priors.WF ∧ (Mem.run h).matches_.WF := by
  induction h using List.reverseRecOn with
  | nil => exact ⟨AMap.wf_empty, AMap.wf_empty, AMap.wf_empty⟩
  | append_singleton h op ih =>
    rw [run_snoc]
    obtain ⟨h1, h2, h3⟩ := ih
    cases op with
    | putFeatures n f => exact ⟨AMap.wf_insert h1 _ _, h2, h3⟩
    | putPrior n p => exact ⟨h1, AMap.wf_insert h2 _ _, h3⟩
    | putMatch a b m => exact ⟨h1, h2, AMap.wf_insert h3 _ _⟩
    | removeAllMatches => exact ⟨h1, h2, AMap.wf_empty⟩

theorem findOrDie_ok {α : Type} {o : Option α} {a : α} : findOrDie o = .ok a ↔ o = some a := by
  cases o <;> simp [findOrDie]

theorem findOrDie_abort {α : Type} {o : Option α} : findOrDie o = .abort ↔ o = none := by
  cases o <;> simp [findOrDie]

/-! ### Names of pairs -/

theorem compose_inj {a a' b b' : ImageName} (ha : '/' ∉ a) (ha' : '/' ∉ a')
    (h : compose a b = compose a' b') : a = a' ∧ b = b' := by
  induction a generalizing a' with
  | nil =>
    cases a' with
    | nil => simpa [compose] using h
    | cons c cs =>
      have : '/' = c := by
        have := congrArg List.head? h
        simpa [compose, separator] using this
      exact absurd (this ▸ List.mem_cons_self) ha'
  | cons c cs ih =>
    cases a' with
    | nil =>
      have : c = '/' := by
        have := congrArg List.head? h
        simpa [compose, separator] using this
      exact absurd (by simp [this]) ha
    | cons c' cs' =>
      simp only [compose, List.cons_append, List.cons.injEq] at h
      simp only [List.mem_cons, not_or] at ha ha'
      obtain ⟨h1, h2⟩ := ih ha.2 ha'.2 h.2
      exact ⟨by rw [h.1, h1], h2⟩

theorem decompose_compose {a b : ImageName} (ha : '/' ∉ a) : decompose (compose a b) = (a, b) := by
  unfold decompose compose
  rw [if_pos (by simp)]
  have hall : ∀ x ∈ a, (fun c => decide (c ≠ separator)) x = true := by
    intro x hx
    refine decide_eq_true ?_
    rintro rfl
    exact ha hx
  rw [List.takeWhile_append_of_pos hall, List.dropWhile_append_of_pos hall]
  simp [separator]

theorem rocks_matches_get (c : Codec F I M B) (hc : ∀ m, c.decM (c.encM m) = m)
    (h : List (Op F I M)) (hp : PlainNames h) (a b : ImageName) (ha : '/' ∉ a) (m : M) :
    ((Rocks.run c h).matches_.get (compose a b)).map c.decM = some m ↔ LatestMatch h a b m := by
  induction h using List.reverseRecOn generalizing m with
  | nil => simp [Rocks.run, Rocks.new, LatestMatch]
  | append_singleton h op ih =>
    have hp' : PlainNames h := fun x y z hm => hp x y z (by simp [hm])
    rw [rocks_run_snoc, latestMatch_snoc]
    cases op with
    | putMatch a' b' m' =>
      rw [Rocks.step]
      simp only [AMap.get_insert]
      have ha' : '/' ∉ a' := hp a' b' m' (by simp)
      split
      · next hn =>
        obtain ⟨rfl, rfl⟩ := compose_inj ha ha' hn
        simp [hc]
      · next hn =>
        rw [ih hp']
        have : ¬ (a' = a ∧ b' = b) := fun h => hn (by rw [h.1, h.2])
        simp only [Op.putMatch.injEq, ne_eq, reduceCtorEq, not_false_eq_true, true_and]
        constructor
        · intro hl; exact Or.inr ⟨fun m' hm => this ⟨hm.1, hm.2.1⟩, hl⟩
        · rintro (hm | hm)
          · exact absurd ⟨hm.1, hm.2.1⟩ this
          · exact hm.2
    | putFeatures n' p => rw [Rocks.step]; simpa using ih hp' m
    | putPrior n' p => rw [Rocks.step]; simpa using ih hp' m
    | removeAllMatches => rw [Rocks.step]; simp

theorem rocks_features_get (c : Codec F I M B) (hc : ∀ f, c.decF (c.encF f) = f)
    (h : List (Op F I M)) (n : ImageName) (f : F) :
    ((Rocks.run c h).features.get n).map c.decF = some f ↔ LatestFeatures h n f := by
  induction h using List.reverseRecOn generalizing f with
  | nil => simp [Rocks.run, Rocks.new, LatestFeatures]
  | append_singleton h op ih =>
    rw [rocks_run_snoc, latestFeatures_snoc]
    cases op with
    | putFeatures n' f' =>
      rw [Rocks.step]
      simp only [AMap.get_insert]
      split
      · next hn => subst hn; simp [hc]
      · next hn =>
        rw [ih]
        have : ¬ n' = n := fun h => hn h.symm
        simp [this]
    | putPrior n' p => rw [Rocks.step]; simpa using ih f
    | putMatch a b m => rw [Rocks.step]; simpa using ih f
    | removeAllMatches => rw [Rocks.step]; simpa using ih f

theorem rocks_priors_get (c : Codec F I M B) (hc : ∀ f, c.decI (c.encI f) = f)
    (h : List (Op F I M)) (n : ImageName) (f : I) :
    ((Rocks.run c h).priors.get n).map c.decI = some f ↔ LatestPrior h n f := by
  induction h using List.reverseRecOn generalizing f with
  | nil => simp [Rocks.run, Rocks.new, LatestPrior]
  | append_singleton h op ih =>
    rw [rocks_run_snoc, latestPrior_snoc]
    cases op with
    | putPrior n' f' =>
      rw [Rocks.step]
      simp only [AMap.get_insert]
      split
      · next hn => subst hn; simp [hc]
      · next hn =>
        rw [ih]
        have : ¬ n' = n := fun h => hn h.symm
        simp [this]
    | putFeatures n' p => rw [Rocks.step]; simpa using ih f
    | putMatch a b m => rw [Rocks.step]; simpa using ih f
    | removeAllMatches => rw [Rocks.step]; simpa using ih f

theorem rocks_keys (c : Codec F I M B) (h : List (Op F I M)) (hp : PlainNames h) :
    ∀ k ∈ (Rocks.run c h).matches_.keys, ∃ a b, '/' ∉ a ∧ k = compose a b := by
  induction h using List.reverseRecOn with
  | nil => simp [Rocks.run, Rocks.new]
  | append_singleton h op ih =>
    have hp' : PlainNames h := fun x y z hm => hp x y z (by simp [hm])
    rw [rocks_run_snoc]
    cases op with
    | putMatch a' b' m' =>
      intro k hk
      rw [Rocks.step] at hk
      simp only [AMap.mem_keys_insert] at hk
      rcases hk with hk | hk
      · exact ⟨a', b', hp a' b' m' (by simp), hk⟩
      · exact ih hp' k hk
    | putFeatures n' p => exact ih hp'
    | putPrior n' p => exact ih hp'
    | removeAllMatches => intro k hk; simp [Rocks.step] at hk

/-! ### Files -/

theorem find?_congr' {α : Type} {l : List α} {p q : α → Bool} (h : ∀ x ∈ l, p x = q x) : l.find? p = l.find? q := by
  induction l with
  | nil => rfl
  | cons a l ih =>
    rw [List.find?_cons, List.find?_cons, h a List.mem_cons_self, ih fun x hx => h x (List.mem_cons_of_mem _ hx)]


theorem readMatches_get (i1 i2 : M → ImageName) (ms : List M) : ∀ (d : Mem F I M) (k : ImageName × ImageName),
    (ms.map fun m => (i1 m, i2 m)).Nodup →
    (d.readMatches i1 i2 ms).matches_.get k =
      match ms.find? (fun m => decide ((i1 m, i2 m) = k)) with
      | some m => some m
      | none => d.matches_.get k := by
  induction ms with
  | nil => intro d k _; rfl
  | cons m ms ih =>
    intro d k hnd
    rw [List.map_cons, List.nodup_cons] at hnd
    rw [Mem.readMatches, ih _ _ hnd.2, List.find?_cons]
    by_cases hk : (i1 m, i2 m) = k
    · have hnone : ms.find? (fun m => decide ((i1 m, i2 m) = k)) = none := by
        rw [List.find?_eq_none]
        intro x hx
        simp only [decide_eq_true_eq]
        intro hxk
        exact hnd.1 (List.mem_map.2 ⟨x, hx, hxk.trans hk.symm⟩)
      rw [hnone]
      simp only [hk, decide_true]
      rw [AMap.get_insert_self]
    · simp only [hk, decide_false]
      rw [AMap.get_insert_ne _ _ (fun h => hk h.symm)]

theorem readMatches_other (i1 i2 : M → ImageName) (ms : List M) : ∀ (d : Mem F I M),
    (d.readMatches i1 i2 ms).priors = d.priors ∧ (d.readMatches i1 i2 ms).features = d.features := by
  induction ms with
  | nil => intro d; exact ⟨rfl, rfl⟩
  | cons m ms ih => intro d; rw [Mem.readMatches]; exact ih _

theorem readPriors_get (es : List (ImageName × I)) : ∀ (d : Mem F I M) (n : ImageName),
    (es.map (·.1)).Nodup →
    (d.readPriors (es.map (·.1)) (es.map (·.2))).priors.get n =
      match es.find? (fun e => decide (e.1 = n)) with
      | some e => some e.2
      | none => d.priors.get n := by
  induction es with
  | nil => intro d n _; rfl
  | cons e es ih =>
    intro d n hnd
    rw [List.map_cons, List.nodup_cons] at hnd
    rw [List.map_cons, List.map_cons, Mem.readPriors, ih _ _ hnd.2, List.find?_cons]
    by_cases hk : e.1 = n
    · have hnone : es.find? (fun e => decide (e.1 = n)) = none := by
        rw [List.find?_eq_none]
        intro x hx
        simp only [decide_eq_true_eq]
        intro hxk
        exact hnd.1 (List.mem_map.2 ⟨x, hx, hxk.trans hk.symm⟩)
      rw [hnone]
      simp only [hk, decide_true]
      rw [AMap.get_insert_self]
    · simp only [hk, decide_false]
      rw [AMap.get_insert_ne _ _ (fun h => hk h.symm)]

theorem readPriors_other (ns : List ImageName) : ∀ (ps : List I) (d : Mem F I M),
    (d.readPriors ns ps).matches_ = d.matches_ ∧ (d.readPriors ns ps).features = d.features := by
  induction ns with
  | nil => intro ps d; cases ps <;> exact ⟨rfl, rfl⟩
  | cons n ns ih =>
    intro ps d
    cases ps with
    | nil => exact ⟨rfl, rfl⟩
    | cons p ps => rw [Mem.readPriors]; exact ih _ _

end MatchDB
end Theia
