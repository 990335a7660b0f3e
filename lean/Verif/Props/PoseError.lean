import Mathlib.Analysis.Real.Pi.Bounds
import Mathlib.Tactic.Linarith
import Mathlib.Tactic.FieldSimp
import Verif.Props.Reservoir
import Verif.Spec.PoseError

/-!
# C111: statistics of pose errors
-/

namespace Theia

open PoseErr Spec.Stat

namespace PoseErr

theorem addAll_append (vs ws : List (WithBot ℚ)) (h : Histogram (WithBot ℚ)) :
    Histogram.addAll (vs ++ ws) h = (Histogram.addAll vs h) >>= Histogram.addAll ws := by
  induction vs generalizing h with
  | nil => rfl
  | cons v vs ih =>
    simp only [List.cons_append, Histogram.addAll]
    cases h.add v with
    | ok h' => exact ih h'
    | abort => rfl
    | ub => rfl

theorem bins_sorted {max : ℚ} {b : List ℚ} (h : Bins max b) :
    ((⊥ : WithBot ℚ) :: b.map (fun x : ℚ => (x : WithBot ℚ)) ++ [(max : WithBot ℚ)]).Pairwise (· ≤ ·) := by
  have h2 := h.2
  have : ((b ++ [max]).map (fun x : ℚ => (x : WithBot ℚ))).Pairwise (· ≤ ·) := by
    rw [List.pairwise_map]
    exact h2.imp (fun h => WithBot.coe_le_coe.2 h)
  rw [List.cons_append, List.pairwise_cons]
  exact ⟨fun _ _ => bot_le, by simpa using this⟩

/-- The histogram after adding numbers. -/
def Filled (max : ℚ) (b xs : List ℚ) (h : Histogram (WithBot ℚ)) : Prop :=
  Histogram.addAll (xs.map fun x : ℚ => (x : WithBot ℚ)) (Histogram.new ⊥ max (b.map fun x : ℚ => (x : WithBot ℚ))) = .ok h

theorem filled_add {max : ℚ} {b xs : List ℚ} {h : Histogram (WithBot ℚ)} (hb : Bins max b) (hf : Filled max b xs h) (x : ℚ) :
    ∃ h', h.add x = .ok h' ∧ Filled max b (xs ++ [x]) h' := by
  obtain ⟨h', e, -⟩ := C25_no_value_lost (⊥ : WithBot ℚ) max (b.map fun x : ℚ => (x : WithBot ℚ)) (bins_sorted hb)
    ((xs ++ [x]).map fun x : ℚ => (x : WithBot ℚ)) (fun _ _ => bot_le)
  refine ⟨h', ?_, e⟩
  rw [List.map_append, addAll_append, hf, Outcome.ok_bind] at e
  simp only [List.map_cons, List.map_nil, Histogram.addAll] at e
  cases hx : h.add (x : WithBot ℚ) with
  | ok h'' => simpa only [hx] using e
  | abort => simp [hx] at e
  | ub => simp [hx] at e

theorem filled_shows {max : ℚ} {b xs : List ℚ} {h : Histogram (WithBot ℚ)} (hb : Bins max b) (hf : Filled max b xs h) :
    ∃ rows, h.print = .ok rows ∧ Shows max xs rows := by
  obtain ⟨rows, e, h1, h2⟩ := C25_printed (⊥ : WithBot ℚ) max (b.map fun x : ℚ => (x : WithBot ℚ)) (by simpa using hb.1)
    (bins_sorted hb) (xs.map fun x : ℚ => (x : WithBot ℚ)) (fun _ _ => bot_le) h hf
  refine ⟨rows, e, ?_, ?_⟩
  · rw [h1, List.countP_map]
    apply List.countP_congr
    intro x _
    simp
  · intro row hrow
    have := h2 row hrow
    cases row with
    | below hi c => simpa [List.countP_map, Function.comp_def] using this
    | between lo hi c => simpa [List.countP_map, Function.comp_def] using this
    | above lo c => simpa [List.countP_map, Function.comp_def] using this

theorem filled_perm {max : ℚ} {b xs ys : List ℚ} {h h' : Histogram (WithBot ℚ)} (hb : Bins max b) (hf : Filled max b xs h)
    (hf' : Filled max b ys h') (hp : xs.Perm ys) : h = h' := by
  have key : ∀ (xs : List ℚ) (h : Histogram (WithBot ℚ)), Filled max b xs h →
      h.boundaries = ⊥ :: b.map (fun x : ℚ => (x : WithBot ℚ)) ++ [(max : WithBot ℚ)] ∧ h.counts.length = b.length + 2 ∧
      ∀ k, k < b.length + 2 → h.counts[k]? = some ((xs.map fun x : ℚ => (x : WithBot ℚ)).countP
        (Spec.inBucket ((⊥ : WithBot ℚ) :: b.map (fun x : ℚ => (x : WithBot ℚ)) ++ [(max : WithBot ℚ)]) k)) := by
    intro xs h hf
    obtain ⟨h0, e, -, h2, h3⟩ := C25_no_value_lost (⊥ : WithBot ℚ) max (b.map fun x : ℚ => (x : WithBot ℚ)) (bins_sorted hb)
      (xs.map fun x : ℚ => (x : WithBot ℚ)) (fun _ _ => bot_le)
    unfold Filled at hf
    rw [hf] at e
    cases e
    obtain ⟨h1, e1, e2, -⟩ := Histogram.addAll_spec (xs.map fun x : ℚ => (x : WithBot ℚ))
      (Histogram.new (⊥ : WithBot ℚ) max (b.map fun x : ℚ => (x : WithBot ℚ))) (by simp [Histogram.new])
      (fun v _ => by
        simp only [Histogram.new, List.cons_append]
        rw [Histogram.upperBound_cons, if_pos bot_le]
        omega)
    rw [hf] at e1
    cases e1
    exact ⟨e2, by simpa using h2, by simpa using h3⟩
  obtain ⟨a1, a2, a3⟩ := key xs h hf
  obtain ⟨b1, b2, b3⟩ := key ys h' hf'
  cases h with
  | mk bo co =>
    cases h' with
    | mk bo' co' =>
      simp only at a1 a2 a3 b1 b2 b3
      subst a1 b1
      congr 1
      apply List.ext_getElem?
      intro k
      by_cases hk : k < b.length + 2
      · rw [a3 k hk, b3 k hk, (hp.map _).countP_eq]
      · rw [List.getElem?_eq_none (by omega), List.getElem?_eq_none (by omega)]

theorem sorted_median {xs l : List ℚ} {m : ℚ} (hp : l.Perm xs) (hs : l.Pairwise (· ≤ ·)) (hm : l[l.length / 2]? = some m) :
    IsMedian xs m := by
  obtain ⟨hlt, rfl⟩ := List.getElem?_eq_some_iff.1 hm
  have hsplit : l = l.take (l.length / 2) ++ l[l.length / 2] :: l.drop (l.length / 2 + 1) := by
    rw [← List.drop_eq_getElem_cons hlt, List.take_append_drop]
  generalize hmm : l[l.length / 2] = m at *
  generalize hA : l.take (l.length / 2) = A at *
  generalize l.drop (l.length / 2 + 1) = B at *
  have hAl : A.length = l.length / 2 := by rw [← hA, List.length_take]; omega
  have hord := hs
  rw [hsplit, List.pairwise_append, List.pairwise_cons] at hord
  obtain ⟨-, ⟨hB, -⟩, hAB⟩ := hord
  refine ⟨hp.subset (by rw [hsplit]; simp), ?_, ?_⟩
  · rw [← hp.countP_eq, ← hp.length_eq, ← hAl]
    conv_lhs => rw [hsplit]
    have hz : B.countP (fun x => decide (x < m)) = 0 := List.countP_eq_zero.2 (fun x hx => by simpa using hB x hx)
    rw [List.countP_append, List.countP_cons, hz]
    simpa using List.countP_le_length
  · rw [← hp.countP_eq, ← hp.length_eq, ← hAl]
    conv_rhs => rw [hsplit]
    have hz : A.countP (fun x => decide (x ≤ m)) = A.length :=
      List.countP_eq_length.2 (fun x hx => by simpa using hAB x hx m (by simp))
    rw [List.countP_append, List.countP_cons, hz]
    simp

theorem foldl_sum (l : List ℚ) (a : ℚ) : l.foldl (· + ·) a = a + l.sum := by
  induction l generalizing a with
  | nil => simp
  | cons x l ih => simp [ih, add_assoc]

theorem numbers_ok {max : ℚ} {b xs l : List ℚ} {h : Histogram (WithBot ℚ)} (hb : Bins max b) (hf : Filled max b xs h)
    (hp : l.Perm xs) (hs : l.Pairwise (· ≤ ·)) (hne : xs ≠ []) : ∃ n, numbers l h = .ok n ∧ IsReport max xs n := by
  obtain ⟨rows, hr, hsh⟩ := filled_shows hb hf
  have hl : 0 < l.length := by rw [hp.length_eq]; exact List.length_pos_iff.2 hne
  have hlt : l.length / 2 < l.length := by omega
  have hm : l[l.length / 2]? = some l[l.length / 2] := List.getElem?_eq_getElem hlt
  refine ⟨⟨l.foldl (· + ·) 0 / l.length, l[l.length / 2], rows⟩, by simp only [numbers, hm, hr, Outcome.ok_bind], ?_,
    sorted_median hp hs hm, hsh⟩
  have h0 : (l.length : ℚ) ≠ 0 := by exact_mod_cast hl.ne'
  simp only [foldl_sum, zero_add]
  rw [← hp.length_eq, div_mul_cancel₀ _ h0, hp.sum_eq]

/-- What is known after calls. -/
structure Inv (max : ℚ) (rb pb : List ℚ) (es : List (ℚ × ℚ)) (s : State) : Prop where
  rotHist : Filled max rb (es.map (·.1)) s.rotHist
  posHist : Filled max pb (es.map (·.2)) s.posHist
  rot : s.rot.Perm (es.map (·.1))
  pos : s.pos.Perm (es.map (·.2))

theorem print_ok {max : ℚ} {rb pb : List ℚ} {es : List (ℚ × ℚ)} {s : State} (hr : Bins max rb) (hp : Bins max pb)
    (inv : Inv max rb pb es s) :
    ∃ r s', print s = .ok (r, s') ∧ Inv max rb pb es s' ∧ (es = [] → r = none) ∧
      (es ≠ [] → ∃ n m, r = some (n, m) ∧ IsReport max (es.map (·.1)) n ∧ IsReport max (es.map (·.2)) m) := by
  have hlen := inv.rot.length_eq
  rw [List.length_map] at hlen
  unfold print
  by_cases he : es = []
  · subst he
    rw [if_pos (by simpa using hlen)]
    exact ⟨none, s, rfl, inv, fun _ => rfl, fun h => absurd rfl h⟩
  · have hpos := List.length_pos_iff.2 he
    rw [if_neg (by omega)]
    have pr := (List.perm_insertionSort (· ≤ ·) s.rot).trans inv.rot
    have pp := (List.perm_insertionSort (· ≤ ·) s.pos).trans inv.pos
    obtain ⟨n, e1, hn⟩ := numbers_ok hr inv.rotHist pr (List.pairwise_insertionSort _ _) (by simpa using he)
    obtain ⟨m, e2, hm⟩ := numbers_ok hp inv.posHist pp (List.pairwise_insertionSort _ _) (by simpa using he)
    simp only [e1, e2, Outcome.ok_bind]
    exact ⟨_, _, rfl, ⟨inv.rotHist, inv.posHist, pr, pp⟩, fun h => absurd h he, fun _ => ⟨n, m, rfl, hn, hm⟩⟩

theorem run_ok {max : ℚ} {rb pb : List ℚ} (hr : Bins max rb) (hp : Bins max pb) (ops : List Op) {es : List (ℚ × ℚ)}
    {s : State} (inv : Inv max rb pb es s) : ∃ s', run ops s = .ok s' ∧ Inv max rb pb (es ++ errors ops) s' := by
  induction ops generalizing es s with
  | nil => exact ⟨s, rfl, by simpa [errors] using inv⟩
  | cons o os ih =>
    cases o with
    | add r p =>
      obtain ⟨h1, e1, f1⟩ := filled_add hr inv.rotHist r
      obtain ⟨h2, e2, f2⟩ := filled_add hp inv.posHist p
      have inv' : Inv max rb pb (es ++ [(r, p)]) ⟨h1, h2, s.rot ++ [r], s.pos ++ [p]⟩ :=
        ⟨by simpa using f1, by simpa using f2, by simpa using inv.rot.append_right [r], by simpa using inv.pos.append_right [p]⟩
      obtain ⟨s', e, hi⟩ := ih inv'
      refine ⟨s', ?_, by simpa [errors] using hi⟩
      simp only [run, step, addError, e1, e2, Outcome.ok_bind, e]
    | print =>
      obtain ⟨r, s1, e1, inv', -⟩ := print_ok hr hp inv
      obtain ⟨s', e, hi⟩ := ih inv'
      refine ⟨s', ?_, by simpa [errors] using hi⟩
      simp only [run, step, e1, Outcome.ok_bind, e]

theorem inv_new (max : ℚ) (rb pb : List ℚ) : Inv max rb pb [] (new max rb pb) :=
  ⟨rfl, rfl, by simp [new], by simp [new]⟩

end PoseErr

/-- **C111.** After any sequence of adding errors and printing, printing returns. If no errors were added, the message
says so. Otherwise it shows, for the rotations and for the positions, the mean of all errors added, their (upper) median
and the numbers of errors in the ranges of the histogram. -/
theorem C111_report (max : ℚ) (rb pb : List ℚ) (hr : Bins max rb) (hp : Bins max pb) (ops : List Op) :
    ∃ s r s', run ops (new max rb pb) = .ok s ∧ PoseErr.print s = .ok (r, s') ∧
      (errors ops = [] → r = none) ∧
      (errors ops ≠ [] → ∃ n m, r = some (n, m) ∧ IsReport max ((errors ops).map (·.1)) n ∧
        IsReport max ((errors ops).map (·.2)) m) := by
  obtain ⟨s, e, inv⟩ := run_ok hr hp ops (inv_new max rb pb)
  obtain ⟨r, s', e', -, h1, h2⟩ := print_ok hr hp inv
  exact ⟨s, r, s', e, e', by simpa using h1, by simpa using h2⟩

/-- **C111.** The message does not depend on the order in which the errors were added, on how rotation and position
errors were paired, or on how often it was printed before. -/
theorem C111_order (max : ℚ) (rb pb : List ℚ) (hr : Bins max rb) (hp : Bins max pb) (ops ops' : List Op) (s s' : State)
    (e : run ops (new max rb pb) = .ok s) (e' : run ops' (new max rb pb) = .ok s')
    (h1 : ((errors ops).map (·.1)).Perm ((errors ops').map (·.1)))
    (h2 : ((errors ops).map (·.2)).Perm ((errors ops').map (·.2))) :
    ∃ r t t', PoseErr.print s = .ok (r, t) ∧ PoseErr.print s' = .ok (r, t') := by
  obtain ⟨s1, f, inv⟩ := run_ok hr hp ops (inv_new max rb pb)
  rw [e] at f; cases f
  obtain ⟨s1', f, inv'⟩ := run_ok hr hp ops' (inv_new max rb pb)
  rw [e'] at f; cases f
  simp only [List.nil_append] at inv inv'
  obtain ⟨r, t, p, -⟩ := print_ok hr hp inv
  obtain ⟨r', t', p', -⟩ := print_ok hr hp inv'
  have hrot : s.rot.Perm s'.rot := inv.rot.trans (h1.trans inv'.rot.symm)
  have hpos : s.pos.Perm s'.pos := inv.pos.trans (h2.trans inv'.pos.symm)
  have hrh := filled_perm hr inv.rotHist inv'.rotHist h1
  have hph := filled_perm hp inv.posHist inv'.posHist h2
  have sr : s.rot.insertionSort (· ≤ ·) = s'.rot.insertionSort (· ≤ ·) :=
    List.Perm.eq_of_pairwise (fun a b _ _ => le_antisymm) (List.pairwise_insertionSort _ _) (List.pairwise_insertionSort _ _)
      ((List.perm_insertionSort _ _).trans (hrot.trans (List.perm_insertionSort _ _).symm))
  have sp : s.pos.insertionSort (· ≤ ·) = s'.pos.insertionSort (· ≤ ·) :=
    List.Perm.eq_of_pairwise (fun a b _ _ => le_antisymm) (List.pairwise_insertionSort _ _) (List.pairwise_insertionSort _ _)
      ((List.perm_insertionSort _ _).trans (hpos.trans (List.perm_insertionSort _ _).symm))
  refine ⟨r, t, t', p, ?_⟩
  rw [p']
  congr 2
  unfold PoseErr.print at p p'
  rw [hrot.length_eq] at p
  split at p
  · rename_i h0
    rw [if_pos h0] at p'
    cases p; cases p'; rfl
  · rename_i h0
    rw [if_neg h0] at p'
    simp only [sr, sp, hrh, hph, Outcome.bind_eq_ok] at p p'
    obtain ⟨a, ha, b, hb, p⟩ := p
    obtain ⟨a', ha', b', hb', p'⟩ := p'
    rw [ha] at ha'; cases ha'
    rw [hb] at hb'; cases hb'
    cases p; cases p'; rfl

/-- **C111.** Two numbers cannot both be the median. -/
theorem C111_median_unique (xs : List ℚ) (m m' : ℚ) (h : IsMedian xs m) (h' : IsMedian xs m') : m = m' := by
  have le : ∀ a b : ℚ, IsMedian xs a → IsMedian xs b → ¬ a < b := by
    intro a b ha hb hlt
    have : xs.countP (fun x => decide (x ≤ a)) ≤ xs.countP (fun x => decide (x < b)) :=
      List.countP_mono_left (fun x _ hx => by
        simp only [decide_eq_true_eq] at hx ⊢
        linarith)
    have := ha.above
    have := hb.below
    omega
  exact le_antisymm (not_lt.1 (le _ _ h' h)) (not_lt.1 (le _ _ h h'))

/-- **C111, finding.** For two different errors the median shown is the larger one, not their mean. -/
theorem C111_median_even (max a b : ℚ) (hab : a < b) (n : Numbers) (h : IsReport max [a, b] n) :
    n.median = b ∧ n.median ≠ (a + b) / 2 := by
  have hb : IsMedian [a, b] b := ⟨by simp, by simp [hab], by simp [hab.le]⟩
  have := C111_median_unique _ _ _ h.median hb
  refine ⟨this, ?_⟩
  rw [this]
  intro e
  linarith

/-- **C111, finding.** The program that compares reconstructions adds angles in radians to a histogram with boundaries
in degrees (applications/compare_reconstructions.cc:81-90, 116-121, 141-143, 156-163): however wrong the rotations are, no error is ever
counted at five or more. -/
theorem C111_radians (max : ℚ) (angles : List ℚ) (ha : ∀ x ∈ angles, (x : ℝ) ≤ Real.pi)
    (rows : List (Histogram.Row (WithBot ℚ))) (h : Shows max angles rows) (row : Histogram.Row (WithBot ℚ)) (hrow : row ∈ rows) :
    match row with
    | .below _ _ => True
    | .between lo _ c => (5 : ℚ) ≤ lo → c = 0
    | .above lo c => (5 : ℚ) ≤ lo → c = 0 := by
  have lt5 : ∀ x ∈ angles, ∀ lo : WithBot ℚ, ((5 : ℚ) : WithBot ℚ) ≤ lo → ¬ lo ≤ (x : WithBot ℚ) := by
    intro x hx lo hlo hle
    have h5 : (5 : ℚ) ≤ x := WithBot.coe_le_coe.1 (hlo.trans hle)
    have h5' : (5 : ℝ) ≤ x := by exact_mod_cast h5
    have := ha x hx
    have := Real.pi_lt_d2
    norm_num at this
    linarith
  have := h.each row hrow
  cases row with
  | below hi c => trivial
  | between lo hi c =>
    intro hlo
    rw [this, List.countP_eq_zero]
    intro x hx
    simp [lt5 x hx lo hlo]
  | above lo c =>
    intro hlo
    rw [this, List.countP_eq_zero]
    intro x hx
    simp [lt5 x hx lo hlo]

section Examples

/-- The boundaries of the program that compares reconstructions. -/
example : Bins 1000000 [1, 2, 5, 10, 15, 20, 45] := ⟨by simp, by decide⟩

/-- Three errors, printed twice. -/
example : (do
      let s ← run [.add 3 7, .add 1 60, .print, .add (1 / 2) 8] (new 1000 [1, 2] [5, 50])
      let x ← PoseErr.print s
      Outcome.ok x.1) =
    .ok (some (⟨3 / 2, 1, [.below (1 : ℚ) 1, .between (1 : ℚ) (2 : ℚ) 1, .above (2 : ℚ) 1]⟩,
      ⟨25, 8, [.between (5 : ℚ) (50 : ℚ) 2, .above (50 : ℚ) 1]⟩)) := by
  decide +kernel

end Examples

end Theia
