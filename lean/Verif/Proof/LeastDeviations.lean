import Verif.Model.LeastDeviations
import Verif.Spec.LeastDeviations
import Verif.Proof.RobustRotation
import Verif.Props.ConstrainedL1Solver

/-!
# Lemmas about the estimation of positions by least unsquared deviations
-/

namespace Theia
namespace LeastDeviations

open AngleAxis
open Matrix hiding comp
open RobustRotation (comp comp_ext comp_zero)

/-! ### The columns -/

/-- Both views of a pair have an orientation. -/
def oriented (O : AMap Nat (V3 ℝ)) (p : (Nat × Nat) × V3 ℝ) : Bool := O.contains p.1.1 && O.contains p.1.2

theorem mem_setInsert {s : List Nat} {v w : Nat} : w ∈ setInsert s v ↔ w ∈ s ∨ w = v := by
  unfold setInsert
  split
  · constructor
    · exact Or.inl
    · rintro (h | rfl)
      · exact h
      · assumption
  · simp

theorem nodup_setInsert {s : List Nat} (h : s.Nodup) (v : Nat) : (setInsert s v).Nodup := by
  unfold setInsert
  split
  · exact h
  · rename_i hv
    rw [List.nodup_append]
    exact ⟨h, by simp, by
      intro a ha b hb e
      rw [List.mem_singleton] at hb
      exact hv (hb ▸ e ▸ ha)⟩

theorem viewSet_spec (O : AMap Nat (V3 ℝ)) : ∀ (ps : List ((Nat × Nat) × V3 ℝ)) (s : List Nat), s.Nodup →
    (viewSet O ps s).Nodup ∧ ∀ v, v ∈ viewSet O ps s ↔ v ∈ s ∨ ∃ p ∈ ps.filter (oriented O), v = p.1.1 ∨ v = p.1.2
  | [], s, h => ⟨h, fun v => by simp [viewSet]⟩
  | p :: ps, s, h => by
    rw [viewSet, show (O.contains p.1.1 && O.contains p.1.2) = oriented O p from rfl]
    by_cases hp : oriented O p = true
    · rw [if_pos hp, List.filter_cons_of_pos hp]
      obtain ⟨h1, h2⟩ := viewSet_spec O ps _ (nodup_setInsert (nodup_setInsert h p.1.1) p.1.2)
      refine ⟨h1, fun v => ?_⟩
      rw [h2, mem_setInsert, mem_setInsert]
      simp only [List.mem_cons, exists_eq_or_imp, or_assoc]
    · rw [if_neg hp, List.filter_cons_of_neg hp]
      exact viewSet_spec O ps s h

theorem numberViews_spec : ∀ (L : List Nat) (i : Int) (m : AMap Nat Int), L.Nodup → m.WF →
    (numberViews L i m).2 = i + 3 * L.length ∧ (numberViews L i m).1.WF ∧
    (∀ v, v ∈ (numberViews L i m).1.keys ↔ v ∈ L ∨ v ∈ m.keys) ∧
    (∀ (k : Nat) v, L[k]? = some v → (numberViews L i m).1.get v = some (i + 3 * k)) ∧
    ∀ v, v ∉ L → (numberViews L i m).1.get v = m.get v
  | [], i, m, _, hw => ⟨by simp [numberViews], hw, by simp [numberViews], by simp, fun _ _ => rfl⟩
  | w :: L, i, m, hnd, hw => by
    rw [List.nodup_cons] at hnd
    obtain ⟨h1, h2, h3, h4, h5⟩ := numberViews_spec L (i + 3) (m.insert w i) hnd.2 (AMap.wf_insert hw _ _)
    rw [numberViews]
    refine ⟨?_, h2, fun v => ?_, ?_, fun v hv => ?_⟩
    · rw [h1, List.length_cons]
      push_cast
      ring
    · rw [h3, AMap.mem_keys_insert, List.mem_cons]
      tauto
    · intro k v hk
      cases k with
      | zero =>
        rw [List.getElem?_cons_zero, Option.some.injEq] at hk
        subst hk
        rw [h5 _ hnd.1, AMap.get_insert_self]
        simp
      | succ k =>
        rw [List.getElem?_cons_succ] at hk
        rw [h4 k v hk]
        push_cast
        congr 1
        ring
    · rw [List.mem_cons, not_or] at hv
      rw [h5 v hv.2, AMap.get_insert_ne _ _ hv.1]

theorem numberPairs_spec {vs : AMap Nat Int} {O : AMap Nat (V3 ℝ)} : ∀ (ps : List ((Nat × Nat) × V3 ℝ)) (i : Int)
    (m : AMap (Nat × Nat) Int), (∀ p ∈ ps, (vs.contains p.1.1 && vs.contains p.1.2) = oriented O p) →
    (ps.map (·.1)).Nodup → m.WF →
    (numberPairs vs ps i m).WF ∧
    (∀ ab, ab ∈ (numberPairs vs ps i m).keys ↔ ab ∈ (ps.filter (oriented O)).map (·.1) ∨ ab ∈ m.keys) ∧
    (∀ (k : Nat) p, (ps.filter (oriented O))[k]? = some p → (numberPairs vs ps i m).get p.1 = some (i + k)) ∧
    ∀ ab, ab ∉ ps.map (·.1) → (numberPairs vs ps i m).get ab = m.get ab
  | [], i, m, _, _, hw => ⟨hw, by simp [numberPairs], by simp, fun _ _ => rfl⟩
  | p :: ps, i, m, hv, hnd, hw => by
    rw [List.map_cons, List.nodup_cons] at hnd
    have hv' : ∀ p ∈ ps, (vs.contains p.1.1 && vs.contains p.1.2) = oriented O p :=
      fun q hq => hv q (List.mem_cons_of_mem _ hq)
    rw [numberPairs, hv p (by simp)]
    by_cases hp : oriented O p = true
    · rw [if_pos hp, List.filter_cons_of_pos hp]
      obtain ⟨h1, h2, h3, h4⟩ := numberPairs_spec ps (i + 1) (m.insert p.1 i) hv' hnd.2 (AMap.wf_insert hw _ _)
      refine ⟨h1, fun ab => ?_, ?_, fun ab hab => ?_⟩
      · rw [h2, AMap.mem_keys_insert, List.map_cons, List.mem_cons]
        tauto
      · intro k q hk
        cases k with
        | zero =>
          rw [List.getElem?_cons_zero, Option.some.injEq] at hk
          subst hk
          rw [h4 _ hnd.1, AMap.get_insert_self]
          simp
        | succ k =>
          rw [List.getElem?_cons_succ] at hk
          rw [h3 k q hk]
          push_cast
          congr 1
          ring
      · rw [List.map_cons, List.mem_cons, not_or] at hab
        rw [h4 ab hab.2, AMap.get_insert_ne _ _ hab.1]
    · rw [if_neg hp, List.filter_cons_of_neg hp]
      obtain ⟨h1, h2, h3, h4⟩ := numberPairs_spec ps i m hv' hnd.2 hw
      refine ⟨h1, h2, h3, fun ab hab => h4 ab ?_⟩
      rw [List.map_cons, List.mem_cons, not_or] at hab
      exact hab.2

/-- The columns of the views `L` and of the pairs `Q`, after the index mapping. -/
structure Columns (st : State) (L : List Nat) (Q : List ((Nat × Nat) × V3 ℝ)) : Prop where
  nodup : L.Nodup
  views : ∀ (k : Nat) v, L[k]? = some v → st.views.get v = some ((-3 : Int) + 3 * k)
  noView : ∀ v, v ∉ L → st.views.get v = none
  viewsWF : st.views.WF
  viewsSize : st.views.size = L.length
  nodupPairs : (Q.map (·.1)).Nodup
  pairs : ∀ (k : Nat) p, Q[k]? = some p → st.pairs.get p.1 = some ((-3 : Int) + 3 * L.length + k)
  pairsSize : st.pairs.size = Q.length
  ends : ∀ v, v ∈ L ↔ ∃ p ∈ Q, v = p.1.1 ∨ v = p.1.2

theorem length_of_same {α : Type} {l l' : List α} (h : l.Nodup) (h' : l'.Nodup) (hm : ∀ a, a ∈ l ↔ a ∈ l') :
    l.length = l'.length := ((List.perm_ext_iff_of_nodup h h').2 hm).length_eq

theorem columns {order : List Nat → List Nat} (horder : ∀ l, (order l).Perm l) {ps : AMap (Nat × Nat) (V3 ℝ)}
    (hps : ps.WF) {O : AMap Nat (V3 ℝ)} {st : State} (hvw : st.views.WF) (hpw : st.pairs.WF)
    (hold : ∀ v ∈ st.views.keys, ∃ p ∈ ps.entries.filter (oriented O), v = p.1.1 ∨ v = p.1.2)
    (holdp : ∀ ab ∈ st.pairs.keys, ab ∈ (ps.entries.filter (oriented O)).map (·.1)) :
    Columns (indexMapping order ps O st) (order (viewSet O ps.entries [])) (ps.entries.filter (oriented O)) := by
  obtain ⟨s1, s2⟩ := viewSet_spec O ps.entries [] List.nodup_nil
  have hL : (order (viewSet O ps.entries [])).Nodup := (horder _).nodup_iff.2 s1
  have hmem : ∀ v, v ∈ order (viewSet O ps.entries []) ↔ ∃ p ∈ ps.entries.filter (oriented O), v = p.1.1 ∨ v = p.1.2 := by
    intro v
    rw [(horder _).mem_iff, s2]
    simp
  obtain ⟨n1, n2, n3, n4, n5⟩ := numberViews_spec (order (viewSet O ps.entries [])) (-3) st.views hL hvw
  have hkeys : ∀ v, v ∈ (numberViews (order (viewSet O ps.entries [])) (-3) st.views).1.keys ↔
      v ∈ order (viewSet O ps.entries []) := by
    intro v
    rw [n3]
    constructor
    · rintro (h | h)
      · exact h
      · exact (hmem v).2 (hold v h)
    · exact Or.inl
  have hcont : ∀ p ∈ ps.entries, ((numberViews (order (viewSet O ps.entries [])) (-3) st.views).1.contains p.1.1 &&
      (numberViews (order (viewSet O ps.entries [])) (-3) st.views).1.contains p.1.2) = oriented O p := by
    intro p hp
    rw [Bool.eq_iff_iff, Bool.and_eq_true, AMap.contains_iff, AMap.contains_iff, hkeys, hkeys, hmem, hmem]
    have hO : ∀ v, (∃ p ∈ ps.entries.filter (oriented O), v = p.1.1 ∨ v = p.1.2) → O.contains v = true := by
      rintro v ⟨q, hq, hv⟩
      have := (List.mem_filter.1 hq).2
      unfold oriented at this
      rw [Bool.and_eq_true] at this
      rcases hv with rfl | rfl
      · exact this.1
      · exact this.2
    constructor
    · rintro ⟨h1, h2⟩
      unfold oriented
      rw [hO _ h1, hO _ h2]
      rfl
    · intro h
      have : p ∈ ps.entries.filter (oriented O) := List.mem_filter.2 ⟨hp, h⟩
      exact ⟨⟨p, this, Or.inl rfl⟩, ⟨p, this, Or.inr rfl⟩⟩
  obtain ⟨p1, p2, p3, p4⟩ := numberPairs_spec (O := O) ps.entries
    (numberViews (order (viewSet O ps.entries [])) (-3) st.views).2 st.pairs hcont hps hpw
  have hQnd : ((ps.entries.filter (oriented O)).map (·.1)).Nodup :=
    List.Nodup.sublist (List.filter_sublist.map _) hps
  refine ⟨hL, n4, fun v hv => ?_, n2, ?_, hQnd, ?_, ?_, hmem⟩
  · exact AMap.get_eq_none_iff.2 fun h => hv ((hkeys v).1 h)
  · rw [AMap.size_eq_length_keys]
    exact length_of_same n2 hL hkeys
  · intro k p hk
    exact (p3 k p hk).trans (by rw [n1])
  · rw [AMap.size_eq_length_keys, ← List.length_map (f := (·.1)) (as := ps.entries.filter (oriented O))]
    refine length_of_same p1 hQnd fun ab => ?_
    refine (p2 ab).trans ⟨?_, Or.inl⟩
    rintro (h | h)
    · exact h
    · exact holdp ab h

/-! ### The matrix -/

/-- The sum over the entries of a row. -/
noncomputable def rowSum {n : Nat} (es : List (Nat × Nat × ℝ)) (x : Fin n → ℝ) (r : Nat) : ℝ :=
  (es.map fun e => if e.1 = r then e.2.2 * entry x e.2.1 else 0).sum

theorem mulVec_rowSum {m n : Nat} (x : Fin n → ℝ) (r : Fin m) : ∀ es : List (Nat × Nat × ℝ),
    (matrix m n es *ᵥ x) r = rowSum es x r
  | [] => by simp [matrix, mulVec, dotProduct, rowSum, LinearRotation.stored]
  | e :: es => by
    have ih := mulVec_rowSum (m := m) x r es
    simp only [mulVec, dotProduct, matrix, rowSum, List.map_cons, List.sum_cons] at ih ⊢
    rw [← ih]
    simp only [RobustRotation.stored_cons, add_mul, Finset.sum_add_distrib]
    congr 1
    by_cases h : e.1 = r.val
    · rw [if_pos h]
      unfold entry
      by_cases hj : e.2.1 < n
      · rw [dif_pos hj, Finset.sum_eq_single (⟨e.2.1, hj⟩ : Fin n)]
        · rw [if_pos ⟨h, rfl⟩]
        · intro b _ hb
          rw [if_neg, zero_mul]
          rintro ⟨-, h'⟩
          exact hb (Fin.ext h'.symm)
        · intro h'
          exact absurd (Finset.mem_univ _) h'
      · rw [dif_neg hj, mul_zero]
        apply Finset.sum_eq_zero
        intro b _
        rw [if_neg, zero_mul]
        rintro ⟨-, h'⟩
        exact hj (h' ▸ b.isLt)
    · rw [if_neg h]
      apply Finset.sum_eq_zero
      intro b _
      rw [if_neg (fun h' => h h'.1), zero_mul]

theorem rowSum_append {n : Nat} (es fs : List (Nat × Nat × ℝ)) (x : Fin n → ℝ) (r : Nat) :
    rowSum (es ++ fs) x r = rowSum es x r + rowSum fs x r := by
  simp [rowSum]

theorem rowSum_view {n : Nat} (x : Fin n → ℝ) (k : Nat) (i : Int) (value : ℝ) (r : Nat) :
    rowSum (viewTriplets (3 * k) i value) x r = if r / 3 = k then value * comp (r % 3) (positionAt x i) else 0 := by
  unfold viewTriplets positionAt
  by_cases h : i = -3
  · rw [if_pos h, if_pos h, comp_zero]
    simp [rowSum]
  · rw [if_neg h, if_neg h]
    simp only [rowSum, List.map_cons, List.map_nil, List.sum_cons, List.sum_nil, add_zero, comp]
    by_cases hk : r / 3 = k
    · rw [if_pos hk]
      have hc : r % 3 = 0 ∨ r % 3 = 1 ∨ r % 3 = 2 := by omega
      rcases hc with hc | hc | hc
      · rw [if_pos (by omega), if_neg (by omega), if_neg (by omega), hc]
        simp
      · rw [if_neg (by omega), if_pos (by omega), if_neg (by omega), hc]
        simp
      · rw [if_neg (by omega), if_neg (by omega), if_pos (by omega), hc]
        simp
    · rw [if_neg hk, if_neg (by omega), if_neg (by omega), if_neg (by omega)]
      simp

theorem rowSum_scale {n : Nat} (x : Fin n → ℝ) (k : Nat) (i : Int) (t : V3 ℝ) (r : Nat) :
    rowSum (scaleTriplets (3 * k) i t) x r = if r / 3 = k then -(entry x i.toNat * comp (r % 3) t) else 0 := by
  unfold scaleTriplets
  simp only [rowSum, List.map_cons, List.map_nil, List.sum_cons, List.sum_nil, add_zero, comp]
  by_cases hk : r / 3 = k
  · rw [if_pos hk]
    have hc : r % 3 = 0 ∨ r % 3 = 1 ∨ r % 3 = 2 := by omega
    rcases hc with hc | hc | hc
    · rw [if_pos (by omega), if_neg (by omega), if_neg (by omega), hc]
      simp
      ring
    · rw [if_neg (by omega), if_pos (by omega), if_neg (by omega), hc]
      simp
      ring
    · rw [if_neg (by omega), if_neg (by omega), if_pos (by omega), hc]
      simp
      ring
  · rw [if_neg hk, if_neg (by omega), if_neg (by omega), if_neg (by omega)]
    simp

/-- The position of a view in a solution. -/
noncomputable def viewPos {n : Nat} (st : State) (x : Fin n → ℝ) (v : Nat) : V3 ℝ :=
  match st.views.get v with
  | none => V3.zero
  | some i => positionAt x i

/-- The scale of a pair in a solution. -/
noncomputable def scaleOf {n : Nat} (st : State) (x : Fin n → ℝ) (ab : Nat × Nat) : ℝ :=
  match st.pairs.get ab with
  | none => 0
  | some i => entry x i.toNat

/-- The orientation of a view; only used for views that have one. -/
noncomputable def rot (O : AMap Nat (V3 ℝ)) (v : Nat) : V3 ℝ := (O.get v).getD V3.zero

theorem viewTriplets_bound {row : Nat} {i : Int} {value : ℝ} {n : Nat} (hi : i = -3 ∨ 0 ≤ i ∧ i + 3 ≤ n)
    {e : Nat × Nat × ℝ} (he : e ∈ viewTriplets row i value) : e.1 < row + 3 ∧ e.2.1 < n := by
  unfold viewTriplets at he
  split at he
  · simp at he
  · simp only [List.mem_cons, List.not_mem_nil, or_false] at he
    rcases he with rfl | rfl | rfl <;> simp only <;> omega

theorem scaleTriplets_bound {row : Nat} {i : Int} {t : V3 ℝ} {n : Nat} (hi : 0 ≤ i ∧ i < n)
    {e : Nat × Nat × ℝ} (he : e ∈ scaleTriplets row i t) : e.1 < row + 3 ∧ e.2.1 < n := by
  unfold scaleTriplets at he
  simp only [List.mem_cons, List.not_mem_nil, or_false] at he
  rcases he with rfl | rfl | rfl <;> simp only <;> omega

theorem comp_deviation (i : Nat) (a b t : V3 ℝ) (s : ℝ) :
    comp i ((a.sub b).sub (t.smul s)) = comp i a - comp i b - s * comp i t := by
  unfold comp V3.sub V3.smul
  split_ifs <;> simp only

theorem triplets_ok {st : State} {O : AMap Nat (V3 ℝ)} {n : Nat} : ∀ (k : Nat) (ps : List ((Nat × Nat) × V3 ℝ)),
    (∀ p ∈ ps, oriented O p = true → (∃ i, st.views.get p.1.1 = some i ∧ (i = -3 ∨ 0 ≤ i ∧ i + 3 ≤ n)) ∧
      (∃ i, st.views.get p.1.2 = some i ∧ (i = -3 ∨ 0 ≤ i ∧ i + 3 ≤ n)) ∧
      ∃ i, st.pairs.get p.1 = some i ∧ 0 ≤ i ∧ i < n) →
    (∀ p ∈ ps, oriented O p = false → st.views.get p.1.1 = none ∨ st.views.get p.1.2 = none) →
    ∃ es, triplets st O (3 * k) ps = .ok es ∧
      (∀ e ∈ es, e.1 < 3 * (k + (ps.filter (oriented O)).length) ∧ e.2.1 < n) ∧
      ∀ (x : Fin n → ℝ) (r : Nat), (r / 3 < k → rowSum es x r = 0) ∧
        ∀ j p, (ps.filter (oriented O))[j]? = some p → r / 3 = k + j →
          rowSum es x r = comp (r % 3) (Spec.pairDeviation (rot O) (viewPos st x) (scaleOf st x) p)
  | k, [], _, _ => ⟨[], rfl, by simp, fun x r => ⟨fun _ => by simp [rowSum], fun j c h => by simp at h⟩⟩
  | k, p :: ps, h1, h2 => by
    have h1' := fun q (hq : q ∈ ps) => h1 q (List.mem_cons_of_mem _ hq)
    have h2' := fun q (hq : q ∈ ps) => h2 q (List.mem_cons_of_mem _ hq)
    by_cases hp : oriented O p = true
    · obtain ⟨⟨i, hi, hi'⟩, ⟨j, hj, hj'⟩, c, hc, hc'⟩ := h1 p (by simp) hp
      obtain ⟨es, e1, e2, e3⟩ := triplets_ok (k + 1) ps h1' h2'
      obtain ⟨r, hr⟩ : ∃ r, O.get p.1.1 = some r := by
        unfold oriented at hp
        rw [Bool.and_eq_true, AMap.contains_iff] at hp
        exact AMap.mem_keys_iff.1 hp.1
      refine ⟨viewTriplets (3 * k) i (-1) ++ viewTriplets (3 * k) j 1 ++
        scaleTriplets (3 * k) c (rotated r p.2) ++ es, ?_, ?_, fun x q => ⟨?_, ?_⟩⟩
      · rw [triplets]
        simp only [hi, hj, hc, hr]
        rw [show 3 * k + 3 = 3 * (k + 1) by ring, e1]
      · intro e he
        rw [List.filter_cons_of_pos hp, List.length_cons]
        rw [List.mem_append, List.mem_append, List.mem_append] at he
        rcases he with ((he | he) | he) | he
        · have := viewTriplets_bound hi' he
          exact ⟨by omega, this.2⟩
        · have := viewTriplets_bound hj' he
          exact ⟨by omega, this.2⟩
        · have := scaleTriplets_bound hc' he
          exact ⟨by omega, this.2⟩
        · have := e2 e he
          exact ⟨by omega, this.2⟩
      · intro hq
        rw [rowSum_append, rowSum_append, rowSum_append, rowSum_view, rowSum_view, rowSum_scale, if_neg (by omega),
          if_neg (by omega), if_neg (by omega), (e3 x q).1 (by omega)]
        ring
      · intro l d hd hq
        rw [rowSum_append, rowSum_append, rowSum_append, rowSum_view, rowSum_view, rowSum_scale]
        rw [List.filter_cons_of_pos hp] at hd
        cases l with
        | zero =>
          rw [List.getElem?_cons_zero, Option.some.injEq] at hd
          subst hd
          rw [if_pos (by omega), if_pos (by omega), if_pos (by omega), (e3 x q).1 (by omega)]
          unfold Spec.pairDeviation Spec.pairDirection
          rw [comp_deviation]
          simp only [viewPos, scaleOf, rot, hi, hj, hc, hr, Option.getD_some, rotated]
          ring
        | succ l =>
          rw [List.getElem?_cons_succ] at hd
          rw [if_neg (by omega), if_neg (by omega), if_neg (by omega), (e3 x q).2 l d hd (by omega)]
          ring
    · obtain ⟨es, e1, e2, e3⟩ := triplets_ok k ps h1' h2'
      rw [List.filter_cons_of_neg hp]
      refine ⟨es, ?_, e2, e3⟩
      rw [triplets]
      rcases h2 p (by simp) (by simpa using hp) with h | h
      · simp only [h]
        exact e1
      · cases hg : st.views.get p.1.1 with
        | none => exact e1
        | some i =>
          simp only [h]
          exact e1

/-! ### Vectors as positions and scales -/

section
variable {st : State} {L : List Nat} {Q : List ((Nat × Nat) × V3 ℝ)} {n : Nat}

theorem viewPos_first (hc : Columns st L Q) (x : Fin n → ℝ) {v0 : Nat} (h : L[0]? = some v0) :
    viewPos st x v0 = V3.zero := by
  unfold viewPos
  rw [hc.views 0 v0 h]
  simp [positionAt]

theorem viewPos_get (hc : Columns st L Q) (x : Fin n → ℝ) {k v : Nat} (h : L[k + 1]? = some v) :
    viewPos st x v = ⟨entry x (3 * k), entry x (3 * k + 1), entry x (3 * k + 2)⟩ := by
  unfold viewPos
  rw [hc.views (k + 1) v h]
  simp only [positionAt]
  rw [if_neg (by push_cast; omega), show ((-3 : Int) + 3 * ((k + 1 : Nat) : Int)).toNat = 3 * k by omega]

theorem scaleOf_get (hc : Columns st L Q) (hL : L.length ≠ 0) (x : Fin n → ℝ) {k : Nat} {p : (Nat × Nat) × V3 ℝ}
    (h : Q[k]? = some p) : scaleOf st x p.1 = entry x (3 * (L.length - 1) + k) := by
  unfold scaleOf
  rw [hc.pairs k p h]
  simp only
  congr 1
  omega

/-- The vector of given positions and scales. -/
noncomputable def vecOf (L : List Nat) (Q : List ((Nat × Nat) × V3 ℝ)) (T : Nat → V3 ℝ) (s : Nat × Nat → ℝ) :
    Fin n → ℝ := fun j =>
  if j.val < 3 * (L.length - 1) then (L[j.val / 3 + 1]?).elim 0 fun v => comp (j.val % 3) (T v)
  else (Q[j.val - 3 * (L.length - 1)]?).elim 0 fun p => s p.1

theorem entry_lt {x : Fin n → ℝ} {j : Nat} (h : j < n) : entry x j = x ⟨j, h⟩ := dif_pos h

theorem viewPos_vecOf (hc : Columns st L Q) (hn : 3 * (L.length - 1) ≤ n) {v0 : Nat} (h0 : L[0]? = some v0)
    {T : Nat → V3 ℝ} (hT : T v0 = V3.zero) (s : Nat × Nat → ℝ) {v : Nat} (hv : v ∈ L) :
    viewPos st (vecOf L Q T s : Fin n → ℝ) v = T v := by
  obtain ⟨k, hk, rfl⟩ := List.getElem_of_mem hv
  cases k with
  | zero =>
    rw [List.getElem?_eq_getElem hk] at h0
    rw [Option.some.inj h0, viewPos_first hc _ (by rw [List.getElem?_eq_getElem hk, h0]), hT]
  | succ k =>
    rw [viewPos_get hc _ (List.getElem?_eq_getElem hk)]
    have key : ∀ i < 3, entry (vecOf L Q T s : Fin n → ℝ) (3 * k + i) = comp i (T L[k + 1]) := by
      intro i hi
      rw [entry_lt (by omega)]
      unfold vecOf
      simp only
      rw [if_pos (by omega), show (3 * k + i) / 3 = k by omega, show (3 * k + i) % 3 = i by omega,
        List.getElem?_eq_getElem hk]
      rfl
    have e0 := key 0 (by omega)
    have e1 := key 1 (by omega)
    have e2 := key 2 (by omega)
    rw [add_zero] at e0
    rw [e0, e1, e2]
    rfl

theorem scaleOf_vecOf (hc : Columns st L Q) (hL : L.length ≠ 0) (hn : 3 * (L.length - 1) + Q.length ≤ n) (T : Nat → V3 ℝ)
    (s : Nat × Nat → ℝ) {p : (Nat × Nat) × V3 ℝ} (hp : p ∈ Q) :
    scaleOf st (vecOf L Q T s : Fin n → ℝ) p.1 = s p.1 := by
  obtain ⟨k, hk, rfl⟩ := List.getElem_of_mem hp
  rw [scaleOf_get hc hL _ (List.getElem?_eq_getElem hk), entry_lt (by omega)]
  unfold vecOf
  simp only
  rw [if_neg (by omega), show 3 * (L.length - 1) + k - 3 * (L.length - 1) = k by omega, List.getElem?_eq_getElem hk]
  rfl

theorem eq_zero_of (hc : Columns st L Q) (hL : L.length ≠ 0) (hn : n = 3 * (L.length - 1) + Q.length) {x : Fin n → ℝ}
    (hv : ∀ v ∈ L, viewPos st x v = V3.zero) (hs : ∀ p ∈ Q, scaleOf st x p.1 = 0) : x = 0 := by
  funext j
  have hj := j.isLt
  by_cases h : j.val < 3 * (L.length - 1)
  · have hk : j.val / 3 + 1 < L.length := by omega
    have := hv _ (List.getElem_mem hk)
    rw [viewPos_get hc _ (List.getElem?_eq_getElem hk)] at this
    have hx := congrArg V3.x this
    have hy := congrArg V3.y this
    have hz := congrArg V3.z this
    simp only [V3.zero] at hx hy hz
    rw [entry_lt (by omega)] at hx hy hz
    have hm : j.val % 3 = 0 ∨ j.val % 3 = 1 ∨ j.val % 3 = 2 := by omega
    rcases hm with hm | hm | hm
    · rw [show j = ⟨3 * (j.val / 3), by omega⟩ from Fin.ext (by simp; omega)]
      exact hx
    · rw [show j = ⟨3 * (j.val / 3) + 1, by omega⟩ from Fin.ext (by simp; omega)]
      exact hy
    · rw [show j = ⟨3 * (j.val / 3) + 2, by omega⟩ from Fin.ext (by simp; omega)]
      exact hz
  · have hk : j.val - 3 * (L.length - 1) < Q.length := by omega
    have := hs _ (List.getElem_mem hk)
    rw [scaleOf_get hc hL _ (List.getElem?_eq_getElem hk), entry_lt (by omega)] at this
    rw [show j = ⟨3 * (L.length - 1) + (j.val - 3 * (L.length - 1)), by omega⟩ from Fin.ext (by simp; omega)]
    exact this

/-- What the two matrices do to a vector. -/
structure System (st : State) (O : AMap Nat (V3 ℝ)) (L : List Nat) (Q : List ((Nat × Nat) × V3 ℝ)) {n : Nat}
    (A : Matrix (Fin (3 * Q.length)) (Fin n) ℝ) (C : Matrix (Fin Q.length) (Fin n) ℝ) : Prop where
  cols : Columns st L Q
  nonempty : L.length ≠ 0
  big : 3 * (L.length - 1) + Q.length ≤ n
  residual : ∀ (x : Fin n → ℝ) (r : Fin (3 * Q.length)) p, Q[r.val / 3]? = some p →
    (A *ᵥ x) r = comp (r.val % 3) (Spec.pairDeviation (rot O) (viewPos st x) (scaleOf st x) p)
  scale : ∀ (x : Fin n → ℝ) (i : Fin Q.length) p, Q[i.val]? = some p → (C *ᵥ x) i = scaleOf st x p.1

variable {O : AMap Nat (V3 ℝ)} {A : Matrix (Fin (3 * Q.length)) (Fin n) ℝ} {C : Matrix (Fin Q.length) (Fin n) ℝ}

theorem System.scale_zero (h : System st O L Q A C) (x : Fin n → ℝ) : C *ᵥ x = 0 ↔ ∀ p ∈ Q, scaleOf st x p.1 = 0 := by
  constructor
  · intro hx p hp
    obtain ⟨k, hk, rfl⟩ := List.getElem_of_mem hp
    rw [← h.scale x ⟨k, hk⟩ _ (List.getElem?_eq_getElem hk), hx]
    rfl
  · intro hx
    funext i
    rw [h.scale x i _ (List.getElem?_eq_getElem i.isLt), hx _ (List.getElem_mem _)]
    rfl

theorem System.residual_zero (h : System st O L Q A C) (x : Fin n → ℝ) :
    A *ᵥ x = 0 ↔ ∀ p ∈ Q, Spec.pairDeviation (rot O) (viewPos st x) (scaleOf st x) p = V3.zero := by
  constructor
  · intro hx p hp
    obtain ⟨k, hk, rfl⟩ := List.getElem_of_mem hp
    apply comp_ext
    intro i hi
    have := h.residual x ⟨3 * k + i, by omega⟩ Q[k] (by
      rw [show (3 * k + i) / 3 = k by omega]
      exact List.getElem?_eq_getElem hk)
    rw [hx, show (3 * k + i) % 3 = i by omega] at this
    rw [← this, comp_zero]
    rfl
  · intro hx
    funext r
    have hr := r.isLt
    have hk : r.val / 3 < Q.length := by omega
    rw [h.residual x r _ (List.getElem?_eq_getElem hk), hx _ (List.getElem_mem hk), comp_zero]
    rfl

theorem deviation_of_zero {R P : Nat → V3 ℝ} {s : Nat × Nat → ℝ} {p : (Nat × Nat) × V3 ℝ} (hs : s p.1 = 0) :
    Spec.pairDeviation R P s p = V3.zero ↔ P p.1.2 = P p.1.1 := by
  unfold Spec.pairDeviation
  rw [hs]
  simp only [V3.sub, V3.smul, V3.zero, V3.mk.injEq, zero_mul, sub_zero, sub_eq_zero]
  constructor
  · rintro ⟨h1, h2, h3⟩
    exact V3.ext h1 h2 h3
  · intro h
    rw [h]
    exact ⟨rfl, rfl, rfl⟩

open Classical in
theorem System.kernel (h : System st O L Q A C) : (∀ x, A *ᵥ x = 0 → C *ᵥ x = 0 → x = 0) ↔
    n = 3 * (L.length - 1) + Q.length ∧ Spec.ConnectedBy Q L := by
  have hlen := h.nonempty
  have hbig := h.big
  obtain ⟨v0, h0⟩ : ∃ v0, L[0]? = some v0 := ⟨L[0], List.getElem?_eq_getElem (by omega)⟩
  have hv0 : v0 ∈ L := List.mem_of_getElem? h0
  constructor
  · intro hk
    refine ⟨?_, ?_⟩
    · by_contra hne
      set x : Fin n → ℝ := fun j => if j.val = n - 1 then 1 else 0 with hx
      have hent : ∀ j < n - 1, entry x j = 0 := by
        intro j hj
        rw [entry_lt (by omega)]
        simp only [hx]
        rw [if_neg (by omega)]
      have hs : ∀ p ∈ Q, scaleOf st x p.1 = 0 := by
        intro p hp
        obtain ⟨k, hk, rfl⟩ := List.getElem_of_mem hp
        rw [scaleOf_get h.cols hlen _ (List.getElem?_eq_getElem hk), hent _ (by omega)]
      have hp : ∀ v ∈ L, viewPos st x v = V3.zero := by
        intro v hv
        obtain ⟨k, hk, rfl⟩ := List.getElem_of_mem hv
        cases k with
        | zero => exact viewPos_first h.cols _ (List.getElem?_eq_getElem hk)
        | succ k =>
          rw [viewPos_get h.cols _ (List.getElem?_eq_getElem hk), hent _ (by omega), hent _ (by omega), hent _ (by omega)]
          rfl
      have hz := hk x ((h.residual_zero x).2 fun p hpq => by
        rw [deviation_of_zero (hs p hpq), hp _ ((h.cols.ends _).2 ⟨p, hpq, Or.inr rfl⟩),
          hp _ ((h.cols.ends _).2 ⟨p, hpq, Or.inl rfl⟩)]) ((h.scale_zero x).2 hs)
      have := congrFun hz ⟨n - 1, by omega⟩
      simp [hx] at this
    · by_contra hcon
      have hfar : ∃ v ∈ L, ¬Relation.EqvGen (fun a b => ∃ r, ((a, b), r) ∈ Q) v0 v := by
        by_contra hn
        push Not at hn
        exact hcon fun v hv w hw => ((hn v hv).symm).trans _ _ _ (hn w hw)
      obtain ⟨v, hv, hvf⟩ := hfar
      set T : Nat → V3 ℝ := fun w =>
        if Relation.EqvGen (fun a b => ∃ r, ((a, b), r) ∈ Q) v0 w then V3.zero else ⟨1, 0, 0⟩ with hT
      have hT0 : T v0 = V3.zero := if_pos (Relation.EqvGen.refl _)
      have hvp := fun {w} (hw : w ∈ L) =>
        viewPos_vecOf (n := n) h.cols (by omega) h0 hT0 (fun _ => (0 : ℝ)) hw
      have hs : ∀ p ∈ Q, scaleOf st (vecOf L Q T (fun _ => 0) : Fin n → ℝ) p.1 = 0 := fun p hp =>
        scaleOf_vecOf h.cols hlen hbig T (fun _ => 0) hp
      have hz := hk (vecOf L Q T fun _ => 0) ((h.residual_zero _).2 fun p hpq => by
        rw [deviation_of_zero (hs p hpq), hvp ((h.cols.ends _).2 ⟨p, hpq, Or.inr rfl⟩),
          hvp ((h.cols.ends _).2 ⟨p, hpq, Or.inl rfl⟩)]
        have hedge : Relation.EqvGen (fun a b => ∃ r, ((a, b), r) ∈ Q) p.1.1 p.1.2 :=
          Relation.EqvGen.rel _ _ ⟨p.2, hpq⟩
        by_cases h1 : Relation.EqvGen (fun a b => ∃ r, ((a, b), r) ∈ Q) v0 p.1.1
        · rw [hT]
          simp only
          rw [if_pos h1, if_pos (h1.trans _ _ _ hedge)]
        · rw [hT]
          simp only
          rw [if_neg h1, if_neg fun h2 => h1 (h2.trans _ _ _ hedge.symm)]) ((h.scale_zero _).2 hs)
      have hv1 := hvp hv
      rw [hz, show T v = ⟨1, 0, 0⟩ from if_neg hvf] at hv1
      have hent : ∀ j, entry (0 : Fin n → ℝ) j = 0 := by
        intro j
        unfold entry
        split <;> rfl
      have hzero : viewPos st (0 : Fin n → ℝ) v = V3.zero := by
        unfold viewPos positionAt
        split
        · rfl
        · split
          · rfl
          · rw [hent, hent, hent]
            rfl
      rw [hzero] at hv1
      have := congrArg V3.x hv1
      simp [V3.zero] at this
  · rintro ⟨hn, hcon⟩ x hA hC
    have hs := (h.scale_zero x).1 hC
    have hd := (h.residual_zero x).1 hA
    have heq : ∀ p ∈ Q, viewPos st x p.1.2 = viewPos st x p.1.1 := fun p hp => (deviation_of_zero (hs p hp)).1 (hd p hp)
    refine eq_zero_of h.cols hlen hn (fun v hv => ?_) hs
    have hj := hcon v0 hv0 v hv
    have : viewPos st x v0 = viewPos st x v := by
      clear hv h0 hv0
      induction hj with
      | rel a b hab =>
        obtain ⟨r, hr⟩ := hab
        exact (heq _ hr).symm
      | refl a => rfl
      | symm a b _ ih => exact ih.symm
      | trans a b c _ _ ih1 ih2 => exact ih1.trans ih2
    rw [← this, viewPos_first h.cols _ h0]

theorem System.cost (h : System st O L Q A C) (x : Fin n → ℝ) :
    Spec.sumAbs (A *ᵥ x - 0) = Spec.totalDeviation Q (rot O) (viewPos st x) (scaleOf st x) := by
  set g : Nat → (Nat × Nat) × V3 ℝ → ℝ := fun i p =>
    |comp i (Spec.pairDeviation (rot O) (viewPos st x) (scaleOf st x) p)| with hg
  have h1 : Spec.sumAbs (A *ᵥ x - 0) =
      ∑ i : Fin (3 * Q.length), (fun r : Nat => Q[r / 3]?.elim 0 (g (r % 3))) i := by
    unfold Spec.sumAbs
    apply Finset.sum_congr rfl
    intro i _
    have hi := i.isLt
    have hk : i.val / 3 < Q.length := by omega
    have hc := List.getElem?_eq_getElem hk
    rw [sub_zero, h.residual x i _ hc]
    simp only [hc, Option.elim_some, hg]
  rw [h1, RobustRotation.sum_blocks Q.length (fun r : Nat => Q[r / 3]?.elim 0 (g (r % 3)))]
  have h2 : (fun k : Nat => (fun r : Nat => Q[r / 3]?.elim 0 (g (r % 3))) (3 * k) +
      (fun r : Nat => Q[r / 3]?.elim 0 (g (r % 3))) (3 * k + 1) +
      (fun r : Nat => Q[r / 3]?.elim 0 (g (r % 3))) (3 * k + 2)) =
      fun k => Q[k]?.elim 0 (fun p => g 0 p + g 1 p + g 2 p) := by
    funext k
    simp only [show 3 * k / 3 = k by omega, show (3 * k + 1) / 3 = k by omega, show (3 * k + 2) / 3 = k by omega,
      show 3 * k % 3 = 0 by omega, show (3 * k + 1) % 3 = 1 by omega, show (3 * k + 2) % 3 = 2 by omega]
    cases Q[k]? <;> simp
  rw [h2, RobustRotation.range_getElem]
  unfold Spec.totalDeviation
  rfl

end

theorem totalDeviation_congr {ps : List ((Nat × Nat) × V3 ℝ)} {R R' P P' : Nat → V3 ℝ} {s s' : Nat × Nat → ℝ}
    (hR : ∀ p ∈ ps, R p.1.1 = R' p.1.1) (hd : ∀ p ∈ ps, (P p.1.2).sub (P p.1.1) = (P' p.1.2).sub (P' p.1.1))
    (hs : ∀ p ∈ ps, s p.1 = s' p.1) : Spec.totalDeviation ps R P s = Spec.totalDeviation ps R' P' s' := by
  unfold Spec.totalDeviation
  congr 1
  apply List.map_congr_left
  intro p hp
  simp only [Spec.pairDeviation, Spec.pairDirection, hR p hp, hd p hp, hs p hp]

/-! ### One call -/

theorem positions_get {n : Nat} (x : Fin n → ℝ) {m : AMap Nat Int} (hw : m.WF) (v : Nat) :
    (positions x m).get v = (m.get v).map (positionAt x) := by
  have key : ∀ (es : List (Nat × Int)) (a : AMap Nat (V3 ℝ)), (es.map (·.1)).Nodup →
      (es.foldl (fun m e => m.insert e.1 (positionAt x e.2)) a).get v =
        match (⟨es⟩ : AMap Nat Int).get v with
        | none => a.get v
        | some i => some (positionAt x i) := by
    intro es
    induction es with
    | nil => intro a _; rfl
    | cons e es ih =>
      intro a hnd
      rw [List.map_cons, List.nodup_cons] at hnd
      rw [List.foldl_cons, ih _ hnd.2]
      by_cases he : e.1 = v
      · have hnone : (⟨es⟩ : AMap Nat Int).get v = none := AMap.get_eq_none_iff.2 (he ▸ hnd.1)
        rw [hnone]
        simp only
        rw [AMap.get_insert, if_pos he.symm]
        simp [AMap.get, he]
      · rw [AMap.get_insert_ne _ _ (fun h => he h.symm)]
        have : (⟨e :: es⟩ : AMap Nat Int).get v = (⟨es⟩ : AMap Nat Int).get v := by
          simp [AMap.get, he]
        rw [this]
  unfold positions
  rw [key m.entries AMap.empty hw]
  cases hg : m.get v with
  | none => rfl
  | some i => rfl

/-- The whole call in terms of the system it solves. -/
theorem estimate_all {order : List Nat → List Nat} {ps : AMap (Nat × Nat) (V3 ℝ)}
    {O : AMap Nat (V3 ℝ)} {st : State} {L : List Nat}
    (hc : Columns (indexMapping order ps O st) L (ps.entries.filter (oriented O))) (hL : L.length ≠ 0) :
    ∃ (A : Matrix (Fin (3 * (ps.entries.filter (oriented O)).length)) (Fin (3 * (L.length - 1) + ps.size)) ℝ)
      (C : Matrix (Fin (ps.entries.filter (oriented O)).length) (Fin (3 * (L.length - 1) + ps.size)) ℝ),
      System (indexMapping order ps O st) O L (ps.entries.filter (oriented O)) A C ∧
      ∀ l1, estimate order l1 ps O st =
        match ConstrainedL1Solver.construct l1 A 0 C (fun _ => 1) with
        | .abort => .abort
        | .ub => .ub
        | .ok solver =>
          .ok (positions (solver.solve 0) (indexMapping order ps O st).views, indexMapping order ps O st) := by
  have hle : (ps.entries.filter (oriented O)).length ≤ ps.size := List.length_filter_le _ _
  have hview : ∀ v ∈ L, ∃ i, (indexMapping order ps O st).views.get v = some i ∧ (i = -3 ∨ 0 ≤ i ∧ i + 3 ≤ (3 * (L.length - 1) + ps.size : Nat)) := by
    intro v hv
    obtain ⟨k, hk, rfl⟩ := List.getElem_of_mem hv
    exact ⟨_, hc.views k _ (List.getElem?_eq_getElem hk), by omega⟩
  obtain ⟨es, e1, e2, e3⟩ := triplets_ok (st := indexMapping order ps O st) (O := O) (n := 3 * (L.length - 1) + ps.size) 0 ps.entries
    (by
      intro p hp ho
      have hq : p ∈ ps.entries.filter (oriented O) := List.mem_filter.2 ⟨hp, ho⟩
      refine ⟨hview _ ((hc.ends _).2 ⟨p, hq, Or.inl rfl⟩), hview _ ((hc.ends _).2 ⟨p, hq, Or.inr rfl⟩), ?_⟩
      obtain ⟨k, hk, rfl⟩ := List.getElem_of_mem hq
      exact ⟨_, hc.pairs k _ (List.getElem?_eq_getElem hk), by omega, by omega⟩)
    (by
      intro p hp ho
      by_contra hnot
      rw [not_or] at hnot
      have hin : ∀ v, (indexMapping order ps O st).views.get v ≠ none → O.contains v = true := by
        intro v hv
        have hvL : v ∈ L := by
          by_contra h
          exact hv (hc.noView v h)
        obtain ⟨q, hq, hqv⟩ := (hc.ends v).1 hvL
        have := (List.mem_filter.1 hq).2
        unfold oriented at this
        rw [Bool.and_eq_true] at this
        rcases hqv with rfl | rfl
        · exact this.1
        · exact this.2
      unfold oriented at ho
      rw [hin _ hnot.1, hin _ hnot.2] at ho
      exact absurd ho (by decide))
  refine ⟨matrix _ _ es, geqMatrix L.length _ _, ⟨hc, hL, by omega, ?_, ?_⟩, ?_⟩
  · intro x r p hp
    rw [mulVec_rowSum]
    exact (e3 x r).2 (r.val / 3) p hp (by omega)
  · intro x i p hp
    rw [scaleOf_get hc hL x hp]
    have hi := i.isLt
    rw [entry_lt (by omega)]
    simp only [mulVec, dotProduct, geqMatrix]
    rw [Finset.sum_eq_single (⟨3 * (L.length - 1) + i.val, by omega⟩ : Fin (3 * (L.length - 1) + ps.size))]
    · simp
    · intro b _ hb
      rw [if_neg (fun h => hb (Fin.ext h)), zero_mul]
    · intro h
      exact absurd (Finset.mem_univ _) h
  · intro l1
    have hvs := hc.viewsSize
    have hpz := hc.pairsSize
    unfold estimate
    simp only [hvs, hpz]
    rw [if_neg hL]
    rw [show (0 : Nat) = 3 * 0 from rfl, e1]
    simp only
    unfold solve
    rw [if_neg (by
      rintro ⟨e, he, h⟩
      have := e2 e he
      omega), if_neg (by omega)]
    cases ConstrainedL1Solver.construct l1 (matrix (3 * (ps.entries.filter (oriented O)).length)
        (3 * (L.length - 1) + ps.size) es) 0
        (geqMatrix L.length (ps.entries.filter (oriented O)).length (3 * (L.length - 1) + ps.size)) (fun _ => 1) with
    | abort => rfl
    | ub => rfl
    | ok solver =>
      simp only
      rw [if_neg]
      rintro ⟨e, he, h1, h2⟩
      have hg : (indexMapping order ps O st).views.get e.1 = some e.2 := AMap.get_of_mem_entries hc.viewsWF he
      have hvL : e.1 ∈ L := by
        by_contra h
        rw [hc.noView _ h] at hg
        exact absurd hg (by simp)
      obtain ⟨i, hi, hi'⟩ := hview _ hvL
      rw [hg, Option.some.injEq] at hi
      subst hi
      omega

end LeastDeviations
end Theia
