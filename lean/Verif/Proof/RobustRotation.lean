import Verif.Model.RobustRotation
import Verif.Spec.RobustRotation
import Verif.Props.L1Solver

/-!
# Lemmas about the robust estimation of global rotations
-/

namespace Theia
namespace RobustRotation

open AngleAxis Matrix

/-! ### Numbering the views -/

theorem number_get : ∀ (L : List Nat) (i : Int) (m : AMap Nat Int), L.Nodup →
    (∀ (k : Nat) v, L[k]? = some v → (number L i m).get v = some (i + k)) ∧
      ∀ v, v ∉ L → (number L i m).get v = m.get v
  | [], _, _, _ => ⟨fun k v h => by simp at h, fun _ _ => rfl⟩
  | w :: L, i, m, hnd => by
    obtain ⟨hw, hL⟩ := List.nodup_cons.1 hnd
    obtain ⟨h1, h2⟩ := number_get L (i + 1) (m.insert w i) hL
    constructor
    · intro k v h
      rw [number]
      cases k with
      | zero =>
        simp only [List.getElem?_cons_zero, Option.some.injEq] at h
        subst h
        rw [h2 w hw, AMap.get_insert_self]
        simp
      | succ k =>
        rw [List.getElem?_cons_succ] at h
        rw [h1 k v h]
        congr 1
        push_cast
        ring
    · intro v hv
      rw [List.mem_cons, not_or] at hv
      rw [number, h2 v hv.2, AMap.get_insert_ne _ _ hv.1]

/-- The step of a view. -/
noncomputable def stepAt {V : Nat} (s : Fin (3 * V) → ℝ) (i : Int) : V3 ℝ :=
  if i = -1 then V3.zero else segment s i.toNat

/-- The step of a view by its index in the map; nothing moves without an index. -/
noncomputable def viewStep {V : Nat} (m : AMap Nat Int) (s : Fin (3 * V) → ℝ) (v : Nat) : V3 ℝ :=
  match m.get v with
  | none => V3.zero
  | some i => stepAt s i

/-- The numbering of `L`. -/
abbrev numbered (L : List Nat) (m : AMap Nat Int) : AMap Nat Int := number L (-1) m

/-- A vector of steps from the steps of the views. -/
noncomputable def vecOf {V : Nat} (L : List Nat) (S : Nat → V3 ℝ) : Fin (3 * V) → ℝ := fun r =>
  match L[r.val / 3 + 1]? with
  | none => 0
  | some v => comp (r.val % 3) (S v)

theorem comp_ext {a b : V3 ℝ} (h : ∀ c < 3, comp c a = comp c b) : a = b := by
  have h0 := h 0 (by omega)
  have h1 := h 1 (by omega)
  have h2 := h 2 (by omega)
  simp only [comp] at h0 h1 h2
  norm_num at h0 h1 h2
  exact V3.ext h0 h1 h2

theorem comp_zero (c : Nat) : comp c V3.zero = 0 := by
  unfold comp V3.zero
  split_ifs <;> rfl

theorem viewStep_vecOf {V : Nat} {L : List Nat} (m : AMap Nat Int) (hnd : L.Nodup) (hlen : L.length = V + 1)
    {v0 : Nat} (h0 : L[0]? = some v0) {S : Nat → V3 ℝ} (hS : S v0 = V3.zero) {v : Nat} (hv : v ∈ L) :
    viewStep (numbered L m) (vecOf L S : Fin (3 * V) → ℝ) v = S v := by
  obtain ⟨k, hk, rfl⟩ := List.getElem_of_mem hv
  have hget := (number_get L (-1) m hnd).1 k L[k] (List.getElem?_eq_getElem hk)
  unfold viewStep
  rw [hget]
  simp only [stepAt]
  cases k with
  | zero =>
    rw [List.getElem?_eq_getElem hk] at h0
    rw [Option.some.inj h0, hS]
    simp
  | succ k =>
    rw [if_neg (by push_cast; omega)]
    have e : ((-1 : Int) + ((k + 1 : Nat) : Int)).toNat = k := by omega
    rw [e]
    unfold segment
    rw [dif_pos (by omega)]
    have h1 : 3 * k / 3 = k := by omega
    have h2 : (3 * k + 1) / 3 = k := by omega
    have h3 : (3 * k + 2) / 3 = k := by omega
    have m1 : 3 * k % 3 = 0 := by omega
    have m2 : (3 * k + 1) % 3 = 1 := by omega
    have m3 : (3 * k + 2) % 3 = 2 := by omega
    simp only [vecOf, h1, h2, h3, m1, m2, m3, List.getElem?_eq_getElem hk, comp]
    norm_num

theorem viewStep_first {V : Nat} {L : List Nat} (m : AMap Nat Int) (hnd : L.Nodup)
    {v0 : Nat} (h0 : L[0]? = some v0) (s : Fin (3 * V) → ℝ) : viewStep (numbered L m) s v0 = V3.zero := by
  have hget := (number_get L (-1) m hnd).1 0 v0 h0
  unfold viewStep
  rw [hget]
  simp [stepAt]

/-- A step is zero if no view moves. -/
theorem eq_zero_of_viewStep {V : Nat} {L : List Nat} (m : AMap Nat Int) (hnd : L.Nodup) (hlen : L.length = V + 1)
    {s : Fin (3 * V) → ℝ} (h : ∀ v ∈ L, viewStep (numbered L m) s v = V3.zero) : s = 0 := by
  funext r
  have hr := r.isLt
  have hk : r.val / 3 + 1 < L.length := by omega
  have hv := h L[r.val / 3 + 1] (List.getElem_mem hk)
  have hget := (number_get L (-1) m hnd).1 _ _ (List.getElem?_eq_getElem hk)
  unfold viewStep at hv
  rw [hget] at hv
  simp only [stepAt] at hv
  rw [if_neg (by push_cast; omega)] at hv
  have e : ((-1 : Int) + ((r.val / 3 + 1 : Nat) : Int)).toNat = r.val / 3 := by omega
  rw [e] at hv
  unfold segment at hv
  rw [dif_pos (by omega)] at hv
  have hx := congrArg V3.x hv
  have hy := congrArg V3.y hv
  have hz := congrArg V3.z hv
  simp only [V3.zero] at hx hy hz
  have hc : r.val % 3 = 0 ∨ r.val % 3 = 1 ∨ r.val % 3 = 2 := by omega
  rcases hc with hc | hc | hc
  · rw [show r = ⟨3 * (r.val / 3), by omega⟩ from Fin.ext (by simp; omega)]
    exact hx
  · rw [show r = ⟨3 * (r.val / 3) + 1, by omega⟩ from Fin.ext (by simp; omega)]
    exact hy
  · rw [show r = ⟨3 * (r.val / 3) + 2, by omega⟩ from Fin.ext (by simp; omega)]
    exact hz

/-! ### The matrix -/

/-- The entry of a vector at a place that may be outside. -/
noncomputable def entry {V : Nat} (s : Fin (3 * V) → ℝ) (j : Nat) : ℝ := if h : j < 3 * V then s ⟨j, h⟩ else 0

/-- The sum over the entries of a row. -/
noncomputable def rowSum {V : Nat} (es : List (Nat × Nat × ℝ)) (s : Fin (3 * V) → ℝ) (r : Nat) : ℝ :=
  (es.map fun e => if e.1 = r then e.2.2 * entry s e.2.1 else 0).sum

theorem stored_cons (e : Nat × Nat × ℝ) (es : List (Nat × Nat × ℝ)) (r c : Nat) :
    LinearRotation.stored (e :: es) r c =
      (if e.1 = r ∧ e.2.1 = c then e.2.2 else 0) + LinearRotation.stored es r c := by
  unfold LinearRotation.stored
  by_cases h : e.1 = r ∧ e.2.1 = c
  · rw [List.filter_cons_of_pos (by simpa using h), if_pos h]
    simp
  · rw [List.filter_cons_of_neg (by simpa using h), if_neg h, zero_add]

theorem mulVec_rowSum {E V : Nat} (s : Fin (3 * V) → ℝ) (r : Fin (3 * E)) : ∀ es : List (Nat × Nat × ℝ),
    (matrix E V es *ᵥ s) r = rowSum es s r
  | [] => by simp [matrix, mulVec, dotProduct, rowSum, LinearRotation.stored]
  | e :: es => by
    have ih := mulVec_rowSum (E := E) s r es
    simp only [mulVec, dotProduct, matrix, rowSum, List.map_cons, List.sum_cons] at ih ⊢
    rw [← ih]
    simp only [stored_cons, add_mul, Finset.sum_add_distrib]
    congr 1
    by_cases h : e.1 = r.val
    · rw [if_pos h]
      unfold entry
      by_cases hj : e.2.1 < 3 * V
      · rw [dif_pos hj, Finset.sum_eq_single (⟨e.2.1, hj⟩ : Fin (3 * V))]
        · rw [if_pos ⟨h, rfl⟩]
        · intro b _ hb
          rw [if_neg, zero_mul]
          rintro ⟨-, h'⟩
          exact hb (Fin.ext h'.symm)
        · intro h'
          exact absurd (Finset.mem_univ _) h'
      · rw [dif_neg hj, mul_zero]
        apply Finset.sum_eq_zero
        intro b _
        rw [if_neg, zero_mul]
        rintro ⟨-, h'⟩
        exact hj (h' ▸ b.isLt)
    · rw [if_neg h]
      apply Finset.sum_eq_zero
      intro b _
      rw [if_neg (fun h' => h h'.1), zero_mul]

theorem rowSum_append {V : Nat} (es fs : List (Nat × Nat × ℝ)) (s : Fin (3 * V) → ℝ) (r : Nat) :
    rowSum (es ++ fs) s r = rowSum es s r + rowSum fs s r := by
  simp [rowSum]

theorem rowSum_tripletsOf {V : Nat} (s : Fin (3 * V) → ℝ) (k : Nat) {i : Int} (hi : i = -1 ∨ 0 ≤ i ∧ i < V) (value : ℝ)
    (r : Nat) : rowSum (tripletsOf k i value) s r = if r / 3 = k then value * comp (r % 3) (stepAt s i) else 0 := by
  unfold tripletsOf stepAt
  by_cases h : i = -1
  · rw [if_pos h, if_pos h, comp_zero]
    simp [rowSum]
  · rw [if_neg h, if_neg h]
    have hV : i.toNat < V := by omega
    simp only [rowSum, List.map_cons, List.map_nil, List.sum_cons, List.sum_nil, add_zero, segment, dif_pos hV, entry,
      dif_pos (show 3 * i.toNat < 3 * V by omega), dif_pos (show 3 * i.toNat + 1 < 3 * V by omega),
      dif_pos (show 3 * i.toNat + 2 < 3 * V by omega), comp]
    by_cases hk : r / 3 = k
    · rw [if_pos hk]
      have hc : r % 3 = 0 ∨ r % 3 = 1 ∨ r % 3 = 2 := by omega
      rcases hc with hc | hc | hc
      · rw [if_pos (by omega), if_neg (by omega), if_neg (by omega), hc]
        simp
      · rw [if_neg (by omega), if_pos (by omega), if_neg (by omega), hc]
        simp
      · rw [if_neg (by omega), if_neg (by omega), if_pos (by omega), hc]
        simp
    · rw [if_neg hk, if_neg (by omega), if_neg (by omega), if_neg (by omega)]
      simp

/-- Every view of the constraints has an index in range. -/
def Indexed (V : Nat) (m : AMap Nat Int) (cs : List ((Nat × Nat) × V3 ℝ)) : Prop :=
  ∀ c ∈ cs, (∃ i, m.get c.1.1 = some i ∧ (i = -1 ∨ 0 ≤ i ∧ i < V)) ∧
    ∃ i, m.get c.1.2 = some i ∧ (i = -1 ∨ 0 ≤ i ∧ i < V)

theorem tripletsOf_col {V : Nat} {k : Nat} {i : Int} (hi : i = -1 ∨ 0 ≤ i ∧ i < V) {value : ℝ} {e : Nat × Nat × ℝ}
    (he : e ∈ tripletsOf k i value) : e.2.1 < 3 * V := by
  unfold tripletsOf at he
  split at he
  · simp at he
  · simp only [List.mem_cons, List.not_mem_nil, or_false] at he
    rcases he with rfl | rfl | rfl <;> simp only <;> omega

theorem triplets_ok {V : Nat} {m : AMap Nat Int} : ∀ (k : Nat) {cs : List ((Nat × Nat) × V3 ℝ)}, Indexed V m cs →
    ∃ es, triplets m k cs = .ok es ∧ (∀ e ∈ es, e.2.1 < 3 * V) ∧ ∀ (s : Fin (3 * V) → ℝ) (r : Nat),
      (r / 3 < k → rowSum es s r = 0) ∧ ∀ j c, cs[j]? = some c → r / 3 = k + j →
        rowSum es s r = comp (r % 3) (viewStep m s c.1.2) - comp (r % 3) (viewStep m s c.1.1)
  | k, [], _ => ⟨[], rfl, by simp, fun s r => ⟨fun _ => by simp [rowSum], fun j c h => by simp at h⟩⟩
  | k, c :: cs, h => by
    obtain ⟨⟨i, hi, hi'⟩, j, hj, hj'⟩ := h c (by simp)
    obtain ⟨es, h1, h2, h3⟩ := triplets_ok (k + 1) (fun c hc => h c (List.mem_cons_of_mem _ hc))
    refine ⟨tripletsOf k i (-1) ++ tripletsOf k j 1 ++ es, ?_, ?_, fun s r => ⟨?_, ?_⟩⟩
    · rw [triplets]
      simp only [hi, hj, h1]
    · intro e he
      rw [List.mem_append, List.mem_append] at he
      rcases he with (he | he) | he
      · exact tripletsOf_col hi' he
      · exact tripletsOf_col hj' he
      · exact h2 e he
    · intro hr
      rw [rowSum_append, rowSum_append, rowSum_tripletsOf s k hi', rowSum_tripletsOf s k hj', if_neg (by omega),
        if_neg (by omega), (h3 s r).1 (by omega)]
      ring
    · intro l d hd hr
      rw [rowSum_append, rowSum_append, rowSum_tripletsOf s k hi', rowSum_tripletsOf s k hj']
      cases l with
      | zero =>
        rw [List.getElem?_cons_zero, Option.some.injEq] at hd
        subst hd
        rw [if_pos (by omega), if_pos (by omega), (h3 s r).1 (by omega)]
        simp only [viewStep, hi, hj]
        ring
      | succ l =>
        rw [List.getElem?_cons_succ] at hd
        rw [if_neg (by omega), if_neg (by omega), (h3 s r).2 l d hd (by omega)]
        ring

theorem indexed_numbered {V : Nat} {L : List Nat} (m : AMap Nat Int) (hnd : L.Nodup) (hlen : L.length = V + 1)
    {cs : List ((Nat × Nat) × V3 ℝ)} (hcs : ∀ c ∈ cs, c.1.1 ∈ L ∧ c.1.2 ∈ L) : Indexed V (numbered L m) cs := by
  have h : ∀ v ∈ L, ∃ i, (numbered L m).get v = some i ∧ (i = -1 ∨ 0 ≤ i ∧ i < V) := by
    intro v hv
    obtain ⟨k, hk, rfl⟩ := List.getElem_of_mem hv
    refine ⟨_, (number_get L (-1) m hnd).1 k _ (List.getElem?_eq_getElem hk), ?_⟩
    omega
  exact fun c hc => ⟨h _ (hcs c hc).1, h _ (hcs c hc).2⟩

/-- `A` is the matrix of the differences of the steps along the constraints. -/
def Differences {E V : Nat} (A : Matrix (Fin (3 * E)) (Fin (3 * V)) ℝ) (m : AMap Nat Int)
    (cs : List ((Nat × Nat) × V3 ℝ)) : Prop :=
  ∀ (s : Fin (3 * V) → ℝ) (r : Fin (3 * E)) c, cs[r.val / 3]? = some c →
    (A *ᵥ s) r = comp (r.val % 3) (viewStep m s c.1.2) - comp (r.val % 3) (viewStep m s c.1.1)

theorem kernel_iff {E V : Nat} {A : Matrix (Fin (3 * E)) (Fin (3 * V)) ℝ} {m : AMap Nat Int}
    {cs : List ((Nat × Nat) × V3 ℝ)} (hA : Differences A m cs) (hE : cs.length = E) (s : Fin (3 * V) → ℝ) :
    A *ᵥ s = 0 ↔ ∀ c ∈ cs, viewStep m s c.1.2 = viewStep m s c.1.1 := by
  constructor
  · intro h c hc
    obtain ⟨k, hk, rfl⟩ := List.getElem_of_mem hc
    apply comp_ext
    intro i hi
    have := hA s ⟨3 * k + i, by omega⟩ cs[k] (by
      rw [show (3 * k + i) / 3 = k by omega]
      exact List.getElem?_eq_getElem hk)
    rw [h, show (3 * k + i) % 3 = i by omega] at this
    have h0 : (0 : Fin (3 * E) → ℝ) ⟨3 * k + i, by omega⟩ = 0 := rfl
    linarith
  · intro h
    funext r
    have hr := r.isLt
    have hk : r.val / 3 < cs.length := by omega
    rw [hA s r _ (List.getElem?_eq_getElem hk), h _ (List.getElem_mem hk)]
    simp

open Classical in
/-- The columns are independent exactly if the constraints join the views. -/
theorem kernel_connected {E V : Nat} {A : Matrix (Fin (3 * E)) (Fin (3 * V)) ℝ} {L : List Nat} (m : AMap Nat Int)
    (hnd : L.Nodup) (hlen : L.length = V + 1) {cs : List ((Nat × Nat) × V3 ℝ)}
    (hcs : ∀ c ∈ cs, c.1.1 ∈ L ∧ c.1.2 ∈ L) (hA : Differences A (numbered L m) cs) (hE : cs.length = E) :
    (∀ s, A *ᵥ s = 0 → s = 0) ↔ Spec.ConnectedBy cs L := by
  obtain ⟨v0, h0⟩ : ∃ v0, L[0]? = some v0 := ⟨L[0], List.getElem?_eq_getElem (by omega)⟩
  have hv0 : v0 ∈ L := List.mem_of_getElem? h0
  constructor
  · intro h
    by_contra hc
    have hfar : ∃ v ∈ L, ¬Relation.EqvGen (fun a b => ∃ r, ((a, b), r) ∈ cs) v0 v := by
      by_contra hn
      push Not at hn
      exact hc fun v hv w hw => ((hn v hv).symm).trans _ _ _ (hn w hw)
    obtain ⟨v, hv, hvf⟩ := hfar
    set S : Nat → V3 ℝ := fun w =>
      if Relation.EqvGen (fun a b => ∃ r, ((a, b), r) ∈ cs) v0 w then V3.zero else ⟨1, 0, 0⟩ with hS
    have hS0 : S v0 = V3.zero := if_pos (Relation.EqvGen.refl _)
    have hk : A *ᵥ (vecOf L S : Fin (3 * V) → ℝ) = 0 := by
      rw [kernel_iff hA hE]
      intro c hcm
      rw [viewStep_vecOf m hnd hlen h0 hS0 (hcs c hcm).2, viewStep_vecOf m hnd hlen h0 hS0 (hcs c hcm).1]
      have hedge : Relation.EqvGen (fun a b => ∃ r, ((a, b), r) ∈ cs) c.1.1 c.1.2 :=
        Relation.EqvGen.rel _ _ ⟨c.2, hcm⟩
      by_cases h1 : Relation.EqvGen (fun a b => ∃ r, ((a, b), r) ∈ cs) v0 c.1.1
      · rw [hS]
        simp only
        rw [if_pos h1, if_pos (h1.trans _ _ _ hedge)]
      · rw [hS]
        simp only
        rw [if_neg h1, if_neg fun h2 => h1 (h2.trans _ _ _ hedge.symm)]
    have hz := h _ hk
    have hvs := viewStep_vecOf m hnd hlen h0 hS0 hv
    rw [hz] at hvs
    have hone : S v = ⟨1, 0, 0⟩ := if_neg hvf
    have hzero : viewStep (numbered L m) (0 : Fin (3 * V) → ℝ) v = V3.zero := by
      unfold viewStep stepAt segment
      split
      · rfl
      · split_ifs <;> rfl
    rw [hzero, hone] at hvs
    have := congrArg V3.x hvs
    simp [V3.zero] at this
  · intro hconn s hs
    have heq := (kernel_iff hA hE s).1 hs
    apply eq_zero_of_viewStep m hnd hlen
    intro v hv
    have hj := hconn v0 hv0 v hv
    have : viewStep (numbered L m) s v0 = viewStep (numbered L m) s v := by
      clear hv h0 hv0
      induction hj with
      | rel a b hab =>
        obtain ⟨r, hr⟩ := hab
        exact (heq _ hr).symm
      | refl a => rfl
      | symm a b _ ih => exact ih.symm
      | trans a b c _ _ ih1 ih2 => exact ih1.trans ih2
    rw [← this, viewStep_first m hnd h0]

/-! ### Residuals and updates -/

/-- Every view of the constraints has an orientation. -/
def Covered (o : AMap Nat (V3 ℝ)) (cs : List ((Nat × Nat) × V3 ℝ)) : Prop :=
  ∀ c ∈ cs, c.1.1 ∈ o.keys ∧ c.1.2 ∈ o.keys

/-- The orientation of a view; only used for views that have one. -/
noncomputable def rot (o : AMap Nat (V3 ℝ)) (v : Nat) : V3 ℝ := (o.get v).getD V3.zero

theorem get_rot {o : AMap Nat (V3 ℝ)} {v : Nat} (h : v ∈ o.keys) : o.get v = some (rot o v) := by
  obtain ⟨r, hr⟩ := AMap.mem_keys_iff.1 h
  simp [rot, hr]

theorem residuals_ok (ofM : M3 ℝ → V3 ℝ) {o : AMap Nat (V3 ℝ)} : ∀ {cs : List ((Nat × Nat) × V3 ℝ)}, Covered o cs →
    residuals ofM o cs = .ok (cs.map fun c => residual ofM c.2 (rot o c.1.1) (rot o c.1.2))
  | [], _ => rfl
  | c :: cs, h => by
    have h1 := get_rot (h c (by simp)).1
    have h2 := get_rot (h c (by simp)).2
    rw [residuals, residuals_ok ofM fun c hc => h c (List.mem_cons_of_mem _ hc)]
    simp only [h1, h2, List.map_cons]

theorem residuals_missing (ofM : M3 ℝ → V3 ℝ) {o : AMap Nat (V3 ℝ)} : ∀ {cs : List ((Nat × Nat) × V3 ℝ)},
    ¬Covered o cs → ∀ rs, residuals ofM o cs ≠ .ok rs
  | [], h, _ => absurd (fun c hc => by simp at hc) h
  | c :: cs, h, rs => by
    rw [residuals]
    cases h1 : o.get c.1.1 with
    | none => simp
    | some r1 =>
      cases h2 : o.get c.1.2 with
      | none => simp
      | some r2 =>
        have := residuals_missing ofM (o := o) (cs := cs) (fun hc => h fun d hd => by
          rcases List.mem_cons.1 hd with rfl | hd
          · exact ⟨AMap.mem_keys_iff.2 ⟨_, h1⟩, AMap.mem_keys_iff.2 ⟨_, h2⟩⟩
          · exact hc d hd)
        cases h3 : residuals ofM o cs with
        | abort => simp
        | ub => simp
        | ok rs' => exact absurd h3 (this rs')

theorem rot_zero : toM (V3.zero : V3 ℝ) = M3.one := toM_zero

/-- The orientation after a step: the constant view keeps its own. -/
noncomputable def moved (ofM : M3 ℝ → V3 ℝ) (v0 : Nat) (S : Nat → V3 ℝ) (v : Nat) (r : V3 ℝ) : V3 ℝ :=
  if v = v0 then r else RotationFilters.multiply ofM r (S v)

theorem update_ok {V : Nat} (ofM : M3 ℝ → V3 ℝ) {L : List Nat} (m : AMap Nat Int) (hnd : L.Nodup)
    {v0 : Nat} (h0 : L[0]? = some v0) (s : Fin (3 * V) → ℝ) {o : AMap Nat (V3 ℝ)}
    (hk : ∀ v, v ∈ o.keys ↔ v ∈ L) :
    ∃ o', update ofM (numbered L m) s o = .ok o' ∧ o'.keys = o.keys ∧
      ∀ v ∈ L, rot o' v = moved ofM v0 (viewStep (numbered L m) s) v (rot o v) := by
  have hidx : ∀ v ∈ L, ∃ k : Nat, (numbered L m).get v = some (-1 + (k : Int)) ∧ L[k]? = some v := by
    intro v hv
    obtain ⟨k, hk', rfl⟩ := List.getElem_of_mem hv
    exact ⟨k, (number_get L (-1) m hnd).1 k _ (List.getElem?_eq_getElem hk'), List.getElem?_eq_getElem hk'⟩
  unfold update
  rw [if_pos]
  · refine ⟨_, rfl, AMap.keys_mapVals _ _, fun v hv => ?_⟩
    obtain ⟨k, hget, hkv⟩ := hidx v hv
    have ho := get_rot ((hk v).2 hv)
    have hro : rot o v = (o.get v).getD V3.zero := rfl
    unfold rot
    rw [AMap.get_mapVals, ← hro, ho]
    simp only [Option.map_some, hget]
    simp only [Option.getD_some, updated, moved, viewStep, hget, stepAt]
    by_cases hv0 : v = v0
    · subst hv0
      have : k = 0 := by
        by_contra hne
        obtain ⟨h1, e1⟩ := List.getElem?_eq_some_iff.1 hkv
        obtain ⟨h2, e2⟩ := List.getElem?_eq_some_iff.1 h0
        have := (List.Nodup.getElem_inj_iff hnd).1 (e1.trans e2.symm)
        exact hne this
      subst this
      simp
    · have hk0 : k ≠ 0 := by
        rintro rfl
        exact hv0 (Option.some.inj (hkv.symm.trans h0))
      rw [if_neg hv0, if_neg (by omega), if_neg (by omega)]
  · intro v hv
    obtain ⟨k, hget, -⟩ := hidx v ((hk v).1 hv)
    rw [AMap.contains, hget]
    rfl

theorem averageStep_ok {V : Nat} (hV : V ≠ 0) (s : Fin (3 * V) → ℝ) : ∃ a, averageStep s = .ok a := by
  unfold averageStep
  rw [if_neg hV]
  exact ⟨_, rfl⟩

theorem apply_ok {V : Nat} (ofM : M3 ℝ → V3 ℝ) {L : List Nat} {st : State} (m : AMap Nat Int)
    (hst : st.index = numbered L m) (hnd : L.Nodup) {v0 : Nat} (h0 : L[0]? = some v0) (hV : V ≠ 0)
    (s : Fin (3 * V) → ℝ) {o : AMap Nat (V3 ℝ)} (hk : ∀ v, v ∈ o.keys ↔ v ∈ L)
    (hcs : ∀ c ∈ st.constraints, c.1.1 ∈ L ∧ c.1.2 ∈ L) :
    ∃ o' a, apply ofM st s o = .ok (o', st.constraints.map fun c => residual ofM c.2 (rot o' c.1.1) (rot o' c.1.2), a) ∧
      o'.keys = o.keys ∧ ∀ v ∈ L, rot o' v = moved ofM v0 (viewStep (numbered L m) s) v (rot o v) := by
  obtain ⟨o', h1, h2, h3⟩ := update_ok ofM m hnd h0 s hk
  obtain ⟨a, ha⟩ := averageStep_ok hV s
  refine ⟨o', a, ?_, h2, h3⟩
  unfold apply
  rw [hst, h1]
  simp only
  rw [residuals_ok ofM (fun c hc => by rw [h2, hk, hk]; exact hcs c hc), ha]

/-! ### The weighted least squares step -/

theorem mulVec_symm_dot {m n : ℕ} (A : Matrix (Fin m) (Fin n) ℝ) (W : Fin m → ℝ) (x y : Fin n → ℝ) :
    x ⬝ᵥ ((Aᵀ * diagonal W * A) *ᵥ y) = ∑ i, W i * ((A *ᵥ x) i * (A *ᵥ y) i) := by
  rw [← mulVec_mulVec, ← mulVec_mulVec, dotProduct_mulVec, ← mulVec_transpose, transpose_transpose]
  unfold dotProduct
  apply Finset.sum_congr rfl
  intro i _
  rw [mulVec_diagonal]
  ring

theorem weighted_symm {m n : ℕ} (A : Matrix (Fin m) (Fin n) ℝ) (W : Fin m → ℝ) (i j : Fin n) :
    (Aᵀ * diagonal W * A) i j = (Aᵀ * diagonal W * A) j i := by
  have : (Aᵀ * diagonal W * A)ᵀ = Aᵀ * diagonal W * A := by
    rw [transpose_mul, transpose_mul, transpose_transpose, diagonal_transpose, Matrix.mul_assoc]
  exact congrFun (congrFun this.symm i) j

theorem weighted_posDef {m n : ℕ} {A : Matrix (Fin m) (Fin n) ℝ} (hA : ∀ s, A *ᵥ s = 0 → s = 0) {W : Fin m → ℝ}
    (hW : ∀ i, 0 < W i) : (Aᵀ * diagonal W * A).PosDef := by
  apply Matrix.PosDef.of_dotProduct_mulVec_pos
  · apply Matrix.IsHermitian.ext
    intro i j
    rw [star_trivial]
    exact weighted_symm A W j i
  · intro x hx
    rw [star_trivial, mulVec_symm_dot]
    have hne : A *ᵥ x ≠ 0 := fun h => hx (hA x h)
    obtain ⟨i, hi⟩ := Function.ne_iff.1 hne
    refine Finset.sum_pos' (fun j _ => mul_nonneg (hW j).le (mul_self_nonneg _)) ⟨i, Finset.mem_univ _, ?_⟩
    exact mul_pos (hW i) (mul_self_pos.2 hi)

/-- The step of the normal equations minimises the weighted sum of squares. -/
theorem weighted_minimizes {m n : ℕ} {A : Matrix (Fin m) (Fin n) ℝ} (hA : ∀ s, A *ᵥ s = 0 → s = 0) {W : Fin m → ℝ}
    (hW : ∀ i, 0 < W i) (b : Fin m → ℝ) (y : Fin n → ℝ) :
    ∑ i, W i * (b i - (A *ᵥ SparseCholesky.solve (Aᵀ * diagonal W * A) ((Aᵀ * diagonal W) *ᵥ b)) i) ^ 2 ≤
      ∑ i, W i * (b i - (A *ᵥ y) i) ^ 2 := by
  set x := SparseCholesky.solve (Aᵀ * diagonal W * A) ((Aᵀ * diagonal W) *ᵥ b) with hx
  have hu : IsUnit (Aᵀ * diagonal W * A).det :=
    (Matrix.isUnit_iff_isUnit_det _).mp (weighted_posDef hA hW).isUnit
  have hn : (Aᵀ * diagonal W * A) *ᵥ x = (Aᵀ * diagonal W) *ᵥ b := by
    rw [hx]
    unfold SparseCholesky.solve
    rw [mulVec_mulVec, mul_nonsing_inv _ hu, one_mulVec]
  have horth : ∑ i, W i * ((A *ᵥ (y - x)) i * (b i - (A *ᵥ x) i)) = 0 := by
    have h1 := mulVec_symm_dot A W (y - x) x
    rw [hn] at h1
    have h2 : (y - x) ⬝ᵥ ((Aᵀ * diagonal W) *ᵥ b) = ∑ i, W i * ((A *ᵥ (y - x)) i * b i) := by
      rw [← mulVec_mulVec, dotProduct_mulVec, ← mulVec_transpose, transpose_transpose]
      unfold dotProduct
      apply Finset.sum_congr rfl
      intro i _
      rw [mulVec_diagonal]
      ring
    rw [h2] at h1
    have h3 : ∑ i, W i * ((A *ᵥ (y - x)) i * (b i - (A *ᵥ x) i)) =
        ∑ i, W i * ((A *ᵥ (y - x)) i * b i) - ∑ i, W i * ((A *ᵥ (y - x)) i * (A *ᵥ x) i) := by
      rw [← Finset.sum_sub_distrib]
      apply Finset.sum_congr rfl
      intro i _
      ring
    rw [h3, h1, sub_self]
  have hexp : ∑ i, W i * (b i - (A *ᵥ y) i) ^ 2 = ∑ i, W i * (b i - (A *ᵥ x) i) ^ 2 +
      ∑ i, W i * ((A *ᵥ (y - x)) i * (A *ᵥ (y - x)) i) -
      2 * ∑ i, W i * ((A *ᵥ (y - x)) i * (b i - (A *ᵥ x) i)) := by
    rw [Finset.mul_sum, ← Finset.sum_add_distrib, ← Finset.sum_sub_distrib]
    apply Finset.sum_congr rfl
    intro i _
    rw [mulVec_sub, Pi.sub_apply]
    ring
  rw [hexp, horth]
  have : 0 ≤ ∑ i, W i * ((A *ᵥ (y - x)) i * (A *ᵥ (y - x)) i) :=
    Finset.sum_nonneg fun i _ => mul_nonneg (hW i).le (mul_self_nonneg _)
  linarith

theorem weight_pos {sigma : ℝ} (hs : 0 < sigma) (r : V3 ℝ) : 0 < weight sigma r := by
  have : 0 ≤ r.dot r := dot_self_nonneg r
  have h2 : 0 < r.dot r + sigma * sigma := by positivity
  unfold weight
  positivity

theorem weights_pos {E : Nat} {sigma : ℝ} (hs : 0 < sigma) {rs : List (V3 ℝ)} (hrs : rs.length = E) (i : Fin (3 * E)) :
    0 < weights sigma rs i := by
  have hi := i.isLt
  have hk : i.val / 3 < rs.length := by omega
  unfold weights
  rw [List.getElem?_eq_getElem hk]
  exact weight_pos hs _

/-- Sums over the rows are sums over the constraints. -/
theorem sum_blocks (E : Nat) (f : Nat → ℝ) :
    ∑ i : Fin (3 * E), f i = ((List.range E).map fun k => f (3 * k) + f (3 * k + 1) + f (3 * k + 2)).sum := by
  rw [Fin.sum_univ_eq_sum_range]
  induction E with
  | zero => simp
  | succ E ih =>
    rw [show 3 * (E + 1) = 3 * E + 1 + 1 + 1 by ring, Finset.sum_range_succ, Finset.sum_range_succ,
      Finset.sum_range_succ, ih, List.range_succ, List.map_append, List.sum_append]
    simp
    ring

/-! ### The loops -/

/-- What the loops work on: the views in the order they were numbered, the first one constant. -/
structure Ready (st : State) (L : List Nat) (m : AMap Nat Int) (v0 : Nat) : Prop where
  index : st.index = numbered L m
  nodup : L.Nodup
  first : L[0]? = some v0
  covered : ∀ c ∈ st.constraints, c.1.1 ∈ L ∧ c.1.2 ∈ L

variable {st : State} {L : List Nat} {m : AMap Nat Int} {v0 : Nat} {ofM : M3 ℝ → V3 ℝ} {opt : Options}

/-- The errors at some orientations. -/
noncomputable def errors (ofM : M3 ℝ → V3 ℝ) (st : State) (o : AMap Nat (V3 ℝ)) : List (V3 ℝ) :=
  st.constraints.map fun c => residual ofM c.2 (rot o c.1.1) (rot o c.1.2)

theorem l1Loop_ok {E V : Nat} (hr : Ready st L m v0) (hV : V ≠ 0) (solver : L1Solver.Solver (3 * E) (3 * V)) :
    ∀ (n : Nat) (k : ℤ) (s : Fin (3 * V) → ℝ) (rs : List (V3 ℝ)) {o : AMap Nat (V3 ℝ)}, (∀ v, v ∈ o.keys ↔ v ∈ L) →
      ∃ o', l1Loop ofM opt st solver n k s rs o = .ok o' ∧ o'.keys = o.keys ∧ rot o' v0 = rot o v0
  | 0, _, _, _, o, _ => ⟨o, rfl, rfl, rfl⟩
  | n + 1, k, s, rs, o, hk => by
    obtain ⟨o1, a, h1, h2, h3⟩ := apply_ok ofM m hr.index hr.nodup hr.first hV
      ((solver.setMaxIterations k).solve (flat rs) s) hk hr.covered
    have hv0 : rot o1 v0 = rot o v0 := by
      rw [h3 v0 (List.mem_of_getElem? hr.first), moved, if_pos rfl]
    rw [l1Loop]
    simp only [h1]
    split
    · exact ⟨o1, rfl, h2, hv0⟩
    · obtain ⟨o', e1, e2, e3⟩ := l1Loop_ok hr hV solver n (k * 2)
        ((solver.setMaxIterations k).solve (flat rs) s)
        (st.constraints.map fun c => residual ofM c.2 (rot o1 c.1.1) (rot o1 c.1.2)) (o := o1)
        (by rw [h2]; exact hk)
      exact ⟨o', e1, e2.trans h2, e3.trans hv0⟩

theorem solveL1_ok {E V : Nat} (hr : Ready st L m v0) (hV : V ≠ 0) {A : Matrix (Fin (3 * E)) (Fin (3 * V)) ℝ}
    (hA : ∀ s, A *ᵥ s = 0 → s = 0) {o : AMap Nat (V3 ℝ)} (hk : ∀ v, v ∈ o.keys ↔ v ∈ L) :
    ∃ o', solveL1 ofM opt st A o = .ok o' ∧ o'.keys = o.keys ∧ rot o' v0 = rot o v0 := by
  unfold solveL1
  rw [L1Solver.construct_ok hA]
  simp only
  rw [residuals_ok ofM (fun c hc => by rw [hk, hk]; exact hr.covered c hc)]
  exact l1Loop_ok hr hV _ _ _ _ _ hk

theorem solveL1_abort {E V : Nat} {A : Matrix (Fin (3 * E)) (Fin (3 * V)) ℝ} (hA : ¬∀ s, A *ᵥ s = 0 → s = 0)
    {o : AMap Nat (V3 ℝ)} : solveL1 ofM opt st A o = .abort := by
  unfold solveL1
  rw [L1Solver.construct_abort hA]

theorem solveL1_none {E V : Nat} {A : Matrix (Fin (3 * E)) (Fin (3 * V)) ℝ} (hA : ∀ s, A *ᵥ s = 0 → s = 0)
    (hr : Ready st L m v0) (hopt : opt.maxL1 ≤ 0) {o : AMap Nat (V3 ℝ)} (hk : ∀ v, v ∈ o.keys ↔ v ∈ L) :
    solveL1 ofM opt st A o = .ok o := by
  unfold solveL1
  rw [L1Solver.construct_ok hA]
  simp only
  rw [residuals_ok ofM (fun c hc => by rw [hk, hk]; exact hr.covered c hc)]
  have : opt.maxL1.toNat = 0 := by omega
  rw [this]
  rfl

/-- The step of one iteration of the second loop. -/
noncomputable def irlsStep {E V : Nat} (opt : Options) (A : Matrix (Fin (3 * E)) (Fin (3 * V)) ℝ) (rs : List (V3 ℝ)) :
    Fin (3 * V) → ℝ :=
  SparseCholesky.solve (Aᵀ * diagonal (weights opt.sigma rs) * A) ((Aᵀ * diagonal (weights opt.sigma rs)) *ᵥ flat rs)

theorem irlsLoop_succ {E V : Nat} (hr : Ready st L m v0) (hV : V ≠ 0) (hE : st.constraints.length = E)
    {A : Matrix (Fin (3 * E)) (Fin (3 * V)) ℝ} (hA : ∀ s, A *ᵥ s = 0 → s = 0) (hs : 0 < opt.sigma) (n : Nat)
    {o : AMap Nat (V3 ℝ)} (hk : ∀ v, v ∈ o.keys ↔ v ∈ L) :
    ∃ o1 a, averageStep (irlsStep opt A (errors ofM st o)) = .ok a ∧ o1.keys = o.keys ∧
      (∀ v ∈ L, rot o1 v =
        moved ofM v0 (viewStep (numbered L m) (irlsStep opt A (errors ofM st o))) v (rot o v)) ∧
      irlsLoop ofM opt st A (n + 1) (errors ofM st o) o =
        if a < opt.irlsThreshold then .ok (true, o1) else irlsLoop ofM opt st A n (errors ofM st o1) o1 := by
  obtain ⟨o1, a, h1, h2, h3⟩ := apply_ok ofM m hr.index hr.nodup hr.first hV
    (irlsStep opt A (errors ofM st o)) hk hr.covered
  have ha : averageStep (irlsStep opt A (errors ofM st o)) = .ok a := by
    unfold apply at h1
    split at h1
    · exact absurd h1 (by simp)
    · exact absurd h1 (by simp)
    · split at h1
      · exact absurd h1 (by simp)
      · exact absurd h1 (by simp)
      · split at h1
        · exact absurd h1 (by simp)
        · exact absurd h1 (by simp)
        · rename_i h
          have := Outcome.ok.inj h1
          simp only [Prod.mk.injEq] at this
          rw [h, this.2.2]
  refine ⟨o1, a, ha, h2, h3, ?_⟩
  have hlen : (errors ofM st o).length = E := by rw [errors, List.length_map, hE]
  rw [irlsLoop, if_neg]
  · have hcomp : SparseCholesky.compute (Aᵀ * diagonal (weights opt.sigma (errors ofM st o)) * A) =
        some (Aᵀ * diagonal (weights opt.sigma (errors ofM st o)) * A) := by
      unfold SparseCholesky.compute
      rw [L1Solver.symmetric_of_symm (weighted_symm A _),
        if_pos (weighted_posDef hA (weights_pos hs hlen))]
    simp only [hcomp]
    have h1' : apply ofM st (SparseCholesky.solve (Aᵀ * diagonal (weights opt.sigma (errors ofM st o)) * A)
        ((Aᵀ * diagonal (weights opt.sigma (errors ofM st o))) *ᵥ flat (errors ofM st o))) o =
        .ok (o1, errors ofM st o1, a) := h1
    simp only [h1']
  · rintro ⟨r, -, h⟩
    have := dot_self_nonneg r
    nlinarith [mul_pos hs hs]

theorem irlsLoop_ok {E V : Nat} (hr : Ready st L m v0) (hV : V ≠ 0) (hE : st.constraints.length = E)
    {A : Matrix (Fin (3 * E)) (Fin (3 * V)) ℝ} (hA : ∀ s, A *ᵥ s = 0 → s = 0) (hs : 0 < opt.sigma) :
    ∀ (n : Nat) {o : AMap Nat (V3 ℝ)}, (∀ v, v ∈ o.keys ↔ v ∈ L) →
      ∃ o', irlsLoop ofM opt st A n (errors ofM st o) o = .ok (true, o') ∧ o'.keys = o.keys ∧ rot o' v0 = rot o v0
  | 0, o, _ => ⟨o, rfl, rfl, rfl⟩
  | n + 1, o, hk => by
    obtain ⟨o1, a, -, h2, h3, h4⟩ := irlsLoop_succ (ofM := ofM) hr hV hE hA hs n hk
    have hv0 : rot o1 v0 = rot o v0 := by
      rw [h3 v0 (List.mem_of_getElem? hr.first), moved, if_pos rfl]
    rw [h4]
    split
    · exact ⟨o1, rfl, h2, hv0⟩
    · obtain ⟨o', e1, e2, e3⟩ := irlsLoop_ok hr hV hE hA hs n (o := o1) (by rw [h2]; exact hk)
      exact ⟨o', e1, e2.trans h2, e3.trans hv0⟩

theorem solveIrls_eq {E V : Nat} (hr : Ready st L m v0) (A : Matrix (Fin (3 * E)) (Fin (3 * V)) ℝ)
    {o : AMap Nat (V3 ℝ)} (hk : ∀ v, v ∈ o.keys ↔ v ∈ L) :
    solveIrls ofM opt st A o = irlsLoop ofM opt st A opt.maxIrls.toNat (errors ofM st o) o := by
  unfold solveIrls
  rw [residuals_ok ofM (fun c hc => by rw [hk, hk]; exact hr.covered c hc)]
  rfl

/-! ### One call -/

/-- The views in the order in which a call numbers them. -/
abbrev viewOrder (order : List (Nat × V3 ℝ) → List (Nat × V3 ℝ)) (o : AMap Nat (V3 ℝ)) : List Nat :=
  (order o.entries).map (·.1)

/-- The estimator after a call. -/
abbrev after (order : List (Nat × V3 ℝ) → List (Nat × V3 ℝ)) (st : State) (o : AMap Nat (V3 ℝ)) : State :=
  { st with index := numbered (viewOrder order o) st.index }

theorem viewOrder_perm {order : List (Nat × V3 ℝ) → List (Nat × V3 ℝ)} (horder : ∀ l, (order l).Perm l)
    (o : AMap Nat (V3 ℝ)) : (viewOrder order o).Perm o.keys := (horder _).map _

theorem ready {order : List (Nat × V3 ℝ) → List (Nat × V3 ℝ)} (horder : ∀ l, (order l).Perm l)
    {o : AMap Nat (V3 ℝ)} (hw : o.WF) (hsize : o.size ≠ 0) (hcov : Covered o st.constraints) :
    ∃ v0, Ready (after order st o) (viewOrder order o) st.index v0 ∧
      (viewOrder order o).length = o.size - 1 + 1 ∧ ∀ v, v ∈ o.keys ↔ v ∈ viewOrder order o := by
  have hp := viewOrder_perm horder o
  have hlen : (viewOrder order o).length = o.size := by rw [hp.length_eq, AMap.size_eq_length_keys]
  have hm : ∀ v, v ∈ o.keys ↔ v ∈ viewOrder order o := fun v => hp.mem_iff.symm
  refine ⟨(viewOrder order o)[0], ⟨rfl, hp.nodup_iff.2 hw, List.getElem?_eq_getElem _, ?_⟩, by omega, hm⟩
  intro c hc
  rw [← hm, ← hm]
  exact hcov c hc

theorem estimate_eq {order : List (Nat × V3 ℝ) → List (Nat × V3 ℝ)}
    {o : AMap Nat (V3 ℝ)} (hne : st.constraints ≠ []) (hsize : o.size ≠ 0)
    {v0 : Nat} (hr : Ready (after order st o) (viewOrder order o) st.index v0)
    (hlen : (viewOrder order o).length = o.size - 1 + 1) :
    ∃ A : Matrix (Fin (3 * st.constraints.length)) (Fin (3 * (o.size - 1))) ℝ,
      Differences A (numbered (viewOrder order o) st.index) st.constraints ∧
      estimate ofM order opt st o =
        match solveL1 ofM opt (after order st o) A o with
        | .abort => .abort
        | .ub => .ub
        | .ok o1 =>
          match solveIrls ofM opt (after order st o) A o1 with
          | .abort => .abort
          | .ub => .ub
          | .ok (b, o2) => .ok (b, o2, after order st o) := by
  obtain ⟨es, h1, h2, h3⟩ := triplets_ok (V := o.size - 1) 0
    (indexed_numbered st.index hr.nodup hlen (cs := st.constraints) hr.covered)
  refine ⟨matrix _ _ es, ?_, ?_⟩
  · intro s r c hc
    rw [mulVec_rowSum]
    exact (h3 s r).2 _ c hc (by omega)
  · unfold estimate
    rw [if_neg (by simpa using hne), if_neg hsize]
    simp only
    rw [h1]
    simp only
    rw [if_neg fun ⟨e, he, hle⟩ => absurd (h2 e he) (by omega)]
    rfl

/-! ### Consistent orientations -/

theorem log_one (hlog : IsLog ofM) : ofM M3.one = V3.zero := by
  have h := hlog.sq M3.IsRotation.one
  apply eq_zero_of_dot
  rw [h]
  have : AngleAxis.angle M3.one = 0 := by
    unfold AngleAxis.angle AngleAxis.trace M3.one
    norm_num
  rw [this]
  ring

theorem toM_multiply (hlog : IsLog ofM) (a b : V3 ℝ) :
    toM (RotationFilters.multiply ofM a b) = (toM a).mul (toM b) :=
  (hlog _ ((isRotation_toM a).mul (isRotation_toM b))).1

theorem residual_eq (hlog : IsLog ofM) (r12 r1 r2 : V3 ℝ) :
    residual ofM r12 r1 r2 = ofM ((toM r2).transpose.mul ((toM r12).mul (toM r1))) := by
  unfold residual
  conv_lhs => rw [RotationFilters.multiply, toM_multiply hlog, toM_neg]

theorem residual_zero (hlog : IsLog ofM) {r12 r1 r2 : V3 ℝ} (h : toM r2 = (toM r12).mul (toM r1)) :
    residual ofM r12 r1 r2 = V3.zero := by
  rw [residual_eq hlog, ← h, (isRotation_toM r2).1, log_one hlog]

/-- The orientations agree with the constraints. -/
def Agrees (st : State) (o : AMap Nat (V3 ℝ)) : Prop :=
  ∀ c ∈ st.constraints, toM (rot o c.1.2) = (toM c.2).mul (toM (rot o c.1.1))

theorem flat_zero {E : Nat} {rs : List (V3 ℝ)} (h : ∀ r ∈ rs, r = V3.zero) : (flat rs : Fin (3 * E) → ℝ) = 0 := by
  funext i
  unfold flat
  split
  · rfl
  · rename_i v hv
    rw [h v (List.mem_of_getElem? hv), comp_zero]
    rfl

theorem errors_zero (hlog : IsLog ofM) {o : AMap Nat (V3 ℝ)} (h : Agrees st o) : ∀ r ∈ errors ofM st o, r = V3.zero := by
  intro r hr
  obtain ⟨c, hc, rfl⟩ := List.mem_map.1 hr
  exact residual_zero hlog (h c hc)

theorem viewStep_zero {V : Nat} (m : AMap Nat Int) (v : Nat) : viewStep m (0 : Fin (3 * V) → ℝ) v = V3.zero := by
  unfold viewStep stepAt segment
  split
  · rfl
  · split_ifs <;> rfl

theorem toM_moved (hlog : IsLog ofM) {S : Nat → V3 ℝ} (hS : S v0 = V3.zero) (v : Nat) (r : V3 ℝ) :
    toM (moved ofM v0 S v r) = (toM r).mul (toM (S v)) := by
  unfold moved
  split
  · rename_i h
    rw [h, hS, toM_zero, M3.mul_one]
  · exact toM_multiply hlog _ _

theorem moved_zero (hlog : IsLog ofM) {V : Nat} (m : AMap Nat Int) (v : Nat) (r : V3 ℝ) :
    toM (moved ofM v0 (viewStep m (0 : Fin (3 * V) → ℝ)) v r) = toM r := by
  rw [toM_moved hlog (viewStep_zero m v0), viewStep_zero, toM_zero, M3.mul_one]

theorem agrees_of_same {o o' : AMap Nat (V3 ℝ)} (hr : Ready st L m v0) (h : Agrees st o)
    (he : ∀ v ∈ L, toM (rot o' v) = toM (rot o v)) : Agrees st o' := by
  intro c hc
  rw [he _ (hr.covered c hc).2, he _ (hr.covered c hc).1]
  exact h c hc

theorem l1Loop_same {E V : Nat} (hlog : IsLog ofM) (hr : Ready st L m v0) (hV : V ≠ 0)
    {A : Matrix (Fin (3 * E)) (Fin (3 * V)) ℝ} (hA : ∀ s, A *ᵥ s = 0 → s = 0)
    {solver : L1Solver.Solver (3 * E) (3 * V)}
    (hs : L1Solver.construct { maxNumIterations := 5 } A = .ok solver) :
    ∀ (n : Nat) (k : ℤ) (s : Fin (3 * V) → ℝ) {o : AMap Nat (V3 ℝ)}, 1 ≤ k → (∀ v, v ∈ o.keys ↔ v ∈ L) → Agrees st o →
      ∀ o', l1Loop ofM opt st solver n k s (errors ofM st o) o = .ok o' →
        o'.keys = o.keys ∧ ∀ v ∈ L, toM (rot o' v) = toM (rot o v)
  | 0, _, _, o, _, _, _, o', h => by
    rw [l1Loop, Outcome.ok.injEq] at h
    subst h
    exact ⟨rfl, fun _ _ => rfl⟩
  | n + 1, k, s, o, h1k, hk, hag, o', h => by
    have hsol : (solver.setMaxIterations k).solve (flat (errors ofM st o)) s = 0 := by
      rw [flat_zero (errors_zero hlog hag)]
      rw [L1Solver.construct_ok hA] at hs
      rw [← Outcome.ok.inj hs]
      have := C66_exact (o := { maxNumIterations := k }) (L1Solver.construct_ok hA) (by norm_num) h1k 0 s
      rw [mulVec_zero] at this
      exact this
    obtain ⟨o1, a, h1, h2, h3⟩ := apply_ok ofM m hr.index hr.nodup hr.first hV
      ((solver.setMaxIterations k).solve (flat (errors ofM st o)) s) hk hr.covered
    rw [l1Loop] at h
    simp only [h1] at h
    have hsame : ∀ v ∈ L, toM (rot o1 v) = toM (rot o v) := by
      intro v hv
      rw [h3 v hv, hsol, moved_zero hlog]
    split at h
    · rw [← Outcome.ok.inj h]
      exact ⟨h2, hsame⟩
    · obtain ⟨e1, e2⟩ := l1Loop_same hlog hr hV hA hs n (k * 2) _ (o := o1) (by omega) (by rw [h2]; exact hk)
        (agrees_of_same hr hag hsame) o' h
      exact ⟨e1.trans h2, fun v hv => (e2 v hv).trans (hsame v hv)⟩

theorem irlsLoop_same {E V : Nat} (hlog : IsLog ofM) (hr : Ready st L m v0) (hV : V ≠ 0)
    (hE : st.constraints.length = E) {A : Matrix (Fin (3 * E)) (Fin (3 * V)) ℝ} (hA : ∀ s, A *ᵥ s = 0 → s = 0)
    (hs : 0 < opt.sigma) :
    ∀ (n : Nat) {o : AMap Nat (V3 ℝ)}, (∀ v, v ∈ o.keys ↔ v ∈ L) → Agrees st o →
      ∀ b o', irlsLoop ofM opt st A n (errors ofM st o) o = .ok (b, o') → ∀ v ∈ L, toM (rot o' v) = toM (rot o v)
  | 0, o, _, _, b, o', h => by
    rw [irlsLoop, Outcome.ok.injEq, Prod.mk.injEq] at h
    rw [h.2]
    exact fun _ _ => rfl
  | n + 1, o, hk, hag, b, o', h => by
    obtain ⟨o1, a, -, h2, h3, h4⟩ := irlsLoop_succ (ofM := ofM) hr hV hE hA hs n hk
    rw [h4] at h
    have hzero : irlsStep opt A (errors ofM st o) = 0 := by
      unfold irlsStep
      rw [flat_zero (errors_zero hlog hag), mulVec_zero]
      unfold SparseCholesky.solve
      rw [mulVec_zero]
    have hsame : ∀ v ∈ L, toM (rot o1 v) = toM (rot o v) := by
      intro v hv
      rw [h3 v hv, hzero, moved_zero hlog]
    split at h
    · rw [Outcome.ok.injEq, Prod.mk.injEq] at h
      rw [← h.2]
      exact hsame
    · have e := irlsLoop_same hlog hr hV hE hA hs n (o := o1) (by rw [h2]; exact hk)
        (agrees_of_same hr hag hsame) b o' h
      exact fun v hv => (e v hv).trans (hsame v hv)

/-! ### The steps of the second loop -/

theorem range_getElem {α : Type} (g : α → ℝ) (cs : List α) :
    ((List.range cs.length).map fun k => cs[k]?.elim 0 g) = cs.map g := by
  apply List.ext_getElem
  · simp
  · intro i h1 h2
    rw [List.getElem_map, List.getElem_map, List.getElem_range]
    rw [List.length_map] at h2
    rw [List.getElem?_eq_getElem h2]
    rfl

theorem weighted_cost (hlog : IsLog ofM) {E V : Nat} (hE : st.constraints.length = E)
    {A : Matrix (Fin (3 * E)) (Fin (3 * V)) ℝ} {mi : AMap Nat Int} (hA : Differences A mi st.constraints)
    (o : AMap Nat (V3 ℝ)) (s : Fin (3 * V) → ℝ) :
    ∑ i, weights opt.sigma (errors ofM st o) i * (flat (errors ofM st o) i - (A *ᵥ s) i) ^ 2 =
      Spec.stepCost ofM opt.sigma st.constraints (rot o) (viewStep mi s) := by
  set g : Nat → (Nat × Nat) × V3 ℝ → ℝ := fun i c =>
    weight opt.sigma (residual ofM c.2 (rot o c.1.1) (rot o c.1.2)) *
      (comp i (residual ofM c.2 (rot o c.1.1) (rot o c.1.2)) -
        (comp i (viewStep mi s c.1.2) - comp i (viewStep mi s c.1.1))) ^ 2 with hg
  have h1 : ∑ i, weights opt.sigma (errors ofM st o) i * (flat (errors ofM st o) i - (A *ᵥ s) i) ^ 2 =
      ∑ i : Fin (3 * E), (fun r : Nat => st.constraints[r / 3]?.elim 0 (g (r % 3))) i := by
    apply Finset.sum_congr rfl
    intro i _
    have hi := i.isLt
    have hk : i.val / 3 < st.constraints.length := by omega
    have hc := List.getElem?_eq_getElem hk
    have he : (errors ofM st o)[i.val / 3]? = some (residual ofM (st.constraints[i.val / 3]).2
        (rot o (st.constraints[i.val / 3]).1.1) (rot o (st.constraints[i.val / 3]).1.2)) := by
      unfold errors
      rw [List.getElem?_map, hc]
      rfl
    rw [hA s i _ hc]
    simp only [weights, flat, he, hc, hg, Option.elim_some]
  rw [h1, sum_blocks E (fun r : Nat => st.constraints[r / 3]?.elim 0 (g (r % 3))), ← hE]
  have h2 : (fun k : Nat => (fun r : Nat => st.constraints[r / 3]?.elim 0 (g (r % 3))) (3 * k) + (fun r : Nat => st.constraints[r / 3]?.elim 0 (g (r % 3))) (3 * k + 1) + (fun r : Nat => st.constraints[r / 3]?.elim 0 (g (r % 3))) (3 * k + 2)) = fun k => st.constraints[k]?.elim 0 (fun c => g 0 c + g 1 c + g 2 c) := by
    funext k
    simp only [show 3 * k / 3 = k by omega, show (3 * k + 1) / 3 = k by omega, show (3 * k + 2) / 3 = k by omega,
      show 3 * k % 3 = 0 by omega, show (3 * k + 1) % 3 = 1 by omega, show (3 * k + 2) % 3 = 2 by omega]
    cases st.constraints[k]? <;> simp
  rw [h2, range_getElem]
  unfold Spec.stepCost
  congr 1
  apply List.map_congr_left
  intro c _
  have hres : residual ofM c.2 (rot o c.1.1) (rot o c.1.2) = Spec.rotationError ofM (rot o) c := residual_eq hlog _ _ _
  simp only [hg, hres, comp, weight, Spec.robustWeight, V3.sub, V3.dot]
  norm_num
  ring

theorem best_step (hlog : IsLog ofM) {E V : Nat} (hr : Ready st L m v0) (hlen : L.length = V + 1)
    (hE : st.constraints.length = E) {A : Matrix (Fin (3 * E)) (Fin (3 * V)) ℝ} (hA : ∀ s, A *ᵥ s = 0 → s = 0)
    (hD : Differences A (numbered L m) st.constraints) (hs : 0 < opt.sigma) (o : AMap Nat (V3 ℝ)) :
    Spec.BestStep ofM opt.sigma st.constraints v0 (rot o)
      (viewStep (numbered L m) (irlsStep opt A (errors ofM st o))) := by
  refine ⟨viewStep_first m hr.nodup hr.first _, fun T hT => ?_⟩
  have hl : (errors ofM st o).length = E := by rw [errors, List.length_map, hE]
  have h := weighted_minimizes hA (weights_pos hs hl) (flat (errors ofM st o)) (vecOf L T)
  rw [weighted_cost hlog hE hD, weighted_cost hlog hE hD] at h
  refine h.trans (le_of_eq ?_)
  unfold Spec.stepCost
  congr 1
  apply List.map_congr_left
  intro c hc
  rw [viewStep_vecOf m hr.nodup hlen hr.first hT (hr.covered c hc).1,
    viewStep_vecOf m hr.nodup hlen hr.first hT (hr.covered c hc).2]

theorem averageLength_perm {l l' : List Nat} (h : l.Perm l') (S : Nat → V3 ℝ) :
    Spec.averageLength l S = Spec.averageLength l' S := by
  unfold Spec.averageLength
  rw [(h.map _).sum_eq, h.length_eq]

theorem averageStep_eq {V : Nat} (hr : Ready st L m v0) (hlen : L.length = V + 1) {s : Fin (3 * V) → ℝ} {a : ℝ}
    (h : averageStep s = .ok a) : a = Spec.averageLength L (viewStep (numbered L m) s) := by
  unfold averageStep at h
  split at h
  · exact absurd h (by simp)
  rw [← Outcome.ok.inj h]
  unfold Spec.averageLength
  rw [hlen, Nat.add_sub_cancel]
  congr 1
  cases hL : L with
  | nil => rw [hL] at hlen; simp at hlen
  | cons w ws =>
    have hw : w = v0 := by
      have := hr.first
      rw [hL] at this
      simpa using this
    have hfirst := viewStep_first m hr.nodup hr.first s
    rw [List.map_cons, List.sum_cons, ← hL, hw, hfirst]
    have hz : Real.sqrt ((V3.zero : V3 ℝ).dot V3.zero) = 0 := by simp [V3.zero, V3.dot]
    rw [hz, zero_add]
    congr 1
    apply List.ext_getElem
    · rw [hL, List.length_cons] at hlen
      simp only [List.length_map, List.length_range]
      omega
    · intro i h1 h2
      rw [List.getElem_map, List.getElem_map, List.getElem_range]
      rw [List.length_map] at h2
      have hget := (number_get L (-1) m hr.nodup).1 (i + 1) ws[i] (by
        rw [hL, List.getElem?_cons_succ]
        exact List.getElem?_eq_getElem h2)
      unfold viewStep
      rw [hget]
      simp only [stepAt]
      rw [if_neg (by push_cast; omega)]
      have e : ((-1 : Int) + ((i + 1 : Nat) : Int)).toNat = i := by omega
      rw [e]

theorem irlsLoop_steps (hlog : IsLog ofM) {E V : Nat} (hr : Ready st L m v0) (hV : V ≠ 0) (hlen : L.length = V + 1)
    (hE : st.constraints.length = E) {A : Matrix (Fin (3 * E)) (Fin (3 * V)) ℝ} (hA : ∀ s, A *ᵥ s = 0 → s = 0)
    (hD : Differences A (numbered L m) st.constraints) (hs : 0 < opt.sigma) :
    ∀ (n : Nat) {o : AMap Nat (V3 ℝ)}, (∀ v, v ∈ o.keys ↔ v ∈ L) →
      ∀ b o', irlsLoop ofM opt st A n (errors ofM st o) o = .ok (b, o') →
        Spec.RobustSteps ofM opt.sigma opt.irlsThreshold st.constraints L v0 n (rot o) (rot o')
  | 0, o, _, b, o', h => by
    rw [irlsLoop, Outcome.ok.injEq, Prod.mk.injEq] at h
    rw [h.2]
    exact .none fun _ _ => rfl
  | n + 1, o, hk, b, o', h => by
    obtain ⟨o1, a, ha, h2, h3, h4⟩ := irlsLoop_succ (ofM := ofM) hr hV hE hA hs n hk
    rw [h4] at h
    have hbest := best_step (ofM := ofM) hlog hr hlen hE hA hD hs o
    have hmove : ∀ v ∈ L, toM (rot o1 v) = (toM (rot o v)).mul
        (toM (viewStep (numbered L m) (irlsStep opt A (errors ofM st o)) v)) := by
      intro v hv
      rw [h3 v hv, toM_moved hlog hbest.1]
    rw [averageStep_eq hr hlen ha] at h
    split at h
    · rename_i hlt
      rw [Outcome.ok.injEq, Prod.mk.injEq] at h
      rw [← h.2]
      exact .last _ hbest hmove hlt
    · rename_i hge
      exact .more _ hbest hmove (not_lt.1 hge)
        (irlsLoop_steps hlog hr hV hlen hE hA hD hs n (o := o1) (by rw [h2]; exact hk) b o' h)

theorem robustSteps_perm {ofM : M3 ℝ → V3 ℝ} {sigma threshold : ℝ} {cs : List ((Nat × Nat) × V3 ℝ)}
    {l l' : List Nat} (hp : l.Perm l') {n : Nat} {G G' : Nat → V3 ℝ}
    (h : Spec.RobustSteps ofM sigma threshold cs l v0 n G G') : Spec.RobustSteps ofM sigma threshold cs l' v0 n G G' := by
  induction h with
  | none h => exact .none fun v hv => h v (hp.mem_iff.2 hv)
  | last S hS hG h =>
    exact .last S hS (fun v hv => hG v (hp.mem_iff.2 hv)) (by rwa [averageLength_perm hp] at h)
  | more S hS hG h _ ih =>
    exact .more S hS (fun v hv => hG v (hp.mem_iff.2 hv)) (by rwa [averageLength_perm hp] at h) ih

end RobustRotation
end Theia
