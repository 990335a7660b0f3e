import Verif.Proof.LinearPositionSystem
import Verif.Proof.TriangleConstraints
import Verif.Props.TripletExtractor

/-!
# Linear estimation of global positions: the cost and its minimum
-/

namespace Theia
namespace LinearPosition

open Spec LinearRotation BaselineRatios Triangulation

/-- The shape of a triplet for the rotations and baselines computed by the code. -/
def shapeOf (r : M3 ℝ × M3 ℝ × M3 ℝ) (b : V3 ℝ) : TripletShape := ⟨r.2.1, r.1, r.2.2, b.x, b.y, b.z⟩

theorem rows_sum (r : M3 ℝ × M3 ℝ × M3 ℝ) (b : V3 ℝ) (w : ℝ) (y0 y1 y2 : V3 ℝ) :
    ((rows r b w).map (fun row => (rowValue row y0 y1 y2).dot (rowValue row y0 y1 y2))).sum =
      w * w * shapeCost (shapeOf r b) y0 y1 y2 := by
  have hs : ∀ (x : V3 ℝ), (x.smul w).dot (x.smul w) = w * w * x.dot x := fun x => dot_smul x x w w
  simp only [rows, inv_div, List.map_cons, List.map_nil, List.sum_cons, List.sum_nil]
  rw [shapeCost, mul_add, mul_add, sqDist, sqDist, sqDist, ← hs, ← hs, ← hs, add_zero, ← add_assoc]
  have e : ∀ a b c a' b' c' : V3 ℝ, a = a' → b = b' → c = c' →
      a.dot a + b.dot b + c.dot c = a'.dot a' + b'.dot b' + c'.dot c' := by
    rintro a b c a' b' c' rfl rfl rfl
    rfl
  apply e
  · apply V3.ext <;> simp only [rowValue, shapeOf, scaleM, addM, subM, M3.one, M3.transpose, M3.mulVec, V3.smul, V3.add,
      V3.sub, V3.dot] <;> ring
  · apply V3.ext <;> simp only [rowValue, shapeOf, scaleM, addM, subM, M3.one, M3.transpose, M3.mulVec, V3.smul, V3.add,
      V3.sub, V3.dot] <;> ring
  · apply V3.ext <;> simp only [rowValue, shapeOf, scaleM, addM, subM, M3.one, M3.transpose, M3.mulVec, V3.smul, V3.add,
      V3.sub, V3.dot] <;> ring

theorem sum_flatMap {α β : Type} (f : α → List β) (g : β → ℝ) : ∀ l : List α,
    ((l.flatMap f).map g).sum = (l.map (fun a => ((f a).map g).sum)).sum
  | [] => rfl
  | a :: l => by
    rw [List.flatMap_cons, List.map_append, List.sum_append, sum_flatMap f g l]
    rfl

section

variable {fromTwo : V3 ℝ → V3 ℝ → M3 ℝ} {pairs : AMap (Nat × Nat) Info} {orientations : AMap Nat (V3 ℝ)} {s : State}

/-- The views of the triplet are different and have an index. -/
def Fits (s : State) (t : Triplet) : Prop :=
  t.1 ∈ s.index.keys ∧ t.2.1 ∈ s.index.keys ∧ t.2.2 ∈ s.index.keys ∧ t.1 ≠ t.2.1 ∧ t.1 ≠ t.2.2 ∧ t.2.1 ≠ t.2.2

theorem idx_ne (h : Inv s) {v w : Nat} (hv : v ∈ s.index.keys) (hw : w ∈ s.index.keys) (hne : v ≠ w) : idx s v ≠ idx s w := by
  intro e
  exact hne (h.index.inj v w _ (get_idx hv) (e ▸ get_idx hw))

theorem idx_lt (h : Inv s) {v : Nat} (hv : v ∈ s.index.keys) : 3 * idx s v + 2 < (((s.index.size - 1) * 3 : Nat) : Int) := by
  have := h.index.lt _ _ (get_idx hv)
  push_cast
  omega

theorem tripletEntries_ok (h : Inv s) {t : Triplet} (hf : Fits s t) {b : V3 ℝ} {es : List (Int × Int × ℝ)}
    (he : tripletEntries fromTwo pairs orientations s t b = .ok es) :
    ∃ r, rotations fromTwo pairs orientations t = .ok r ∧ b.x ≠ 0 ∧ b.y ≠ 0 ∧ b.z ≠ 0 ∧
      (∀ e ∈ es, e.1 < ((s.index.size - 1) * 3 : Nat) ∧ e.2.1 < ((s.index.size - 1) * 3 : Nat)) ∧
      ∀ u, (es.map (intForm u)).sum = weight s.count t * weight s.count t *
        shapeCost (shapeOf r b) (positionOf u (idx s t.1)) (positionOf u (idx s t.2.1)) (positionOf u (idx s t.2.2)) := by
  obtain ⟨h0, h1, h2, h01, h02, h12⟩ := hf
  unfold tripletEntries at he
  rw [get_idx h0, get_idx h1, get_idx h2] at he
  simp only at he
  cases hr : rotations fromTwo pairs orientations t with
  | abort => rw [hr] at he; simp at he
  | ub => rw [hr] at he; simp at he
  | ok r =>
    rw [hr] at he
    simp only at he
    split_ifs at he with hb
    · push Not at hb
      cases he
      refine ⟨r, rfl, hb.1, hb.2.1, hb.2.2, ?_, ?_⟩
      · intro e hee
        obtain ⟨row, -, hrow⟩ := List.mem_flatMap.1 hee
        exact symmetricEntries_lt row (idx_lt h h0) (idx_lt h h1) (idx_lt h h2) e hrow
      · intro u
        rw [sum_flatMap, ← rows_sum]
        congr 1
        apply List.map_congr_left
        intro row _
        exact row_form u row (idx_ne h h0 h1 h01) (idx_ne h h0 h2 h02) (idx_ne h h1 h2 h12)

theorem tripletEntries_of {t : Triplet} (hf : Fits s t) {b : V3 ℝ} {r : M3 ℝ × M3 ℝ × M3 ℝ}
    (hr : rotations fromTwo pairs orientations t = .ok r) (hx : b.x ≠ 0) (hy : b.y ≠ 0) (hz : b.z ≠ 0) :
    ∃ es, tripletEntries fromTwo pairs orientations s t b = .ok es := by
  obtain ⟨h0, h1, h2, -⟩ := hf
  unfold tripletEntries
  rw [get_idx h0, get_idx h1, get_idx h2]
  simp only [hr]
  rw [if_neg (by push Not; exact ⟨hx, hy, hz⟩)]
  exact ⟨_, rfl⟩

theorem allEntries_ok (h : Inv s) : ∀ (tbs : List (Triplet × V3 ℝ)) {es : List (Int × Int × ℝ)},
    (∀ tb ∈ tbs, Fits s tb.1) → allEntries fromTwo pairs orientations s tbs = .ok es →
    (∀ tb ∈ tbs, (∃ r, rotations fromTwo pairs orientations tb.1 = .ok r) ∧ tb.2.x ≠ 0 ∧ tb.2.y ≠ 0 ∧ tb.2.z ≠ 0) ∧
      (∀ e ∈ es, e.1 < ((s.index.size - 1) * 3 : Nat) ∧ e.2.1 < ((s.index.size - 1) * 3 : Nat)) ∧
      ∀ (shape : Triplet → TripletShape),
        (∀ tb ∈ tbs, ∃ r, rotations fromTwo pairs orientations tb.1 = .ok r ∧ shape tb.1 = shapeOf r tb.2) →
        ∀ u, (es.map (intForm u)).sum = (tbs.map (fun tb => weight s.count tb.1 * weight s.count tb.1 *
          shapeCost (shape tb.1) (positionOf u (idx s tb.1.1)) (positionOf u (idx s tb.1.2.1))
            (positionOf u (idx s tb.1.2.2)))).sum
  | [], es, _, he => by
    cases he
    exact ⟨by simp, by simp, fun _ _ _ => by simp⟩
  | tb :: tbs, es, hf, he => by
    unfold allEntries at he
    cases h1 : tripletEntries fromTwo pairs orientations s tb.1 tb.2 with
    | abort => rw [h1] at he; simp at he
    | ub => rw [h1] at he; simp at he
    | ok e1 =>
      rw [h1] at he
      simp only at he
      cases h2 : allEntries fromTwo pairs orientations s tbs with
      | abort => rw [h2] at he; simp at he
      | ub => rw [h2] at he; simp at he
      | ok e2 =>
        rw [h2] at he
        simp only at he
        cases he
        obtain ⟨i1, i2, i3⟩ := allEntries_ok h tbs (fun x hx => hf x (List.mem_cons_of_mem _ hx)) h2
        obtain ⟨r, hr, hx, hy, hz, hlt, hsum⟩ := tripletEntries_ok h (hf tb List.mem_cons_self) h1
        refine ⟨?_, ?_, ?_⟩
        · intro x hxm
          rcases List.mem_cons.1 hxm with rfl | hxm
          · exact ⟨⟨r, hr⟩, hx, hy, hz⟩
          · exact i1 x hxm
        · intro e hee
          rcases List.mem_append.1 hee with hee | hee
          · exact hlt e hee
          · exact i2 e hee
        · intro shape hs u
          rw [List.map_append, List.sum_append, List.map_cons, List.sum_cons,
            i3 shape (fun x hx => hs x (List.mem_cons_of_mem _ hx)), hsum]
          obtain ⟨r', hr', hse⟩ := hs tb List.mem_cons_self
          rw [hr] at hr'
          cases hr'
          rw [hse]

theorem allEntries_of : ∀ (tbs : List (Triplet × V3 ℝ)), (∀ tb ∈ tbs, Fits s tb.1 ∧
    (∃ r, rotations fromTwo pairs orientations tb.1 = .ok r) ∧ tb.2.x ≠ 0 ∧ tb.2.y ≠ 0 ∧ tb.2.z ≠ 0) →
    ∃ es, allEntries fromTwo pairs orientations s tbs = .ok es
  | [], _ => ⟨[], rfl⟩
  | tb :: tbs, h => by
    obtain ⟨es, hes⟩ := allEntries_of tbs (fun x hx => h x (List.mem_cons_of_mem _ hx))
    obtain ⟨hf, ⟨r, hr⟩, hx, hy, hz⟩ := h tb List.mem_cons_self
    obtain ⟨e1, he1⟩ := tripletEntries_of hf hr hx hy hz
    unfold allEntries
    rw [he1, hes]
    exact ⟨_, rfl⟩

end

/-! ## Baselines -/

theorem baselines_ok {llt : (V4 → V4) → V4 → Option V4} {views : AMap Nat (AMap Nat V2)} {pairs : AMap (Nat × Nat) Info} :
    ∀ (ts : List Triplet) {tbs : List (Triplet × V3 ℝ)}, baselines llt views pairs ts = .ok tbs →
    tbs.map Prod.fst = ts ∧ ∀ tb ∈ tbs, baselineFor llt views pairs tb.1 = .ok tb.2
  | [], tbs, h => by cases h; exact ⟨rfl, by simp⟩
  | t :: ts, tbs, h => by
    unfold baselines at h
    cases h1 : baselineFor llt views pairs t with
    | abort => rw [h1] at h; simp at h
    | ub => rw [h1] at h; simp at h
    | ok b =>
      rw [h1] at h
      simp only at h
      cases h2 : baselines llt views pairs ts with
      | abort => rw [h2] at h; simp at h
      | ub => rw [h2] at h; simp at h
      | ok bs =>
        rw [h2] at h
        cases h
        obtain ⟨i1, i2⟩ := baselines_ok ts h2
        refine ⟨by rw [List.map_cons, i1], ?_⟩
        intro tb htb
        rcases List.mem_cons.1 htb with rfl | htb
        · exact h1
        · exact i2 tb htb

theorem baselines_of {llt : (V4 → V4) → V4 → Option V4} {views : AMap Nat (AMap Nat V2)} {pairs : AMap (Nat × Nat) Info}
    (b : Triplet → V3 ℝ) : ∀ (ts : List Triplet), (∀ t ∈ ts, baselineFor llt views pairs t = .ok (b t)) →
    baselines llt views pairs ts = .ok (ts.map (fun t => (t, b t)))
  | [], _ => rfl
  | t :: ts, h => by
    unfold baselines
    rw [h t List.mem_cons_self, baselines_of b ts (fun x hx => h x (List.mem_cons_of_mem _ hx))]
    rfl

/-! ## Counts -/

theorem get_countUp (m : AMap Nat Nat) (k v : Nat) :
    ((countUp m k).get v).getD 0 = (m.get v).getD 0 + if v = k then 1 else 0 := by
  unfold countUp
  rw [AMap.get_insert]
  split_ifs with h
  · subst h; simp
  · simp

theorem count_addAll (v : Nat) : ∀ (ts : List Triplet) (s : State), (∀ t ∈ ts, t.1 ≠ t.2.1 ∧ t.1 ≠ t.2.2 ∧ t.2.1 ≠ t.2.2) →
    ((ts.foldl addTriplet s).count.get v).getD 0 = (s.count.get v).getD 0 + tripletsWith ts v
  | [], s, _ => by simp [tripletsWith]
  | t :: ts, s, h => by
    rw [List.foldl_cons, count_addAll v ts _ (fun x hx => h x (List.mem_cons_of_mem _ hx))]
    obtain ⟨h01, h02, h12⟩ := h t List.mem_cons_self
    simp only [addTriplet, get_countUp, tripletsWith]
    by_cases hc : v = t.1 ∨ v = t.2.1 ∨ v = t.2.2
    · rw [List.filter_cons_of_pos (by simpa using hc), List.length_cons]
      rcases hc with rfl | rfl | rfl
      · rw [if_pos rfl, if_neg h01, if_neg h02]; ring
      · rw [if_neg h01.symm, if_pos rfl, if_neg h12]; ring
      · rw [if_neg h02.symm, if_neg h12.symm, if_pos rfl]; ring
    · rw [List.filter_cons_of_neg (by simpa using hc)]
      push Not at hc
      rw [if_neg hc.1, if_neg hc.2.1, if_neg hc.2.2]
      ring

theorem weight_sq (ts : List Triplet) (hd : ∀ t ∈ ts, t.1 ≠ t.2.1 ∧ t.1 ≠ t.2.2 ∧ t.2.1 ≠ t.2.2) (t : Triplet) (x : ℝ) :
    weight (ts.foldl addTriplet empty).count t * weight (ts.foldl addTriplet empty).count t * x =
      x / min (tripletsWith ts t.1 : ℝ) (min (tripletsWith ts t.2.1 : ℝ) (tripletsWith ts t.2.2 : ℝ)) := by
  unfold weight
  have hc : ∀ v, ((ts.foldl addTriplet empty).count.get v).getD 0 = tripletsWith ts v := by
    intro v
    rw [count_addAll v ts _ hd]
    simp [empty]
  rw [hc, hc, hc, div_mul_div_comm, one_mul, Real.mul_self_sqrt (Nat.cast_nonneg _), Nat.cast_min, Nat.cast_min]
  ring

/-! ## The minimum -/

/-- The vector of given positions. -/
noncomputable def stackOf (s : State) (Y : Nat → V3 ℝ) (r : Nat) : ℝ :=
  let p := Y ((s.index.keys.find? (fun v => decide (idx s v = ((r / 3 : Nat) : Int)))).getD 0)
  if r % 3 = 0 then p.x else if r % 3 = 1 then p.y else p.z

theorem position_stackOf {s : State} (h : Inv s) {Y : Nat → V3 ℝ} {v : Nat} (hv : v ∈ s.index.keys)
    (h0 : idx s v = -1 → Y v = V3.zero) : positionOf (stackOf s Y) (idx s v) = Y v := by
  unfold positionOf
  have hlt := h.index.lt _ _ (get_idx hv)
  split_ifs with hneg
  · rw [h0 (by omega)]
  · have hc : (((idx s v).toNat : Nat) : Int) = idx s v := Int.toNat_of_nonneg (by omega)
    have hf : s.index.keys.find? (fun w => decide (idx s w = (((idx s v).toNat : Nat) : Int))) = some v := by
      rw [hc]
      cases e : s.index.keys.find? (fun w => decide (idx s w = idx s v)) with
      | none =>
        have := List.find?_eq_none.1 e v hv
        simp at this
      | some w =>
        have h1 := List.find?_some e
        have h2 := List.mem_of_find?_eq_some e
        simp only [decide_eq_true_eq] at h1
        rw [h.index.inj w v _ (get_idx h2) (h1 ▸ get_idx hv)]
    have d0 : (idx s v).toNat * 3 / 3 = (idx s v).toNat := by omega
    have d1 : ((idx s v).toNat * 3 + 1) / 3 = (idx s v).toNat := by omega
    have d2 : ((idx s v).toNat * 3 + 2) / 3 = (idx s v).toNat := by omega
    have m0 : (idx s v).toNat * 3 % 3 = 0 := by omega
    have m1 : ((idx s v).toNat * 3 + 1) % 3 = 1 := by omega
    have m2 : ((idx s v).toNat * 3 + 2) % 3 = 2 := by omega
    unfold stackOf
    simp only [d0, d1, d2, m0, m1, m2, hf, Option.getD_some, if_true]
    apply V3.ext <;> simp

/-- The cost of a solution. -/
theorem cost_eq {fromTwo : V3 ℝ → V3 ℝ → M3 ℝ} {pairs : AMap (Nat × Nat) Info} {orientations : AMap Nat (V3 ℝ)}
    {ts : List Triplet} (hd : ∀ t ∈ ts, t.1 ≠ t.2.1 ∧ t.1 ≠ t.2.2 ∧ t.2.1 ≠ t.2.2) {tbs : List (Triplet × V3 ℝ)}
    (htb : tbs.map Prod.fst = ts) {es : List (Int × Int × ℝ)}
    (he : allEntries fromTwo pairs orientations (ts.foldl addTriplet empty) tbs = .ok es) (shape : Triplet → TripletShape)
    (hshape : ∀ tb ∈ tbs, ∃ r, rotations fromTwo pairs orientations tb.1 = .ok r ∧ shape tb.1 = shapeOf r tb.2) (u : Nat → ℝ) :
    form (((ts.foldl addTriplet empty).index.size - 1) * 3) (symmetric (stored (kept es))) u u =
      positionCost ts shape (fun v => positionOf u (idx (ts.foldl addTriplet empty) v)) := by
  have hinv := Inv.addAll ts Inv.empty
  have hfits : ∀ tb ∈ tbs, Fits (ts.foldl addTriplet empty) tb.1 := by
    intro tb hm
    have hmem : tb.1 ∈ ts := by
      rw [← htb]
      exact List.mem_map_of_mem hm
    have hk : ∀ v, Corner tb.1 v → v ∈ (ts.foldl addTriplet empty).index.keys :=
      fun v hv => (mem_keys_addAll v ts empty).2 (Or.inr ⟨tb.1, hmem, hv⟩)
    obtain ⟨h01, h02, h12⟩ := hd tb.1 hmem
    exact ⟨hk _ (Or.inl rfl), hk _ (Or.inr (Or.inl rfl)), hk _ (Or.inr (Or.inr rfl)), h01, h02, h12⟩
  obtain ⟨-, hlt, hsum⟩ := allEntries_ok hinv tbs hfits he
  rw [form_kept u es hlt, hsum shape hshape u, positionCost, ← htb, List.map_map]
  congr 1
  apply List.map_congr_left
  intro tb _
  rw [htb]
  exact weight_sq ts hd tb.1 _

/-- The solution has the least cost. -/
theorem optimal {fromTwo : V3 ℝ → V3 ℝ → M3 ℝ} {pairs : AMap (Nat × Nat) Info} {orientations : AMap Nat (V3 ℝ)}
    {ts : List Triplet} (hd : ∀ t ∈ ts, t.1 ≠ t.2.1 ∧ t.1 ≠ t.2.2 ∧ t.2.1 ≠ t.2.2) {tbs : List (Triplet × V3 ℝ)}
    (htb : tbs.map Prod.fst = ts) {es : List (Int × Int × ℝ)}
    (he : allEntries fromTwo pairs orientations (ts.foldl addTriplet empty) tbs = .ok es) (shape : Triplet → TripletShape)
    (hshape : ∀ tb ∈ tbs, ∃ r, rotations fromTwo pairs orientations tb.1 = .ok r ∧ shape tb.1 = shapeOf r tb.2) {u : Nat → ℝ}
    (hu : SmallestEigenvector (((ts.foldl addTriplet empty).index.size - 1) * 3) (symmetric (stored (kept es))) u)
    {Y : Nat → V3 ℝ} (hY0 : ∀ v, idx (ts.foldl addTriplet empty) v = -1 → v ∈ (ts.foldl addTriplet empty).index.keys →
      Y v = V3.zero)
    (hY : ((ts.foldl addTriplet empty).index.keys.map (fun v => (Y v).dot (Y v))).sum = 1) :
    positionCost ts shape (fun v => positionOf u (idx (ts.foldl addTriplet empty) v)) ≤ positionCost ts shape Y := by
  have hinv := Inv.addAll ts Inv.empty
  have hp : ∀ v ∈ (ts.foldl addTriplet empty).index.keys,
      positionOf (stackOf (ts.foldl addTriplet empty) Y) (idx (ts.foldl addTriplet empty) v) = Y v :=
    fun v hv => position_stackOf hinv hv (fun h => hY0 v h hv)
  have hn : vecInner (((ts.foldl addTriplet empty).index.size - 1) * 3) (stackOf (ts.foldl addTriplet empty) Y)
      (stackOf (ts.foldl addTriplet empty) Y) = 1 := by
    rw [← norm_sum hinv, ← hY]
    congr 1
    apply List.map_congr_left
    intro v hv
    rw [hp v hv]
  have hmin := hu.2 _ hn
  have e1 := cost_eq hd htb he shape hshape u
  have e2 := cost_eq hd htb he shape hshape (stackOf (ts.foldl addTriplet empty) Y)
  unfold LinearRotation.form at e1 e2
  rw [e1, e2] at hmin
  refine hmin.trans (le_of_eq ?_)
  unfold positionCost
  congr 1
  apply List.map_congr_left
  intro t ht
  have hk : ∀ v, Corner t v → v ∈ (ts.foldl addTriplet empty).index.keys :=
    fun v hv => (mem_keys_addAll v ts empty).2 (Or.inr ⟨t, ht, hv⟩)
  beta_reduce
  rw [hp _ (hk _ (Or.inl rfl)), hp _ (hk _ (Or.inr (Or.inl rfl))), hp _ (hk _ (Or.inr (Or.inr rfl)))]

theorem shapeCost_neg (s : TripletShape) (y0 y1 y2 : V3 ℝ) :
    shapeCost s (y0.smul (-1)) (y1.smul (-1)) (y2.smul (-1)) = shapeCost s y0 y1 y2 := by
  unfold shapeCost sqDist
  simp only [V3.dot, V3.sub, V3.add, V3.smul, M3.mulVec]
  ring

theorem positionCost_neg (ts : List Triplet) (shape : Triplet → TripletShape) (Y : Nat → V3 ℝ) :
    positionCost ts shape (fun v => (Y v).smul (-1)) = positionCost ts shape Y := by
  unfold positionCost
  simp only [shapeCost_neg]

theorem positionCost_terms {ts : List Triplet} {shape : Triplet → TripletShape} {Y : Nat → V3 ℝ}
    (h : positionCost ts shape Y ≤ 0) : ∀ t ∈ ts, shapeCost (shape t) (Y t.1) (Y t.2.1) (Y t.2.2) = 0 := by
  have hpos : ∀ t ∈ ts, ∀ v, Corner t v → 0 < (tripletsWith ts v : ℝ) := by
    intro t ht v hv
    have : 0 < tripletsWith ts v := by
      unfold tripletsWith
      apply List.length_pos_of_mem (a := t)
      rw [List.mem_filter]
      exact ⟨ht, decide_eq_true hv⟩
    exact_mod_cast this
  have hden : ∀ t ∈ ts, 0 < min (tripletsWith ts t.1 : ℝ) (min (tripletsWith ts t.2.1 : ℝ) (tripletsWith ts t.2.2 : ℝ)) :=
    fun t ht => lt_min (hpos t ht _ (Or.inl rfl))
      (lt_min (hpos t ht _ (Or.inr (Or.inl rfl))) (hpos t ht _ (Or.inr (Or.inr rfl))))
  have hnn : ∀ x ∈ ts.map (fun t => shapeCost (shape t) (Y t.1) (Y t.2.1) (Y t.2.2) /
      min (tripletsWith ts t.1 : ℝ) (min (tripletsWith ts t.2.1 : ℝ) (tripletsWith ts t.2.2 : ℝ))), 0 ≤ x := by
    intro x hx
    obtain ⟨t, ht, rfl⟩ := List.mem_map.1 hx
    exact div_nonneg (shapeCost_nonneg _ _ _ _) (hden t ht).le
  intro t ht
  have hle := List.single_le_sum hnn _ (List.mem_map_of_mem ht)
  have h1 : shapeCost (shape t) (Y t.1) (Y t.2.1) (Y t.2.2) /
      min (tripletsWith ts t.1 : ℝ) (min (tripletsWith ts t.2.1 : ℝ) (tripletsWith ts t.2.2 : ℝ)) ≤ 0 := hle.trans h
  have h2 := (div_le_iff₀ (hden t ht)).1 h1
  rw [zero_mul] at h2
  exact le_antisymm h2 (shapeCost_nonneg _ _ _ _)

end LinearPosition
end Theia
