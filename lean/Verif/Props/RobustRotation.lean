import Verif.Proof.RobustRotation

/-!
# Robust estimation of global rotations: properties
-/

namespace Theia

open Spec AngleAxis RobustRotation Matrix

section
variable {ofM : M3 ℝ → V3 ℝ} {order : List (Nat × V3 ℝ) → List (Nat × V3 ℝ)} {opt : Options} {st : State}
  {o : AMap Nat (V3 ℝ)}

/-- One call, in terms of its two loops. -/
theorem robustRotation_run (horder : ∀ l, (order l).Perm l) (hne : st.constraints ≠ []) (hw : o.WF) (h2 : 2 ≤ o.size)
    (hcov : Covered o st.constraints) (hcon : ConnectedBy st.constraints o.keys) (hs : 0 < opt.sigma) :
    ∃ (v0 : Nat) (A : Matrix (Fin (3 * st.constraints.length)) (Fin (3 * (o.size - 1))) ℝ) (o1 o2 : AMap Nat (V3 ℝ)),
      Ready (after order st o) (viewOrder order o) st.index v0 ∧
      (viewOrder order o).length = o.size - 1 + 1 ∧ (∀ v, v ∈ o.keys ↔ v ∈ viewOrder order o) ∧
      Differences A (numbered (viewOrder order o) st.index) st.constraints ∧ (∀ s, A *ᵥ s = 0 → s = 0) ∧
      solveL1 ofM opt (after order st o) A o = .ok o1 ∧ o1.keys = o.keys ∧ rot o1 v0 = rot o v0 ∧
      irlsLoop ofM opt (after order st o) A opt.maxIrls.toNat (errors ofM (after order st o) o1) o1 = .ok (true, o2) ∧
      o2.keys = o.keys ∧ rot o2 v0 = rot o v0 ∧
      estimate ofM order opt st o = .ok (true, o2, after order st o) := by
  obtain ⟨v0, hr, hlen, hk⟩ := ready (st := st) horder hw (by omega) hcov
  obtain ⟨A, hD, he⟩ := estimate_eq (ofM := ofM) (opt := opt) hne (by omega) hr hlen
  have hA : ∀ s, A *ᵥ s = 0 → s = 0 := by
    rw [kernel_connected st.index hr.nodup hlen hr.covered hD rfl]
    intro v hv w hw
    exact hcon v ((hk v).2 hv) w ((hk w).2 hw)
  obtain ⟨o1, e1, k1, r1⟩ := solveL1_ok (ofM := ofM) (opt := opt) hr (by omega) hA hk
  have hk1 : ∀ v, v ∈ o1.keys ↔ v ∈ viewOrder order o := by rw [k1]; exact hk
  obtain ⟨o2, e2, k2, r2⟩ := irlsLoop_ok (ofM := ofM) (opt := opt) hr (by omega) rfl hA hs opt.maxIrls.toNat hk1
  refine ⟨v0, A, o1, o2, hr, hlen, hk, hD, hA, e1, k1, r1, e2, k2.trans k1, r2.trans r1, ?_⟩
  rw [he, e1]
  simp only
  rw [solveIrls_eq hr A hk1]
  erw [e2]

/-- Let every view of the constraints have an orientation, of at least two. If the constraints connect the views, a call
succeeds and gives an orientation to exactly the same views; otherwise the program is ended. This does not depend on what the
estimator was used for before. -/
theorem C69_total (horder : ∀ l, (order l).Perm l) (hne : st.constraints ≠ []) (hw : o.WF) (h2 : 2 ≤ o.size)
    (hcov : ∀ c ∈ st.constraints, c.1.1 ∈ o.keys ∧ c.1.2 ∈ o.keys) (hs : 0 < opt.sigma) :
    (ConnectedBy st.constraints o.keys → ∃ o' st', estimate ofM order opt st o = .ok (true, o', st') ∧ o'.keys = o.keys) ∧
    (¬ConnectedBy st.constraints o.keys → estimate ofM order opt st o = .abort) := by
  constructor
  · intro hcon
    obtain ⟨v0, A, o1, o2, -, -, -, -, -, -, -, -, -, hk, -, he⟩ :=
      robustRotation_run (ofM := ofM) horder hne hw h2 hcov hcon hs
    exact ⟨o2, _, he, hk⟩
  · intro hcon
    obtain ⟨v0, hr, hlen, hk⟩ := ready (st := st) horder hw (by omega) hcov
    obtain ⟨A, hD, he⟩ := estimate_eq (ofM := ofM) (opt := opt) hne (by omega) hr hlen
    rw [he, solveL1_abort]
    rw [kernel_connected st.index hr.nodup hlen hr.covered hD rfl]
    intro h
    exact hcon fun v hv w hw => h v ((hk v).1 hv) w ((hk w).1 hw)

/-- Without constraints the program is ended. -/
theorem C69_none (h : st.constraints = []) : estimate ofM order opt st o = .abort := by
  unfold estimate
  rw [h]
  rfl

/-- If a view of a constraint has no orientation, no call returns. -/
theorem C69_missing (h : ∃ c ∈ st.constraints, c.1.1 ∉ o.keys ∨ c.1.2 ∉ o.keys) :
    ∀ r, estimate ofM order opt st o ≠ .ok r := by
  have hc : ¬Covered o st.constraints := by
    intro hc
    obtain ⟨c, hm, h⟩ := h
    have := hc c hm
    tauto
  intro r he
  unfold estimate at he
  split at he
  · cases he
  split at he
  · cases he
  simp only at he
  split at he
  · cases he
  · cases he
  split at he
  · cases he
  split at he
  · cases he
  · cases he
  rename_i o1 h1
  unfold solveL1 at h1
  split at h1
  · cases h1
  · cases h1
  simp only at h1
  split at h1
  · cases h1
  · cases h1
  rename_i rs hrs
  exact residuals_missing ofM hc rs hrs

/-- One of the views keeps its orientation. -/
theorem C69_gauge (horder : ∀ l, (order l).Perm l) (hne : st.constraints ≠ []) (hw : o.WF) (h2 : 2 ≤ o.size)
    (hcov : ∀ c ∈ st.constraints, c.1.1 ∈ o.keys ∧ c.1.2 ∈ o.keys) (hcon : ConnectedBy st.constraints o.keys)
    (hs : 0 < opt.sigma) :
    ∃ v0 ∈ o.keys, ∃ o' st', estimate ofM order opt st o = .ok (true, o', st') ∧ o'.get v0 = o.get v0 := by
  obtain ⟨v0, A, o1, o2, hr, -, hk, -, -, -, -, -, -, hk2, h0, he⟩ :=
    robustRotation_run (ofM := ofM) horder hne hw h2 hcov hcon hs
  have hv0 : v0 ∈ o.keys := (hk v0).2 (List.mem_of_getElem? hr.first)
  exact ⟨v0, hv0, o2, _, he, by rw [get_rot hv0, get_rot (by rw [hk2]; exact hv0), h0]⟩

/-- Orientations that agree with all constraints are kept: every view has the same rotation afterwards. -/
theorem C69_consistent (hlog : IsLog ofM) (horder : ∀ l, (order l).Perm l) (hne : st.constraints ≠ []) (hw : o.WF)
    (h2 : 2 ≤ o.size) (hcov : ∀ c ∈ st.constraints, c.1.1 ∈ o.keys ∧ c.1.2 ∈ o.keys)
    (hcon : ConnectedBy st.constraints o.keys) (hs : 0 < opt.sigma) {G : Nat → M3 ℝ}
    (hG : ConsistentWith st.constraints G) (ho : ∀ v r, o.get v = some r → toM r = G v) :
    ∃ o' st', estimate ofM order opt st o = .ok (true, o', st') ∧
      ∀ v, (o'.get v).map toM = (o.get v).map toM := by
  obtain ⟨v0, A, o1, o2, hr, hlen, hk, hD, hA, e1, k1, -, e2, hk2, -, he⟩ :=
    robustRotation_run (ofM := ofM) horder hne hw h2 hcov hcon hs
  have hag : Agrees (after order st o) o := by
    intro c hc
    have := hcov c hc
    rw [ho _ _ (get_rot this.1), ho _ _ (get_rot this.2)]
    exact hG.2 c hc
  have hsame1 : ∀ v ∈ viewOrder order o, toM (rot o1 v) = toM (rot o v) := by
    unfold solveL1 at e1
    rw [L1Solver.construct_ok hA] at e1
    simp only at e1
    rw [residuals_ok ofM (fun c hc => by rw [hk, hk]; exact hr.covered c hc)] at e1
    exact (l1Loop_same hlog hr (by omega) hA (L1Solver.construct_ok hA) _ 5 0 (by norm_num) hk hag o1 e1).2
  have hsame2 := irlsLoop_same hlog hr (by omega) rfl hA hs _ (o := o1) (by rw [k1]; exact hk)
    (agrees_of_same hr hag hsame1) _ _ e2
  refine ⟨o2, _, he, fun v => ?_⟩
  by_cases hv : v ∈ o.keys
  · rw [get_rot hv, get_rot (by rw [hk2]; exact hv), Option.map_some, Option.map_some,
      hsame2 v ((hk v).1 hv), hsame1 v ((hk v).1 hv)]
  · rw [AMap.get_eq_none_iff.2 hv, AMap.get_eq_none_iff.2 (by rw [hk2]; exact hv)]

/-- The result comes from orientations `G1` by best weighted steps, which end with a short step or with the limit. `G1` are
the orientations passed in if the first loop is switched off, and agree with them in the view that is kept otherwise. -/
theorem C69_irls (hlog : IsLog ofM) (horder : ∀ l, (order l).Perm l) (hne : st.constraints ≠ []) (hw : o.WF)
    (h2 : 2 ≤ o.size) (hcov : ∀ c ∈ st.constraints, c.1.1 ∈ o.keys ∧ c.1.2 ∈ o.keys)
    (hcon : ConnectedBy st.constraints o.keys) (hs : 0 < opt.sigma) :
    ∃ v0 ∈ o.keys, ∃ G1 G' o' st', estimate ofM order opt st o = .ok (true, o', st') ∧
      (∀ v ∈ o.keys, o'.get v = some (G' v)) ∧
      RobustSteps ofM opt.sigma opt.irlsThreshold st.constraints o.keys v0 opt.maxIrls.toNat G1 G' ∧
      o.get v0 = some (G1 v0) ∧ (opt.maxL1 ≤ 0 → ∀ v ∈ o.keys, o.get v = some (G1 v)) := by
  obtain ⟨v0, A, o1, o2, hr, hlen, hk, hD, hA, e1, k1, h01, e2, hk2, -, he⟩ :=
    robustRotation_run (ofM := ofM) horder hne hw h2 hcov hcon hs
  have hv0 : v0 ∈ o.keys := (hk v0).2 (List.mem_of_getElem? hr.first)
  have hsteps := irlsLoop_steps hlog hr (by omega) hlen rfl hA hD hs _ (o := o1) (by rw [k1]; exact hk) _ _ e2
  refine ⟨v0, hv0, rot o1, rot o2, o2, _, he, fun v hv => get_rot (by rw [hk2]; exact hv),
    robustSteps_perm (viewOrder_perm horder o) hsteps, by rw [get_rot hv0, h01], fun h1 v hv => ?_⟩
  rw [solveL1_none hA hr h1 hk, Outcome.ok.injEq] at e1
  rw [← e1]
  exact get_rot hv

/-- The constraints of an estimator are all that were ever added: calls keep them, and a call with pairs adds to them. -/
theorem C69_history (cs : List ((Nat × Nat) × V3 ℝ)) :
    (addAll st cs).constraints = st.constraints ++ cs ∧
    (∀ b o' st', estimate ofM order opt st o = .ok (b, o', st') → st'.constraints = st.constraints) ∧
    (∀ b o' st', estimatePairs ofM order opt st cs o = .ok (b, o', st') → st'.constraints = st.constraints ++ cs) := by
  have hadd : ∀ (cs : List ((Nat × Nat) × V3 ℝ)) (st : State), (addAll st cs).constraints = st.constraints ++ cs := by
    intro cs
    induction cs with
    | nil => intro st; simp [addAll]
    | cons c cs ih =>
      intro st
      have := ih (addConstraint st c)
      rw [addAll] at this ⊢
      rw [List.foldl_cons, this]
      simp [addConstraint]
  have hest : ∀ (st : State) b o' st', estimate ofM order opt st o = .ok (b, o', st') →
      st'.constraints = st.constraints := by
    intro st b o' st' he
    unfold estimate at he
    split at he
    · cases he
    split at he
    · cases he
    simp only at he
    split at he
    · cases he
    · cases he
    split at he
    · cases he
    split at he
    · cases he
    · cases he
    split at he
    · cases he
    · cases he
    have := Outcome.ok.inj he
    rw [Prod.mk.injEq, Prod.mk.injEq] at this
    rw [← this.2.2]
  refine ⟨hadd cs st, hest st, fun b o' st' he => ?_⟩
  rw [hest _ _ _ _ he, hadd]

end

/-- One constraint between the views 0 and 1. -/
def robustPair (r : V3 ℝ) : List ((Nat × Nat) × V3 ℝ) := [((0, 1), r)]

/-- Orientations of two views. -/
def robustTwo (a b : Nat) (q r : V3 ℝ) : AMap Nat (V3 ℝ) := (AMap.empty.insert a q).insert b r

theorem robustTwo_facts (q r : V3 ℝ) : (robustTwo 0 1 q r).WF ∧ (robustTwo 0 1 q r).size = 2 ∧
    (robustTwo 0 1 q r).keys = [0, 1] :=
  ⟨show List.Nodup [0, 1] by decide, rfl, rfl⟩

theorem robustPair_connected (r : V3 ℝ) : ConnectedBy (robustPair r) [0, 1] := by
  have h : Relation.EqvGen (fun a b => ∃ q, ((a, b), q) ∈ robustPair r) 0 1 := .rel _ _ ⟨r, by simp [robustPair]⟩
  intro v hv w hw
  simp only [List.mem_cons, List.not_mem_nil, or_false] at hv hw
  rcases hv with rfl | rfl <;> rcases hw with rfl | rfl
  · exact .refl _
  · exact h
  · exact .symm _ _ h
  · exact .refl _

/-- An estimator that has been used cannot be used for other views: the call with the new pairs does not return, although it
succeeds with a new estimator. -/
theorem C69_reuse_counterexample :
    ∃ ofM o1 o2 pairs1 pairs2 st1, IsLog ofM ∧
      (∃ o1', estimatePairs ofM id { } empty pairs1 o1 = .ok (true, o1', st1)) ∧
      (∃ o2' st2, estimatePairs ofM id { } empty pairs2 o2 = .ok (true, o2', st2)) ∧
      ∀ r, estimatePairs ofM id { } st1 pairs2 o2 ≠ .ok r := by
  obtain ⟨ofM, hlog⟩ := exists_isLog
  have hs : 0 < ({ } : Options).sigma := by
    show 0 < RotationFilters.degToRad 5
    unfold RotationFilters.degToRad
    positivity
  have hcon2 : ConnectedBy [((2, 3), V3.zero)] [2, 3] := by
    have h : Relation.EqvGen (fun a b => ∃ q, ((a, b), q) ∈ [((2, 3), (V3.zero : V3 ℝ))]) 2 3 :=
      .rel _ _ ⟨V3.zero, by simp⟩
    intro v hv w hw
    simp only [List.mem_cons, List.not_mem_nil, or_false] at hv hw
    rcases hv with rfl | rfl <;> rcases hw with rfl | rfl
    · exact .refl _
    · exact h
    · exact .symm _ _ h
    · exact .refl _
  obtain ⟨o1', st1, h1, -⟩ := (C69_total (ofM := ofM) (order := id) (opt := { }) (st := addAll empty (robustPair V3.zero))
    (o := robustTwo 0 1 V3.zero V3.zero) (fun _ => .refl _) (by simp [addAll, addConstraint, empty, robustPair])
    (robustTwo_facts _ _).1 (by rw [(robustTwo_facts _ _).2.1])
    (by simp [addAll, addConstraint, empty, robustPair, (robustTwo_facts _ _).2.2]) hs).1 (robustPair_connected _)
  obtain ⟨o2', st2, h2, -⟩ := (C69_total (ofM := ofM) (order := id) (opt := { }) (st := addAll empty [((2, 3), V3.zero)])
    (o := robustTwo 2 3 V3.zero V3.zero) (fun _ => .refl _) (by simp [addAll, addConstraint, empty])
    (by decide) (by decide) (by
      intro c hc
      simp only [addAll, addConstraint, empty, List.foldl_cons, List.foldl_nil, List.nil_append, List.mem_cons,
        List.not_mem_nil, or_false] at hc
      subst hc
      decide) hs).1 hcon2
  refine ⟨ofM, robustTwo 0 1 V3.zero V3.zero, robustTwo 2 3 V3.zero V3.zero, robustPair V3.zero, [((2, 3), V3.zero)], st1,
    hlog, ⟨o1', h1⟩, ⟨o2', st2, h2⟩, ?_⟩
  have hst1 := (C69_history (ofM := ofM) (order := id) (opt := { }) (st := empty) (o := robustTwo 0 1 V3.zero V3.zero)
    (robustPair V3.zero)).2.2 _ _ _ h1
  apply C69_missing
  refine ⟨((0, 1), V3.zero), ?_, Or.inl (by decide)⟩
  rw [(C69_history (ofM := ofM) (order := id) (opt := { }) (st := st1) (o := robustTwo 0 1 V3.zero V3.zero) _).1, hst1]
  simp [robustPair, empty]

/-- Two views at right angles and a constraint that says so meet the hypotheses of the theorems. -/
example : ∃ (ofM : M3 ℝ → V3 ℝ) (st : State) (o : AMap Nat (V3 ℝ)) (G : Nat → M3 ℝ), IsLog ofM ∧ st.constraints ≠ [] ∧ o.WF ∧
    2 ≤ o.size ∧ (∀ c ∈ st.constraints, c.1.1 ∈ o.keys ∧ c.1.2 ∈ o.keys) ∧ ConnectedBy st.constraints o.keys ∧
    0 < ({ } : Options).sigma ∧ ConsistentWith st.constraints G ∧ ∀ v r, o.get v = some r → toM r = G v := by
  obtain ⟨ofM, hlog⟩ := exists_isLog
  refine ⟨ofM, addAll empty (robustPair ⟨0, 0, Real.pi / 2⟩), robustTwo 0 1 V3.zero ⟨0, 0, Real.pi / 2⟩,
    fun v => if v = 1 then toM ⟨0, 0, Real.pi / 2⟩ else M3.one, hlog, by simp [addAll, addConstraint, empty, robustPair],
    (robustTwo_facts _ _).1, by rw [(robustTwo_facts _ _).2.1],
    by simp [addAll, addConstraint, empty, robustPair, (robustTwo_facts _ _).2.2], robustPair_connected _, ?_, ⟨?_, ?_⟩, ?_⟩
  · show 0 < RotationFilters.degToRad 5
    unfold RotationFilters.degToRad
    positivity
  · intro v
    simp only
    split
    · exact isRotation_toM _
    · exact M3.IsRotation.one
  · intro c hc
    simp only [addAll, addConstraint, empty, robustPair, List.foldl_cons, List.foldl_nil, List.nil_append, List.mem_cons,
        List.not_mem_nil, or_false] at hc
    subst hc
    simp [M3.mul_one]
  · intro v r hv
    simp only [robustTwo, AMap.get_insert] at hv
    split at hv
    · rename_i h
      simp only [← Option.some.inj hv, if_pos h]
    · rename_i h
      split at hv
      · simp only [← Option.some.inj hv, if_neg h, toM_zero]
      · simp [AMap.empty, AMap.get] at hv

/-- Three views of which one has no constraint: the views are not connected. -/
example : ∃ (st : State) (o : AMap Nat (V3 ℝ)), st.constraints ≠ [] ∧ o.WF ∧ 2 ≤ o.size ∧
    (∀ c ∈ st.constraints, c.1.1 ∈ o.keys ∧ c.1.2 ∈ o.keys) ∧ ¬ConnectedBy st.constraints o.keys := by
  refine ⟨addAll empty (robustPair V3.zero), (robustTwo 0 1 V3.zero V3.zero).insert 2 V3.zero,
    by simp [addAll, addConstraint, empty, robustPair], by decide, by decide, ?_, ?_⟩
  · intro c hc
    simp only [addAll, addConstraint, empty, robustPair, List.foldl_cons, List.foldl_nil, List.nil_append, List.mem_cons,
        List.not_mem_nil, or_false] at hc
    subst hc
    decide
  · intro h
    have h02 := h 0 (by decide) 2 (by decide)
    have key : ∀ a b, Relation.EqvGen (fun a b => ∃ r, ((a, b), r) ∈ (addAll empty (robustPair V3.zero)).constraints) a b →
        (a = 2 ↔ b = 2) := by
      intro a b hab
      induction hab with
      | rel a b h =>
        obtain ⟨r, h⟩ := h
        simp only [addAll, addConstraint, empty, robustPair, List.foldl_cons, List.foldl_nil, List.nil_append, List.mem_cons,
          List.not_mem_nil, or_false, Prod.mk.injEq] at h
        omega
      | refl => rfl
      | symm _ _ _ ih => exact ih.symm
      | trans _ _ _ _ _ ih1 ih2 => exact ih1.trans ih2
    have := key 0 2 h02
    omega

end Theia
