import Verif.Proof.LinearRotation
import Verif.Proof.Eigensolver

/-!
# Linear estimation of global rotations: properties
-/

namespace Theia

open Spec AngleAxis ProjectionMatrix LinearRotation

theorem linearRotation_size {cs : List ((Nat × Nat) × V3 ℝ)} (hne : cs ≠ []) (hd : ∀ c ∈ cs, c.1.1 ≠ c.1.2)
    {views : List Nat} (hv : ViewsOf cs views) : 2 ≤ views.length := by
  obtain ⟨c, hc⟩ := List.exists_mem_of_ne_nil _ hne
  have h1 := (hv.2 c.1.1).2 ⟨c, hc, Or.inl rfl⟩
  have h2 := (hv.2 c.1.2).2 ⟨c, hc, Or.inr rfl⟩
  have hsub : [c.1.1, c.1.2] ⊆ views := by
    intro x hx
    simp only [List.mem_cons, List.not_mem_nil, or_false] at hx
    rcases hx with rfl | rfl
    · exact h1
    · exact h2
  have hnd : [c.1.1, c.1.2].Nodup := by simp [hd c hc]
  exact (List.subperm_of_subset hnd hsub).length_le

/-- The exact result, for any constraints between distinct views, added one by one or by several calls: the estimator
succeeds. There are matrices, with orthonormal columns when stacked, that have the least sum of `||X_2 - R_12 X_1||^2` among
all such matrices. The orientation of each view is the projection of its matrix, except that orientations that were passed in
stay. -/
theorem C62_least_squares {eig : Nat → (Nat → Nat → ℝ) → Option (Fin 3 → Nat → ℝ)} (heig : Eigensolver eig)
    (svd : M3 ℝ → M3 ℝ × M3 ℝ) (ofM : M3 ℝ → V3 ℝ) {order : List (Nat × Nat) → List (Nat × Nat)}
    (horder : ∀ l, (order l).Perm l) {cs : List ((Nat × Nat) × V3 ℝ)} (hne : cs ≠ []) (hd : ∀ c ∈ cs, c.1.1 ≠ c.1.2)
    {views : List Nat} (hv : ViewsOf cs views) (o : AMap Nat (V3 ℝ)) :
    ∃ X o', StackOrthonormal views X ∧
      (∀ Y, StackOrthonormal views Y → rotationCost cs X ≤ rotationCost cs Y) ∧
      estimate eig svd ofM order (addAll empty cs) o = .ok o' ∧
      ∀ v, (∀ w, o.get v = some w → o'.get v = some w) ∧
        (o.get v = none → v ∈ views → o'.get v = some (ofM (projectToRotation svd (X v)))) ∧
        (o.get v = none → v ∉ views → o'.get v = none) := by
  have hinv : Inv cs (addAll empty cs) := by simpa using inv_empty.addAll cs hd
  have hsize := (indices_perm hinv hv).2
  have h2 := linearRotation_size hne hd hv
  obtain ⟨u, hu, hs⟩ := heig (3 * (addAll empty cs).index.size) (symmetric (stored (addAll empty cs).entries)) (by omega)
    (symmetric_comm _)
  refine ⟨fun v => block u (idx (addAll empty cs) v),
    collect svd ofM u (order (addAll empty cs).index.entries) o, stack_orthonormal hinv hv hs.1,
    fun Y hY => optimal hinv hv hs hY, ?_, ?_⟩
  · unfold estimate
    rw [if_neg (by simpa using hinv.entries hne), if_neg (by omega), hu]
  · have hkeys : ∀ v, v ∈ views ↔ v ∈ ((order (addAll empty cs).index.entries).map Prod.fst) := by
      intro v
      rw [((horder _).map _).mem_iff, hv.2, ← hinv.keys]
      rfl
    have hnd : ((order (addAll empty cs).index.entries).map Prod.fst).Nodup :=
      ((horder _).map _).nodup_iff.2 hinv.index.wf
    intro v
    refine ⟨?_, ?_, ?_⟩
    · intro w hw
      rw [collect_old _ _ _ _ _ _ (Or.inl (AMap.mem_keys_iff.2 ⟨w, hw⟩)), hw]
    · intro hnone hmem
      obtain ⟨i, hi⟩ := AMap.mem_keys_iff.1 ((hinv.keys v).2 ((hv.2 v).1 hmem))
      have hidx : idx (addAll empty cs) v = i := by simp [idx, hi]
      simp only [hidx]
      exact collect_new _ _ _ _ _ _ _ hnd (AMap.get_eq_none_iff.1 hnone)
        ((horder _).mem_iff.2 (AMap.mem_entries_of_get hi))
    · intro hnone hmem
      rw [collect_old _ _ _ _ _ _ (Or.inr (fun h => hmem ((hkeys v).2 h))), hnone]

/-- If the relative rotations come from rotations `G` and join all views, then the orientations found are those rotations up
to one common rotation `Q`, and there is one for exactly the views of the constraints. -/
theorem C62_consistent {eig : Nat → (Nat → Nat → ℝ) → Option (Fin 3 → Nat → ℝ)} (heig : Eigensolver eig)
    {svd : M3 ℝ → M3 ℝ × M3 ℝ} (hsvd : ∀ m, IsSvd m (svd m).1 (svd m).2) {ofM : M3 ℝ → V3 ℝ} (hlog : IsLog ofM)
    {order : List (Nat × Nat) → List (Nat × Nat)} (horder : ∀ l, (order l).Perm l)
    {cs : List ((Nat × Nat) × V3 ℝ)} (hne : cs ≠ []) (hd : ∀ c ∈ cs, c.1.1 ≠ c.1.2) {views : List Nat}
    (hv : ViewsOf cs views) (hconn : ConnectedBy cs views) {G : Nat → M3 ℝ} (hG : ConsistentWith cs G) :
    ∃ o Q, estimate eig svd ofM order (addAll empty cs) AMap.empty = .ok o ∧ Q.IsRotation ∧
      (∀ v ∈ views, ∃ w, o.get v = some w ∧ toM w = (G v).mul Q) ∧ ∀ v, v ∉ views → o.get v = none := by
  obtain ⟨X, o, hX, hmin, ho, hget⟩ := C62_least_squares heig svd ofM horder hne hd hv AMap.empty
  have h2 := linearRotation_size hne hd hv
  have hvne : views ≠ [] := by rintro rfl; simp at h2
  have hcost := hmin _ (truth_orthonormal hvne hG.1)
  rw [truth_cost hG] at hcost
  obtain ⟨Q, hQ, hXQ⟩ := recovered hvne hconn hG hX (cost_terms_zero hcost)
  have hs : 0 < (Real.sqrt (views.length : ℝ))⁻¹ := by
    apply inv_pos.2
    apply Real.sqrt_pos.2
    exact_mod_cast List.length_pos_iff.2 hvne
  have hdet := EssentialMatrix.det_sq hQ
  have hnone : ∀ v, (AMap.empty : AMap Nat (V3 ℝ)).get v = none := fun v => by simp [AMap.get, AMap.empty]
  refine ⟨o, if Q.det < 0 then scale (-1) Q else Q, ho, ?_, ?_, fun v hm => (hget v).2.2 (hnone v) hm⟩
  · by_cases hn : Q.det < 0
    · rw [if_pos hn]
      have h1 : Q.det = -1 := by nlinarith
      refine ⟨?_, ?_, ?_⟩
      · rw [← hQ.1]
        apply M3.ext <;> apply V3.ext <;> simp only [scale, M3.mul, M3.transpose, M3.mulVec, V3.dot, V3.smul] <;> ring
      · rw [← hQ.2]
        apply M3.ext <;> apply V3.ext <;> simp only [scale, M3.mul, M3.transpose, M3.mulVec, V3.dot, V3.smul] <;> ring
      · have : (scale (-1) Q).det = -Q.det := by simp only [scale, M3.det, V3.dot, V3.cross, V3.smul]; ring
        rw [this, h1]; norm_num
    · rw [if_neg hn]
      exact ⟨hQ.1, hQ.2, by nlinarith⟩
  · intro v hm
    refine ⟨_, (hget v).2.1 (hnone v) hm, ?_⟩
    have hGQ := isOrthogonal_mul (isOrthogonal_of_isRotation (hG.1 v)) hQ
    have hproj : projectToRotation svd (X v) = (G v).mul (if Q.det < 0 then scale (-1) Q else Q) := by
      rw [hXQ v hm, project_scaled hs hGQ (hsvd _), M3.det_mul, (hG.1 v).det, one_mul]
      split_ifs
      · rw [mul_scale]
      · rfl
    have hrot : (projectToRotation svd (X v)).IsRotation :=
      projectToRotation_isRotation (hsvd _).1 (hsvd _).2.1
    rw [(hlog _ hrot).1, hproj]

/-- `EstimateRotations` with view pairs works on these pairs and on everything added to the estimator before. -/
theorem C62_history (eig : Nat → (Nat → Nat → ℝ) → Option (Fin 3 → Nat → ℝ)) (svd : M3 ℝ → M3 ℝ × M3 ℝ)
    (ofM : M3 ℝ → V3 ℝ) (order : List (Nat × Nat) → List (Nat × Nat)) (before pairs : List ((Nat × Nat) × V3 ℝ))
    {o o' : AMap Nat (V3 ℝ)} {s' : LinearRotation.State}
    (h : estimatePairs eig svd ofM order (addAll empty before) pairs o = .ok (s', o')) :
    estimate eig svd ofM order (addAll empty (before ++ pairs)) o = .ok o' ∧ s' = addAll empty (before ++ pairs) := by
  have e : addAll (addAll empty before) pairs = addAll empty (before ++ pairs) := by simp [addAll, List.foldl_append]
  unfold estimatePairs at h
  rw [e] at h
  cases h1 : estimate eig svd ofM order (addAll empty (before ++ pairs)) o with
  | abort => rw [h1] at h; simp at h
  | ub => rw [h1] at h; simp at h
  | ok o1 =>
    rw [h1] at h
    simp only [Outcome.ok.injEq, Prod.mk.injEq] at h
    exact ⟨by rw [h.2], h.1.symm⟩

/-- Two views with the identity between them. -/
noncomputable def twoViewRotation : List ((Nat × Nat) × V3 ℝ) := [((4, 2), V3.zero)]

theorem twoViewRotation_views : ViewsOf twoViewRotation [4, 2] := by
  refine ⟨by decide, ?_⟩
  intro v
  simp [twoViewRotation]

/-- A value passed in for a view is not replaced by the estimate ("initial guess" in the header): for constraints that say
that both views have the same rotation, and an initial orientation `w` for one of them, the result keeps `w`, and the two
orientations disagree with the constraint whenever `w` is not the rotation that the other view gets. -/
theorem C62_initial_guess_counterexample : ∃ (cs : List ((Nat × Nat) × V3 ℝ)) (o : AMap Nat (V3 ℝ)),
    ConsistentWith cs (fun _ => M3.one) ∧
    ∀ (eig : Nat → (Nat → Nat → ℝ) → Option (Fin 3 → Nat → ℝ)) (svd : M3 ℝ → M3 ℝ × M3 ℝ) (ofM : M3 ℝ → V3 ℝ)
      (order : List (Nat × Nat) → List (Nat × Nat)), Eigensolver eig → (∀ m, IsSvd m (svd m).1 (svd m).2) → IsLog ofM →
      (∀ l, (order l).Perm l) → ∃ o', estimate eig svd ofM order (addAll empty cs) o = .ok o' ∧
        ∀ c ∈ cs, ∃ w1 w2, o'.get c.1.1 = some w1 ∧ o'.get c.1.2 = some w2 ∧ toM w2 ≠ (toM c.2).mul (toM w1) := by
  have hpi : toM ⟨Real.pi, 0, 0⟩ ≠ M3.one := by
    intro h
    have ht := trace_toM ⟨Real.pi, 0, 0⟩
    rw [h] at ht
    have hd : (⟨Real.pi, 0, 0⟩ : V3 ℝ).dot ⟨Real.pi, 0, 0⟩ = Real.pi * Real.pi := by simp [V3.dot]
    rw [hd, Real.sqrt_mul_self Real.pi_pos.le, Real.cos_pi] at ht
    simp [trace, M3.one] at ht
    norm_num at ht
  refine ⟨twoViewRotation, (AMap.empty.insert 4 ⟨Real.pi, 0, 0⟩).insert 2 V3.zero, ?_, ?_⟩
  · refine ⟨fun _ => M3.IsRotation.one, ?_⟩
    intro c hc
    simp only [twoViewRotation, List.mem_singleton] at hc
    subst hc
    simp only [toM_zero, M3.mul_one]
  · intro eig svd ofM order he _ _ hord
    obtain ⟨X, o', _, _, ho, hget⟩ := C62_least_squares he svd ofM hord (cs := twoViewRotation) (by simp [twoViewRotation])
      (by simp [twoViewRotation]) twoViewRotation_views ((AMap.empty.insert 4 ⟨Real.pi, 0, 0⟩).insert 2 V3.zero)
    refine ⟨o', ho, ?_⟩
    intro c hc
    simp only [twoViewRotation, List.mem_singleton] at hc
    subst hc
    refine ⟨⟨Real.pi, 0, 0⟩, V3.zero, (hget 4).1 _ ?_, (hget 2).1 _ (AMap.get_insert_self _ _ _), ?_⟩
    · rw [AMap.get_insert_ne _ _ (by decide), AMap.get_insert_self]
    · simp only [toM_zero, M3.one_mul]
      exact fun h => hpi h.symm

/-- An estimator used for a second set of view pairs still has the first one: views of the first set get an orientation
too. -/
theorem C62_second_call_counterexample : ∃ (first second : List ((Nat × Nat) × V3 ℝ)) (v : Nat),
    (∀ c ∈ second, v ≠ c.1.1 ∧ v ≠ c.1.2) ∧
    ∀ (eig : Nat → (Nat → Nat → ℝ) → Option (Fin 3 → Nat → ℝ)) (svd : M3 ℝ → M3 ℝ × M3 ℝ) (ofM : M3 ℝ → V3 ℝ)
      (order : List (Nat × Nat) → List (Nat × Nat)), Eigensolver eig → (∀ l, (order l).Perm l) →
      ∃ s o s' o', estimatePairs eig svd ofM order empty first AMap.empty = .ok (s, o) ∧
        estimatePairs eig svd ofM order s second AMap.empty = .ok (s', o') ∧ o'.get v ≠ none := by
  refine ⟨[((0, 1), V3.zero)], [((2, 3), V3.zero)], 0, by simp, ?_⟩
  intro eig svd ofM order he hord
  obtain ⟨X1, o1, _, _, h1, _⟩ := C62_least_squares he svd ofM hord (cs := [((0, 1), V3.zero)]) (by simp) (by simp)
    (views := [0, 1]) ⟨by decide, by simp⟩ AMap.empty
  obtain ⟨X2, o2, _, _, h2, hget⟩ := C62_least_squares he svd ofM hord (cs := [((0, 1), V3.zero), ((2, 3), V3.zero)])
    (by simp) (by simp) (views := [0, 1, 2, 3]) ⟨by decide, by intro v; simp; tauto⟩ AMap.empty
  have e : addAll (addAll empty [((0, 1), V3.zero)]) [((2, 3), V3.zero)] =
      addAll empty [((0, 1), V3.zero), ((2, 3), V3.zero)] := rfl
  refine ⟨addAll empty [((0, 1), V3.zero)], o1, addAll empty [((0, 1), V3.zero), ((2, 3), V3.zero)], o2, ?_, ?_, ?_⟩
  · unfold estimatePairs
    rw [h1]
  · unfold estimatePairs
    rw [e, h2]
  · rw [(hget 0).2.1 (by simp [AMap.get, AMap.empty]) (by simp)]
    simp

/-- The hypotheses of `C62_consistent` can be met: solvers exist, and a triangle of views with a quarter turn is
consistent. -/
example : ∃ (eig : Nat → (Nat → Nat → ℝ) → Option (Fin 3 → Nat → ℝ)) (svd : M3 ℝ → M3 ℝ × M3 ℝ) (ofM : M3 ℝ → V3 ℝ),
    Eigensolver eig ∧ (∀ m, IsSvd m (svd m).1 (svd m).2) ∧ IsLog ofM := by
  obtain ⟨eig, h1⟩ := exists_eigensolver
  obtain ⟨svd, h2⟩ := Svd.exists_svd_function
  obtain ⟨ofM, h3⟩ := exists_isLog
  exact ⟨eig, svd, ofM, h1, h2, h3⟩

/-- Three views, with the relative rotations of given rotations. -/
example (a b : V3 ℝ) : ∃ G, ConsistentWith [((0, 1), a), ((2, 1), b)] G ∧
    ConnectedBy [((0, 1), a), ((2, 1), b)] [0, 1, 2] ∧ ViewsOf [((0, 1), a), ((2, 1), b)] [0, 1, 2] := by
  refine ⟨fun v => if v = 0 then M3.one else if v = 1 then toM a else (toM b).transpose.mul (toM a), ⟨?_, ?_⟩, ?_,
    by decide, ?_⟩
  · intro v
    simp only
    split_ifs
    · exact M3.IsRotation.one
    · exact isRotation_toM a
    · exact (isRotation_toM b).transpose.mul (isRotation_toM a)
  · intro c hc
    simp only [List.mem_cons, List.not_mem_nil, or_false] at hc
    rcases hc with rfl | rfl
    · simp [M3.mul_one]
    · simp [← M3.mul_assoc, (isRotation_toM b).right, M3.one_mul]
  · have h01 : Relation.EqvGen (fun x y => ∃ r, ((x, y), r) ∈ [((0, 1), a), ((2, 1), b)]) 0 1 :=
      Relation.EqvGen.rel _ _ ⟨a, by simp⟩
    have h21 : Relation.EqvGen (fun x y => ∃ r, ((x, y), r) ∈ [((0, 1), a), ((2, 1), b)]) 2 1 :=
      Relation.EqvGen.rel _ _ ⟨b, by simp⟩
    have h1 : ∀ v ∈ [0, 1, 2], Relation.EqvGen (fun x y => ∃ r, ((x, y), r) ∈ [((0, 1), a), ((2, 1), b)]) v 1 := by
      intro v hv
      simp only [List.mem_cons, List.not_mem_nil, or_false] at hv
      rcases hv with rfl | rfl | rfl
      · exact h01
      · exact Relation.EqvGen.refl _
      · exact h21
    intro v hv w hw
    exact (h1 v hv).trans _ _ _ ((h1 w hw).symm _ _)
  · intro v; simp; tauto

end Theia
