import Verif.Proof.RotationFilters
import Verif.Props.TripletExtractor
import Verif.Props.ViewGraph

/-!
# C42, C43: filters of view pairs by rotation
-/

namespace Theia

open AngleAxis TwoView ViewGraph RotationFilters Spec

/-- The angle, in degrees, by which the rotation around the triangle `a`, `b`, `c` differs from none. -/
noncomputable def Spec.loopDegrees (i12 i13 i23 : Info) : ℝ :=
  angle (((toM i23.rotation).mul (toM i12.rotation)).mul (toM i13.rotation).transpose) * (180 / Real.pi)

/-- The pair `p` is a side of a triangle of the graph whose rotation error is below `maxError` degrees. -/
def Spec.OnGoodTriangle (g : ViewGraph Info) (maxError : ℝ) (p : Nat × Nat) : Prop :=
  ∃ a b c i12 i13 i23, a < b ∧ b < c ∧ g.getEdge a b = some i12 ∧ g.getEdge a c = some i13 ∧
    g.getEdge b c = some i23 ∧ (p = (a, b) ∨ p = (a, c) ∨ p = (b, c)) ∧ Spec.loopDegrees i12 i13 i23 < maxError

/-- C42. Cycle filtering keeps exactly the edges on a triangle with an error below the threshold, with their values,
and all views. For every history of the graph and every order of iteration. -/
theorem C42_cycles (ofM : M3 ℝ → V3 ℝ) (hlog : IsLog ofM) (limit : Nat) (hl : 0 < limit)
    (order : List (Nat × Nat) → List (Nat × Nat)) (horder : ∀ l, (order l).Perm l) (maxError : ℝ)
    (ops : List (ViewGraph.Op Info))
    (hlimit : ∀ ts : List (Nat × Nat × Nat), ts.Nodup →
      (∀ t ∈ ts, IsTriangle ((ViewGraph.run ops).allEdges.map (·.1)) t) → ts.length ≤ limit) :
    ∃ g', filterCycles ofM limit order maxError (ViewGraph.run ops) = .ok g' ∧
      (∀ a b i, a < b → (g'.getEdge a b = some i ↔
        (ViewGraph.run ops).getEdge a b = some i ∧ Spec.OnGoodTriangle (ViewGraph.run ops) maxError (a, b))) ∧
      (∀ v, g'.hasView v = (ViewGraph.run ops).hasView v) ∧
      ∃ ops', g' = ViewGraph.run ops' := by
  set g := ViewGraph.run ops with hg
  have hinv : Inv g := (rep_run ops).inv
  have hkeys : g.allEdges.map (·.1) = g.edges.keys := rfl
  have hnd : (order (g.allEdges.map (·.1))).Nodup := (horder _).nodup_iff.2 hinv.wfE
  have hlt : ∀ e ∈ order (g.allEdges.map (·.1)), e.1 < e.2 := fun e he => hinv.lt e ((horder _).mem_iff.1 he)
  have htri : ∀ t, IsTriangle (order (g.allEdges.map (·.1))) t ↔ IsTriangle (g.allEdges.map (·.1)) t := by
    intro t
    unfold IsTriangle
    simp only [(horder _).mem_iff]
  obtain ⟨res, groups, h1, h2, _, h4, h5, _, _⟩ := C15_triplets_exact limit hl (order (g.allEdges.map (·.1))) hnd hlt
    (fun ts hts h => hlimit ts hts (fun t ht => (htri t).1 (h t ht))) []
  have hmem : ∀ t, t ∈ res.flatten ↔ IsTriangle (g.allEdges.map (·.1)) t := by
    intro t
    have : t ∈ res.flatten ↔ t ∈ groups.flatten := by
      simp only [List.mem_flatten]
      constructor
      · rintro ⟨l, hl, ht⟩
        exact ⟨l, by simpa using h2.mem_iff.1 hl, ht⟩
      · rintro ⟨l, hl, ht⟩
        exact ⟨l, h2.mem_iff.2 (by simpa using hl), ht⟩
    rw [this, h5, htri]
  have hedge : ∀ a b, a < b → ((a, b) ∈ g.allEdges.map (·.1) ↔ ∃ i, g.getEdge a b = some i) := by
    intro a b hab
    rw [hkeys, AMap.mem_keys_iff]
    unfold getEdge ordPair
    rw [if_pos hab]
  obtain ⟨out, ho, hout⟩ := tripletLoop_spec ofM maxError g res.flatten (g.allEdges.map (·.1)) (by
    intro t ht
    obtain ⟨a1, a2, a3, a4, a5⟩ := (hmem t).1 ht
    obtain ⟨i12, e12⟩ := (hedge _ _ a1).1 a3
    obtain ⟨i13, e13⟩ := (hedge _ _ (a1.trans a2)).1 a4
    obtain ⟨i23, e23⟩ := (hedge _ _ a2).1 a5
    exact ⟨i12, i13, i23, e12, e13, e23⟩)
  obtain ⟨r1, r2, r3⟩ := removeAll_spec (order out) g hinv (by
    intro p hp
    exact hinv.lt p ((hout p).1 ((horder _).mem_iff.1 hp)).1)
  refine ⟨removeAll (order out) g, ?_, ?_, ?_, ?_⟩
  · unfold filterCycles
    simp only [h1, ho]
  · intro a b i hab
    have hget : ∀ g : ViewGraph Info, g.getEdge a b = g.edges.get (a, b) := by
      intro g; unfold getEdge ordPair; rw [if_pos hab]
    rw [hget, hget, r2]
    have hgood : (∃ t ∈ res.flatten, ((a, b) = (t.1, t.2.1) ∨ (a, b) = (t.1, t.2.2) ∨ (a, b) = (t.2.1, t.2.2)) ∧
        ∃ i12 i13 i23, g.getEdge t.1 t.2.1 = some i12 ∧ g.getEdge t.1 t.2.2 = some i13 ∧
          g.getEdge t.2.1 t.2.2 = some i23 ∧ loopError ofM i12 i13 i23 < maxError) ↔
        Spec.OnGoodTriangle g maxError (a, b) := by
      constructor
      · rintro ⟨t, ht, hs, i12, i13, i23, e12, e13, e23, hlo⟩
        obtain ⟨a1, a2, _⟩ := (hmem t).1 ht
        rw [loopError_eq hlog] at hlo
        exact ⟨t.1, t.2.1, t.2.2, i12, i13, i23, a1, a2, e12, e13, e23, hs, hlo⟩
      · rintro ⟨x, y, z, i12, i13, i23, hxy, hyz, e12, e13, e23, hs, hlo⟩
        refine ⟨(x, y, z), (hmem _).2 ⟨hxy, hyz, (hedge _ _ hxy).2 ⟨_, e12⟩, (hedge _ _ (hxy.trans hyz)).2 ⟨_, e13⟩,
          (hedge _ _ hyz).2 ⟨_, e23⟩⟩, hs, i12, i13, i23, e12, e13, e23, ?_⟩
        rw [loopError_eq hlog]
        exact hlo
    have hin : (a, b) ∈ order out ↔ (a, b) ∈ g.edges.keys ∧ ¬ Spec.OnGoodTriangle g maxError (a, b) := by
      rw [(horder _).mem_iff, hout, hgood]
      rfl
    by_cases hgd : Spec.OnGoodTriangle g maxError (a, b)
    · rw [if_neg (by rw [hin]; exact fun h => h.2 hgd)]
      simp [hgd]
    · by_cases hk : (a, b) ∈ g.edges.keys
      · rw [if_pos (hin.2 ⟨hk, hgd⟩)]
        simp [hgd]
      · rw [AMap.get_eq_none_iff.2 hk]
        simp
  · intro v
    unfold hasView
    rw [Bool.eq_iff_iff, AMap.contains_iff, AMap.contains_iff]
    exact r3 v
  · exact ⟨_, removeAll_run _ ops⟩

/-- The pair with relative rotation `i` agrees with the orientations: both views have one, and the angle between the
relative rotation and the one they imply is at most `maxDegrees`. -/
def Spec.OrientationsAgree (orientations : AMap Nat (V3 ℝ)) (maxDegrees : ℝ) (p : Nat × Nat) (i : Info) : Prop :=
  ∃ o1 o2, orientations.get p.1 = some o1 ∧ orientations.get p.2 = some o2 ∧
    angle ((toM i.rotation).transpose.mul ((toM o2).mul (toM o1).transpose)) ≤ maxDegrees * (Real.pi / 180)

/-- C43. Orientation filtering keeps exactly the edges that agree with the orientations, with their values, and all
views; a negative threshold stops the program. -/
theorem C43_orientations (ofM : M3 ℝ → V3 ℝ) (hlog : IsLog ofM) (order : List (Nat × Nat) → List (Nat × Nat))
    (horder : ∀ l, (order l).Perm l) (orientations : AMap Nat (V3 ℝ)) (maxDegrees : ℝ)
    (ops : List (ViewGraph.Op Info)) :
    (maxDegrees < 0 → filterOrientation ofM order orientations maxDegrees (ViewGraph.run ops) = .abort) ∧
    (0 ≤ maxDegrees → ∃ g', filterOrientation ofM order orientations maxDegrees (ViewGraph.run ops) = .ok g' ∧
      (∀ a b i, a < b → (g'.getEdge a b = some i ↔
        (ViewGraph.run ops).getEdge a b = some i ∧ Spec.OrientationsAgree orientations maxDegrees (a, b) i)) ∧
      (∀ v, g'.hasView v = (ViewGraph.run ops).hasView v) ∧
      ∃ ops', g' = ViewGraph.run ops') := by
  set g := ViewGraph.run ops with hg
  have hinv : Inv g := (rep_run ops).inv
  refine ⟨fun h => by unfold filterOrientation; rw [if_pos h], fun hpos => ?_⟩
  have hrad : 0 ≤ degToRad maxDegrees := by
    unfold degToRad
    have := Real.pi_pos
    positivity
  set L := pairsToRemove ofM orientations (degToRad maxDegrees * degToRad maxDegrees) g.allEdges with hL
  have hmemL : ∀ p, p ∈ L ↔ ∃ i, g.edges.get p = some i ∧ ¬ Spec.OrientationsAgree orientations maxDegrees p i := by
    intro p
    rw [hL, mem_pairsToRemove]
    constructor
    · rintro ⟨i, hi, hn⟩
      refine ⟨i, AMap.get_of_mem_entries hinv.wfE hi, ?_⟩
      rintro ⟨o1, o2, h1, h2, h3⟩
      exact hn ⟨o1, o2, h1, h2, (acceptable_iff hlog o1 o2 i.rotation hrad).2 h3⟩
    · rintro ⟨i, hi, hn⟩
      refine ⟨i, AMap.mem_entries_of_get hi, ?_⟩
      rintro ⟨o1, o2, h1, h2, h3⟩
      exact hn ⟨o1, o2, h1, h2, (acceptable_iff hlog o1 o2 i.rotation hrad).1 h3⟩
  obtain ⟨r1, r2, r3⟩ := removeAll_spec (order L) g hinv (by
    intro p hp
    obtain ⟨i, hi, _⟩ := (hmemL p).1 ((horder _).mem_iff.1 hp)
    exact hinv.lt p (AMap.mem_keys_iff.2 ⟨i, hi⟩))
  refine ⟨removeAll (order L) g, ?_, ?_, ?_, _, removeAll_run _ ops⟩
  · unfold filterOrientation
    rw [if_neg (not_lt.2 hpos)]
  · intro a b i hab
    have hget : ∀ g : ViewGraph Info, g.getEdge a b = g.edges.get (a, b) := by
      intro g; unfold getEdge ordPair; rw [if_pos hab]
    have hin : (a, b) ∈ order L ↔ ∃ i, g.edges.get (a, b) = some i ∧
        ¬ Spec.OrientationsAgree orientations maxDegrees (a, b) i := by
      rw [(horder _).mem_iff, hmemL]
    rw [hget, hget, r2]
    cases he : g.edges.get (a, b) with
    | none => simp
    | some j =>
      rw [he] at hin
      by_cases ha : Spec.OrientationsAgree orientations maxDegrees (a, b) j
      · rw [if_neg (by rw [hin]; rintro ⟨i, hi, hn⟩; cases hi; exact hn ha)]
        constructor
        · intro h; cases h; exact ⟨rfl, ha⟩
        · exact fun h => h.1
      · rw [if_pos (hin.2 ⟨j, rfl, ha⟩)]
        constructor
        · intro h; cases h
        · rintro ⟨h, h2⟩
          cases h
          exact absurd h2 ha
  · intro v
    unfold hasView
    rw [Bool.eq_iff_iff, AMap.contains_iff, AMap.contains_iff]
    exact r3 v

/-- C43. Filtering again with the same orientations and threshold changes nothing. -/
theorem C43_idempotent (ofM : M3 ℝ → V3 ℝ) (hlog : IsLog ofM) (order : List (Nat × Nat) → List (Nat × Nat))
    (horder : ∀ l, (order l).Perm l) (orientations : AMap Nat (V3 ℝ)) (maxDegrees : ℝ) (h0 : 0 ≤ maxDegrees)
    (ops : List (ViewGraph.Op Info)) (g' : ViewGraph Info)
    (h : filterOrientation ofM order orientations maxDegrees (ViewGraph.run ops) = .ok g') :
    ∃ g'', filterOrientation ofM order orientations maxDegrees g' = .ok g'' ∧
      ∀ a b i, a < b → (g''.getEdge a b = some i ↔ g'.getEdge a b = some i) := by
  obtain ⟨g1, e1, c1, _, ops', hops⟩ := (C43_orientations ofM hlog order horder orientations maxDegrees ops).2 h0
  rw [h] at e1
  cases e1
  subst hops
  obtain ⟨g2, e2, c2, _, _⟩ := (C43_orientations ofM hlog order horder orientations maxDegrees ops').2 h0
  refine ⟨g2, e2, ?_⟩
  intro a b i hab
  rw [c2 a b i hab]
  exact ⟨fun h => h.1, fun h => ⟨h, ((c1 a b i hab).1 h).2⟩⟩

/-- A triangle of identity rotations with a spur and a fourth view: the hypotheses hold, the triangle stays and the
spur goes. -/
noncomputable def filterOps : List (ViewGraph.Op Info) :=
  [.addEdge 1 2 ⟨1, 1, V3.zero, V3.zero, 5, 0, 0⟩, .addEdge 3 2 ⟨1, 1, V3.zero, V3.zero, 5, 0, 0⟩,
   .addEdge 1 3 ⟨1, 1, V3.zero, V3.zero, 5, 0, 0⟩, .addEdge 3 4 ⟨1, 1, V3.zero, V3.zero, 5, 0, 0⟩]

theorem filter_angle_one : angle (M3.one : M3 ℝ) = 0 := by
  unfold angle trace M3.one
  norm_num

example (ofM : M3 ℝ → V3 ℝ) (hlog : IsLog ofM) : ∃ g', filterCycles ofM 1000 id 3 (ViewGraph.run filterOps) = .ok g' ∧
    (∃ i, g'.getEdge 1 2 = some i) ∧ (∃ i, g'.getEdge 1 3 = some i) ∧ g'.getEdge 3 4 = none := by
  have hkeys : (ViewGraph.run filterOps).allEdges.map (·.1) = [(1, 2), (2, 3), (1, 3), (3, 4)] := by
    rfl
  obtain ⟨g', h1, h2, _⟩ := C42_cycles ofM hlog 1000 (by norm_num) id (fun l => List.Perm.refl _) 3 filterOps (by
    intro ts hnd hts
    rw [hkeys] at hts
    have : ∀ t ∈ ts, t = (1, 2, 3) := by
      intro t ht
      obtain ⟨a, b, c⟩ := t
      obtain ⟨h1, h2, h3, h4, h5⟩ := hts _ ht
      simp only [List.mem_cons, Prod.mk.injEq, List.not_mem_nil, or_false] at h1 h2 h3 h4 h5 ⊢
      omega
    have hle : ts.length ≤ 1 := by
      have hsub : ts ⊆ [(1, 2, 3)] := fun t ht => by rw [this t ht]; simp
      have := (List.subperm_of_subset hnd hsub).length_le
      simpa using this
    omega)
  have e12 : (ViewGraph.run filterOps).getEdge 1 2 = some ⟨1, 1, V3.zero, V3.zero, 5, 0, 0⟩ := rfl
  have e13 : (ViewGraph.run filterOps).getEdge 1 3 = some ⟨1, 1, V3.zero, V3.zero, 5, 0, 0⟩ := rfl
  have e23 : (ViewGraph.run filterOps).getEdge 2 3 = some ⟨1, 1, V3.zero, V3.zero, 5, 0, 0⟩ := rfl
  have hloop : Spec.loopDegrees ⟨1, 1, V3.zero, V3.zero, 5, 0, 0⟩ ⟨1, 1, V3.zero, V3.zero, 5, 0, 0⟩
      ⟨1, 1, V3.zero, V3.zero, 5, 0, 0⟩ < 3 := by
    unfold Spec.loopDegrees
    simp only [toM_zero]
    rw [M3.one_mul, M3.one_mul]
    have : (M3.one : M3 ℝ).transpose = M3.one := rfl
    rw [this, filter_angle_one]
    norm_num
  refine ⟨g', h1, ⟨_, (h2 1 2 _ (by norm_num)).2 ⟨e12, 1, 2, 3, _, _, _, by norm_num, by norm_num, e12, e13, e23,
    Or.inl rfl, hloop⟩⟩, ⟨_, (h2 1 3 _ (by norm_num)).2 ⟨e13, 1, 2, 3, _, _, _, by norm_num, by norm_num, e12, e13, e23,
    Or.inr (Or.inl rfl), hloop⟩⟩, ?_⟩
  cases he : g'.getEdge 3 4 with
  | none => rfl
  | some i =>
    obtain ⟨_, a, b, c, _, _, _, hab, hbc, ea, eb, ec, hs, _⟩ := (h2 3 4 i (by norm_num)).1 he
    have hall : ∀ x y i, x < y → (ViewGraph.run filterOps).getEdge x y = some i →
        (x, y) ∈ [(1, 2), (2, 3), (1, 3), (3, 4)] := by
      intro x y i hxy hi
      rw [← hkeys]
      exact List.mem_map.2 ⟨((x, y), i), ((C09_counts filterOps).2.2.2.2.2 x y i).2 ⟨hxy, hi⟩, rfl⟩
    have k1 := hall _ _ _ hab ea
    have k2 := hall _ _ _ (hab.trans hbc) eb
    have k3 := hall _ _ _ hbc ec
    simp only [List.mem_cons, Prod.mk.injEq, List.not_mem_nil, or_false] at k1 k2 k3 hs
    omega

/-- Orientations for three of the views: the pair with the fourth view goes, the others stay. -/
example (ofM : M3 ℝ → V3 ℝ) (hlog : IsLog ofM) :
    ∃ g', filterOrientation ofM List.reverse ⟨[(1, V3.zero), (2, V3.zero), (3, V3.zero)]⟩ 2 (ViewGraph.run filterOps) = .ok g' ∧
      (∃ i, g'.getEdge 2 3 = some i) ∧ g'.getEdge 3 4 = none := by
  obtain ⟨g', h1, h2, _⟩ := (C43_orientations ofM hlog List.reverse (fun l => List.reverse_perm l)
    ⟨[(1, V3.zero), (2, V3.zero), (3, V3.zero)]⟩ 2 filterOps).2 (by norm_num)
  have e23 : (ViewGraph.run filterOps).getEdge 2 3 = some ⟨1, 1, V3.zero, V3.zero, 5, 0, 0⟩ := rfl
  refine ⟨g', h1, ⟨_, (h2 2 3 _ (by norm_num)).2 ⟨e23, V3.zero, V3.zero, rfl, rfl, ?_⟩⟩, ?_⟩
  · simp only [toM_zero]
    rw [M3.mul, ← M3.mul]
    have : (M3.one : M3 ℝ).transpose = M3.one := rfl
    rw [this, M3.one_mul, M3.one_mul, filter_angle_one]
    have := Real.pi_pos
    positivity
  · cases he : g'.getEdge 3 4 with
    | none => rfl
    | some i =>
      obtain ⟨_, o1, o2, _, h4, _⟩ := (h2 3 4 i (by norm_num)).1 he
      cases h4

end Theia
