import Mathlib.Data.List.Sort
import Verif.Proof.NonlinearPosition

/-!
# C83: what non-linear estimation of positions optimises
-/

namespace Theia

open Spec NonlinearPosition

variable {F P M O D X : Type}

/-- C83: positions are estimated for the views with an orientation that are in a pair, next to those that were there before. One
of them is at the origin, and is what the solver is told to keep. The others are as the solver has set them, if they have a
constraint. The result says whether the solver succeeded. -/
theorem C83_positions (ord : Orders) (ho : ValidOrders ord) (g : Geometry F M O D X)
    (solve : List (Block D) → ViewId → AMap ViewId X → Bool × (ViewId → X)) (o : Options) (r : Reconstruction F P)
    (camera : ViewId → O × M) (pairs : List ((ViewId × ViewId) × D)) (orientations : AMap ViewId O) (before : AMap ViewId X)
    (hb : before.WF) (run : Run D X) (h : estimate ord g solve o r camera pairs orientations before = .ok run) :
    ((pairs = [] ∨ orientations.entries = []) → run.usable = false ∧ run.positions = before) ∧
    (pairs ≠ [] → orientations.entries ≠ [] →
      (∀ v, v ∈ run.positions.keys ↔ v ∈ before.keys ∨ GetsPosition pairs orientations v) ∧
      ∃ v0 start, run.fixed = some v0 ∧ run.positions.get v0 = some g.origin ∧
        (∀ v, v ∈ start.keys ↔ v ∈ run.positions.keys) ∧ start.get v0 = some g.origin ∧
        run.usable = (solve run.blocks v0 start).1 ∧
        ∀ v ∈ run.positions.keys, v ≠ v0 → run.positions.get v =
          if run.blocks.any (Block.uses v) then some ((solve run.blocks v0 start).2 v) else start.get v) := by
  obtain ⟨_, h | ⟨hne, cs, ps, hc, _, hs⟩⟩ := estimate_eq h
  · obtain ⟨he, rfl⟩ := h
    refine ⟨fun _ => ⟨rfl, rfl⟩, fun h1 h2 => ?_⟩
    rcases he with h | h
    · exact absurd h h1
    · exact absurd h h2
  · refine ⟨fun he => ?_, fun _ _ => ?_⟩
    · rcases he with h | h
      · exact absurd h hne.1
      · exact absurd h hne.2
    · obtain ⟨hw, hk⟩ := initialPositions_spec g (constrained pairs) orientations.entries 0 before hb
      obtain ⟨v0, rest, hv0, hu, hbl, hf, hus, hp⟩ := solveProblem_eq hs
      generalize (initialPositions g (constrained pairs) orientations.entries 0 before).1 = m at *
      have hmem : v0 ∈ m.keys := (ho.positions _).mem_iff.1 (hv0 ▸ List.mem_cons_self ..)
      have hkeys : (m.insert v0 g.origin).keys = m.keys := by rw [AMap.keys_insert, if_pos hmem]
      have hk2 : run.positions.keys = m.keys := by rw [hp, AMap.keys_mapVals, hkeys]
      refine ⟨fun v => ?_, v0, m.insert v0 g.origin, hf, ?_, fun v => by rw [hkeys, hk2], AMap.get_insert_self _ _ _, ?_, ?_⟩
      · rw [hk2, hk, GetsPosition, ← AMap.mem_keys_iff, mem_constrained]
        rfl
      · rw [hp, AMap.get_mapVals, AMap.get_insert_self]
        simp
      · rw [hbl, hus]
      · intro v hv hne
        rw [hk2] at hv
        obtain ⟨x, hx⟩ := AMap.mem_keys_iff.1 hv
        rw [hp, AMap.get_mapVals, AMap.get_insert_ne _ _ hne, hx, hbl]
        by_cases hu : (cs ++ ps).any (Block.uses v) = true
        · simp [hne, hu]
        · simp [hu]

/-- C83: there is one constraint between cameras for each pair of views with orientations, with weight one, on the relative
position rotated into the world. -/
theorem C83_cameras (ord : Orders) (ho : ValidOrders ord) (g : Geometry F M O D X)
    (solve : List (Block D) → ViewId → AMap ViewId X → Bool × (ViewId → X)) (o : Options) (r : Reconstruction F P)
    (hr : r.Reachable) (camera : ViewId → O × M) (pairs : List ((ViewId × ViewId) × D)) (orientations : AMap ViewId O)
    (run : Run D X) (h : estimate ord g solve o r camera pairs orientations .empty = .ok run) :
    run.blocks.filter (fun b => !onPoint b) = cameraConstraints g pairs orientations := by
  obtain ⟨_, h | ⟨hne, cs, ps, hc, hps, hs⟩⟩ := estimate_eq h
  · obtain ⟨he, rfl⟩ := h
    rcases he with h | h
    · subst h; rfl
    · have : ∀ v, orientations.get v = none := by
        intro v
        rw [AMap.get_eq_none_iff, AMap.keys, h]
        simp
      simp [cameraConstraints, this]
  · obtain ⟨hw, hk⟩ := initialPositions_empty (X := X) g pairs orientations
    have hcs := cameraBlocks_eq pairs (by
      intro p hp v hv
      rw [hk, GetsPosition, ← AMap.mem_keys_iff]
      constructor
      · exact fun h => h.1
      · exact fun h => ⟨h, p, hp, by tauto⟩) hc
    obtain ⟨v0, rest, _, _, hbl, _⟩ := solveProblem_eq hs
    have h1 : ∀ b ∈ cs, onPoint b = false := by
      intro b hb
      rw [hcs] at hb
      obtain ⟨p, _, h⟩ := List.mem_filterMap.1 hb
      split at h
      · simp only [Option.some.injEq] at h; subst h; rfl
      · cases h
    have h2 : ∀ b ∈ ps, onPoint b = true := by
      intro b hb
      split at hps
      · obtain ⟨sel, w, ha⟩ := addPoints_spec ho hr hw hps
        rw [ha.eq] at hb
        obtain ⟨t, _, hb⟩ := List.mem_flatMap.1 hb
        obtain ⟨v, V, f, _, _, _, rfl⟩ := (mem_observations ho hr).1 hb
        rfl
      · rw [hps] at hb; cases hb
    rw [hbl, List.filter_append, List.filter_eq_self.2 (fun b hb => by rw [h1 b hb]; rfl),
      List.filter_eq_nil_iff.2 (fun b hb => by rw [h2 b hb]; decide), List.append_nil, hcs]

/-- C83: the constraints on points are the observations of the chosen tracks in the views that get a position, each once. A view
with at least the minimal number of features gets at least the minimal number of constraints. All weights are equal, and
together they are the weight of the options times the number of constraints between cameras. No points are used if the minimal
number is zero. -/
theorem C83_points (ord : Orders) (ho : ValidOrders ord) (g : Geometry F M O D X)
    (solve : List (Block D) → ViewId → AMap ViewId X → Bool × (ViewId → X)) (o : Options) (r : Reconstruction F P)
    (hr : r.Reachable) (camera : ViewId → O × M) (pairs : List ((ViewId × ViewId) × D)) (orientations : AMap ViewId O)
    (run : Run D X) (h : estimate ord g solve o r camera pairs orientations .empty = .ok run) :
    (o.minPoints = 0 → run.blocks.filter onPoint = []) ∧
    (0 < o.minPoints → pairs ≠ [] → orientations.entries ≠ [] →
      ∃ chosen w, chosen.Nodup ∧ PointConstraints g r camera pairs orientations chosen w (run.blocks.filter onPoint) ∧
        (∀ v V, GetsPosition pairs orientations v → r.view v = some V → o.minPoints ≤ V.features.size →
          o.minPoints ≤ ((run.blocks.filter onPoint).filter (Block.uses v)).length) ∧
        run.blocks.filter onPoint ≠ [] ∧
        ((run.blocks.filter onPoint).map blockWeight).sum = o.pointWeight * (cameraConstraints g pairs orientations).length) := by
  obtain ⟨_, h' | ⟨hne, cs, ps, hc, hps, hs⟩⟩ := estimate_eq h
  · obtain ⟨he, rfl⟩ := h'
    refine ⟨fun _ => rfl, fun _ h1 h2 => ?_⟩
    rcases he with h | h
    · exact absurd h h1
    · exact absurd h h2
  · obtain ⟨hw, hk⟩ := initialPositions_empty (X := X) g pairs orientations
    have hcs := cameraBlocks_eq pairs (by
      intro p hp v hv
      rw [hk, GetsPosition, ← AMap.mem_keys_iff]
      constructor
      · exact fun h => h.1
      · exact fun h => ⟨h, p, hp, by tauto⟩) hc
    obtain ⟨v0, rest, _, _, hbl, _⟩ := solveProblem_eq hs
    have h1 : ∀ b ∈ cs, onPoint b = false := by
      intro b hb
      rw [hcs] at hb
      obtain ⟨p, _, h⟩ := List.mem_filterMap.1 hb
      split at h
      · simp only [Option.some.injEq] at h; subst h; rfl
      · cases h
    refine ⟨fun hz => ?_, fun hpos _ _ => ?_⟩
    · rw [if_neg (by omega)] at hps
      rw [hbl, hps, List.append_nil]
      exact List.filter_eq_nil_iff.2 fun b hb => by rw [h1 b hb]; decide
    · rw [if_pos hpos] at hps
      obtain ⟨sel, w, ha⟩ := addPoints_spec ho hr hw hps
      have hmem : ∀ b, b ∈ ps ↔ ∃ t ∈ sel, ∃ v V f, GetsPosition pairs orientations v ∧ r.view v = some V ∧
          V.getFeature t = some f ∧ b = .point v t (g.ray (camera v).1 (camera v).2 f) w := by
        intro b
        rw [ha.eq, List.mem_flatMap]
        simp only [mem_observations ho hr, hk]
      have h2 : ∀ b ∈ ps, onPoint b = true ∧ blockWeight b = w := by
        intro b hb
        obtain ⟨t, _, v, V, f, _, _, _, rfl⟩ := (hmem b).1 hb
        exact ⟨rfl, rfl⟩
      have he : run.blocks.filter onPoint = ps := by
        rw [hbl, List.filter_append, List.filter_eq_nil_iff.2 (fun b hb => by rw [h1 b hb]; decide),
          List.filter_eq_self.2 fun b hb => (h2 b hb).1, List.nil_append]
      rw [he]
      refine ⟨sel, w, ha.nodup, ⟨?_, hmem, ?_⟩, ?_, ?_, ?_⟩
      · intro t ht
        obtain ⟨v, hv, hl⟩ := ha.seen t ht
        obtain ⟨T, hT, hvT⟩ := listed_iff.1 hl
        exact ⟨T, hT, v, hvT, (hk v).1 hv⟩
      · rw [ha.eq]
        exact flatMap_nodup ho hr ha.nodup
      · intro v V hv hV hmin
        have := ha.enough v ((hk v).2 hv) V hV (by omega)
        omega
      · have := ha.pos
        rintro rfl
        simp at this
      · have : ps.map blockWeight = List.replicate ps.length w := by
          rw [List.eq_replicate_iff]
          refine ⟨by simp, fun x hx => ?_⟩
          obtain ⟨b, hb, rfl⟩ := List.mem_map.1 hx
          exact (h2 b hb).2
        rw [this, List.sum_replicate, nsmul_eq_mul, mul_comm, ha.weight, hcs]

/-- C83: for each view in turn, tracks it sees are chosen that no other track it sees and that is left out is longer than. The
choice stops as soon as the view has the minimal number of tracks, and a view with fewer features is passed over. The choice
never fails. -/
theorem C83_longest (ord : Orders) (ho : ValidOrders ord) (minPoints : Nat) (r : Reconstruction F P) (hr : r.Reachable)
    (positions : AMap ViewId X) (before after : List ViewId) (v : ViewId)
    (hord : ord.positions positions.keys = before ++ v :: after) :
    ∃ s s', pickTracks ord minPoints r positions before ([], positions.mapVals fun _ _ => 0) = .ok s ∧
      pickTracks ord minPoints r positions (before ++ [v]) ([], positions.mapVals fun _ _ => 0) = .ok s' ∧
      (∀ t ∈ s.1, t ∈ s'.1) ∧
      (∀ t ∈ s'.1, t ∉ s.1 → ∃ V, r.view v = some V ∧ minPoints ≤ V.features.size ∧ t ∈ V.trackIds ∧
        ∀ T, r.track t = some T → ∀ t' ∈ V.trackIds, t' ∉ s'.1 → ∀ T', r.track t' = some T' →
          T'.views.length ≤ T.views.length) ∧
      (s'.1 ≠ s.1 → ∃ others last, s'.1 = others ++ [last] ∧ ∀ V, r.view v = some V →
        (others.filter fun t => decide (t ∈ V.trackIds)).length < minPoints) := by
  have hin : ∀ w, w ∈ before ++ v :: after → w ∈ positions.keys := fun w hw =>
    (ho.positions _).mem_iff.1 (hord ▸ hw)
  obtain ⟨s, h1, h2, _, _⟩ := pickTracks_spec (k := minPoints) ho hr before
    (fun w hw => hin w (List.mem_append_left _ hw)) (chosen_start r positions)
  obtain ⟨s', h3, h4, h5⟩ := pickForView_spec (k := minPoints) ho hr (hin v (by simp)) h2
  have happ : ∀ (l : List ViewId) (a b : List TrackId × AMap ViewId Nat),
      pickTracks ord minPoints r positions l a = .ok b → pickForView ord minPoints r positions v b = .ok s' →
      pickTracks ord minPoints r positions (l ++ [v]) a = .ok s' := by
    intro l
    induction l with
    | nil =>
      intro a b h h'
      simp only [pickTracks, Outcome.ok.injEq] at h
      subst h
      simp only [List.nil_append, pickTracks, h', Outcome.ok_bind]
    | cons w l ih =>
      intro a b h h'
      rw [pickTracks] at h
      obtain ⟨c, hc, h⟩ := Outcome.bind_eq_ok.1 h
      rw [List.cons_append, pickTracks, hc, Outcome.ok_bind]
      exact ih c b h h'
  refine ⟨s, s', h1, happ before _ _ h1 h3, ?_, ?_, ?_⟩
  · obtain ⟨l, hl⟩ := h5.extends'
    intro t ht
    rw [hl]
    exact List.mem_append_left _ ht
  · intro t ht hts
    obtain ⟨V, hV, htV, hk⟩ := h5.own t ht hts
    exact ⟨V, hV, hk, htV, fun T hT t' ht' hts' T' hT' => h5.longest V hV t T ht hts hT t' T' ht' hts' hT'⟩
  · intro hne
    rcases h5.stop with h | ⟨l, t, h, hlt⟩
    · exact absurd h hne
    · refine ⟨s.1 ++ l, t, by rw [h, List.append_assoc], fun V hV => ?_⟩
      refine lt_of_le_of_lt (le_of_eq (congrArg List.length (List.filter_congr fun t' ht' => ?_))) hlt
      rw [Bool.eq_iff_iff, decide_eq_true_eq, listed_iff]
      constructor
      · intro h
        exact ((Reconstruction.inv_of_reachable hr).sym v t').1 ⟨V, hV, h⟩
      · intro h
        obtain ⟨W, hW, h⟩ := ((Reconstruction.inv_of_reachable hr).sym v t').2 h
        have hV : r.views.get v = some V := hV
        rw [hV] at hW
        cases hW
        exact h

/-- C83: the estimation does not fail if the options are valid, no view is paired with itself, there are pairs, every view with
an orientation that is in a pair is in a pair of two views with orientations, and, if points are to be used, one of these views
has enough features. -/
theorem C83_succeeds (ord : Orders) (ho : ValidOrders ord) (g : Geometry F M O D X)
    (solve : List (Block D) → ViewId → AMap ViewId X → Bool × (ViewId → X)) (o : Options)
    (hopt : 0 < o.numThreads ∧ 0 ≤ o.minPoints ∧ 0 < o.pointWeight ∧ 0 < o.robustLossWidth) (r : Reconstruction F P)
    (hr : r.Reachable) (camera : ViewId → O × M) (pairs : List ((ViewId × ViewId) × D)) (orientations : AMap ViewId O)
    (hd : ∀ p ∈ pairs, p.1.1 ≠ p.1.2) (hsome : ∃ v, GetsPosition pairs orientations v)
    (hpair : ∀ v, GetsPosition pairs orientations v →
      ∃ p ∈ pairs, (v = p.1.1 ∨ v = p.1.2) ∧ (orientations.get p.1.1).isSome ∧ (orientations.get p.1.2).isSome)
    (hpts : o.minPoints = 0 ∨ ∃ v V, GetsPosition pairs orientations v ∧ r.view v = some V ∧ o.minPoints ≤ V.features.size) :
    ∃ run, estimate ord g solve o r camera pairs orientations .empty = .ok run := by
  obtain ⟨hw, hk⟩ := initialPositions_empty (X := X) g pairs orientations
  have hmo : ∀ v ∈ (initialPositions g (constrained pairs) orientations.entries 0 (.empty : AMap ViewId X)).1.keys,
      v ∈ orientations.keys := fun v hv => AMap.mem_keys_iff.2 ((hk v).1 hv).1
  obtain ⟨cs, hc⟩ := cameraBlocks_ok (g := g) pairs hmo hd
  have hcs := cameraBlocks_eq pairs (by
    intro p hp v hv
    rw [hk, GetsPosition, ← AMap.mem_keys_iff]
    constructor
    · exact fun h => h.1
    · exact fun h => ⟨h, p, hp, by tauto⟩) hc
  have huse : ∀ v, GetsPosition pairs orientations v → cs.any (Block.uses v) = true := by
    intro v hv
    obtain ⟨p, hp, hvp, h1, h2⟩ := hpair v hv
    obtain ⟨q1, hq1⟩ := Option.isSome_iff_exists.1 h1
    obtain ⟨q2, hq2⟩ := Option.isSome_iff_exists.1 h2
    rw [List.any_eq_true]
    refine ⟨.camera p.1.1 p.1.2 (g.rotate q1 p.2) 1, ?_, by simp [Block.uses, hvp]⟩
    rw [hcs, cameraConstraints, List.mem_filterMap]
    exact ⟨p, hp, by rw [hq1, hq2]⟩
  obtain ⟨u, hu⟩ := hsome
  have hpne : pairs ≠ [] := by
    obtain ⟨_, p, hp, _⟩ := hu
    exact List.ne_nil_of_mem hp
  have hone : orientations.entries ≠ [] := by
    obtain ⟨⟨q, hq⟩, _⟩ := hu
    exact List.ne_nil_of_mem (AMap.mem_entries_of_get hq)
  have hsolve : ∀ ps, ∃ run, solveProblem ord g solve (cs ++ ps)
      (initialPositions g (constrained pairs) orientations.entries 0 (.empty : AMap ViewId X)).1 = .ok run := by
    intro ps
    unfold solveProblem
    split
    · rename_i h
      have := (ho.positions _).mem_iff.2 ((hk u).2 hu)
      rw [h] at this
      cases this
    · rename_i v0 rest h
      have hv0 : GetsPosition pairs orientations v0 := (hk v0).1 ((ho.positions _).mem_iff.1 (h ▸ List.mem_cons_self ..))
      rw [if_pos (by rw [List.any_append, huse v0 hv0, Bool.true_or])]
      exact ⟨_, rfl⟩
  unfold estimate
  rw [checkOptions_ok.2 hopt, Outcome.ok_bind, if_neg (by tauto)]
  simp only [hc, Outcome.ok_bind]
  split
  · rename_i hpos
    have hn : 0 < cs.length := by
      have := huse u hu
      rw [List.any_eq_true] at this
      obtain ⟨b, hb, _⟩ := this
      exact List.length_pos_of_mem hb
    obtain ⟨v, V, hv, hV, hmin⟩ := hpts.resolve_left (by omega)
    obtain ⟨ps, hps⟩ := addPoints_ok (g := g) (camera := camera) ho hr hw hmo hn hopt.2.2.1 hpos ⟨v, (hk v).2 hv, V, hV, hmin⟩
    rw [hps, Outcome.ok_bind]
    exact hsolve ps
  · obtain ⟨run, hrun⟩ := hsolve []
    rw [List.append_nil] at hrun
    exact ⟨run, hrun⟩

/-- C83: the rays of the constraints on points are those for the given orientations. What is missing is the case that the
cameras of the reconstruction do not have these orientations yet (`C83_ray_counterexample`). -/
theorem C83_rays_partial (ord : Orders) (ho : ValidOrders ord) (g : Geometry F M O D X)
    (solve : List (Block D) → ViewId → AMap ViewId X → Bool × (ViewId → X)) (o : Options) (r : Reconstruction F P)
    (hr : r.Reachable) (camera : ViewId → O × M) (pairs : List ((ViewId × ViewId) × D)) (orientations : AMap ViewId O)
    (hset : ∀ v q, orientations.get v = some q → (camera v).1 = q)
    (run : Run D X) (h : estimate ord g solve o r camera pairs orientations .empty = .ok run) (v : ViewId) (t : TrackId) (d : D)
    (w : ℚ) (hb : .point v t d w ∈ run.blocks) :
    ∃ V f q, r.view v = some V ∧ V.getFeature t = some f ∧ orientations.get v = some q ∧ d = g.ray q (camera v).2 f := by
  obtain ⟨hzero, hpos⟩ := C83_points ord ho g solve o r hr camera pairs orientations run h
  have hopt := (estimate_eq h).1
  have hf : Block.point v t d w ∈ run.blocks.filter onPoint := List.mem_filter.2 ⟨hb, rfl⟩
  by_cases h0 : o.minPoints = 0
  · rw [hzero h0] at hf
    cases hf
  · by_cases hp : pairs = []
    · obtain ⟨_, h' | ⟨hne, _⟩⟩ := estimate_eq h
      · rw [h'.2] at hb; cases hb
      · exact absurd hp hne.1
    · by_cases hq : orientations.entries = []
      · obtain ⟨_, h' | ⟨hne, _⟩⟩ := estimate_eq h
        · rw [h'.2] at hb; cases hb
        · exact absurd hq hne.2
      · obtain ⟨chosen, w', _, hc, _⟩ := hpos (by omega) hp hq
        obtain ⟨t', _, v', V, f, ⟨⟨q, hq⟩, _⟩, hV, hf', he⟩ := (hc.mem _).1 hf
        simp only [Block.point.injEq] at he
        obtain ⟨rfl, rfl, rfl, rfl⟩ := he
        exact ⟨V, f, q, hV, hf', hq, by rw [hset v q hq]⟩

/-! ### Findings -/

/-- C83: if no view with an orientation is in a pair, the first position of an empty map is set to zero, and the program goes
wrong instead of returning false. -/
theorem C83_unconstrained_counterexample (ord : Orders) (ho : ValidOrders ord) (g : Geometry F M O D X)
    (solve : List (Block D) → ViewId → AMap ViewId X → Bool × (ViewId → X)) (o : Options)
    (hopt : 0 < o.numThreads ∧ 0 ≤ o.minPoints ∧ 0 < o.pointWeight ∧ 0 < o.robustLossWidth) (hmin : o.minPoints = 0)
    (r : Reconstruction F P) (camera : ViewId → O × M) (pairs : List ((ViewId × ViewId) × D)) (orientations : AMap ViewId O)
    (hp : pairs ≠ []) (hq : orientations.entries ≠ []) (hnone : ∀ v, ¬ GetsPosition pairs orientations v) :
    estimate ord g solve o r camera pairs orientations .empty = .ub := by
  obtain ⟨hw, hk⟩ := initialPositions_empty (X := X) g pairs orientations
  have hnil : (initialPositions g (constrained pairs) orientations.entries 0 (.empty : AMap ViewId X)).1.keys = [] :=
    List.eq_nil_iff_forall_not_mem.2 fun v hv => hnone v ((hk v).1 hv)
  generalize hm : (initialPositions g (constrained pairs) orientations.entries 0 (.empty : AMap ViewId X)).1 = m at *
  have hc : ∀ l : List ((ViewId × ViewId) × D), cameraBlocks g orientations m l = .ok [] := by
    intro l
    induction l with
    | nil => rfl
    | cons p l ih =>
      rw [cameraBlocks, if_neg, ih]
      rw [Bool.and_eq_true, AMap.contains_iff, hnil]
      simp
  have hn : ord.positions [] = [] := List.perm_nil.1 (ho.positions [])
  unfold estimate
  rw [checkOptions_ok.2 hopt, Outcome.ok_bind, if_neg (by tauto), hm]
  simp only [hc, Outcome.ok_bind]
  rw [if_neg (by omega), solveProblem, hnil, hn]

/-- C83: a view with an orientation that is only paired with views without orientations gets a position but no constraint. If it
comes first and no points are used, the solver is asked to keep a position it does not know, which ends the program. -/
theorem C83_isolated_counterexample (ord : Orders) (g : Geometry F M O D X)
    (solve : List (Block D) → ViewId → AMap ViewId X → Bool × (ViewId → X)) (o : Options)
    (hopt : 0 < o.numThreads ∧ 0 ≤ o.minPoints ∧ 0 < o.pointWeight ∧ 0 < o.robustLossWidth) (hmin : o.minPoints = 0)
    (r : Reconstruction F P) (camera : ViewId → O × M) (pairs : List ((ViewId × ViewId) × D)) (orientations : AMap ViewId O)
    (hd : ∀ p ∈ pairs, p.1.1 ≠ p.1.2) (hp : pairs ≠ []) (hq : orientations.entries ≠ []) (v : ViewId)
    (halone : ∀ p ∈ pairs, v = p.1.1 ∨ v = p.1.2 → orientations.get p.1.1 = none ∨ orientations.get p.1.2 = none)
    (hfirst : ∀ l : List ViewId, (∀ w, w ∈ l ↔ GetsPosition pairs orientations w) → (ord.positions l).head? = some v) :
    estimate ord g solve o r camera pairs orientations .empty = .abort := by
  obtain ⟨hw, hk⟩ := initialPositions_empty (X := X) g pairs orientations
  have hmo : ∀ v ∈ (initialPositions g (constrained pairs) orientations.entries 0 (.empty : AMap ViewId X)).1.keys,
      v ∈ orientations.keys := fun v hv => AMap.mem_keys_iff.2 ((hk v).1 hv).1
  obtain ⟨cs, hc⟩ := cameraBlocks_ok (g := g) pairs hmo hd
  have hcs := cameraBlocks_eq pairs (by
    intro p hp v hv
    rw [hk, GetsPosition, ← AMap.mem_keys_iff]
    constructor
    · exact fun h => h.1
    · exact fun h => ⟨h, p, hp, by tauto⟩) hc
  have hno : ¬ cs.any (Block.uses v) = true := by
    rw [List.any_eq_true]
    rintro ⟨b, hb, hu⟩
    rw [hcs] at hb
    obtain ⟨p, hp, h⟩ := List.mem_filterMap.1 hb
    split at h
    · rename_i q q' h1 h2
      simp only [Option.some.injEq] at h
      subst h
      simp only [Block.uses, decide_eq_true_eq] at hu
      rcases halone p hp hu with h | h
      · rw [h] at h1; cases h1
      · rw [h] at h2; cases h2
    · cases h
  have hf := hfirst _ hk
  unfold estimate
  rw [checkOptions_ok.2 hopt, Outcome.ok_bind, if_neg (by tauto)]
  simp only [hc, Outcome.ok_bind]
  rw [if_neg (by omega), solveProblem]
  split
  · rename_i h; rw [h] at hf; cases hf
  · rename_i v0 rest h
    rw [h] at hf
    simp only [List.head?_cons, Option.some.injEq] at hf
    subst hf
    rw [if_neg hno]

/-- C83: if points are to be used but no view with a position has enough features, the program ends instead of estimating the
positions without points. -/
theorem C83_no_points_counterexample (ord : Orders) (ho : ValidOrders ord) (g : Geometry F M O D X)
    (solve : List (Block D) → ViewId → AMap ViewId X → Bool × (ViewId → X)) (o : Options)
    (hopt : 0 < o.numThreads ∧ 0 ≤ o.minPoints ∧ 0 < o.pointWeight ∧ 0 < o.robustLossWidth) (hmin : 0 < o.minPoints)
    (r : Reconstruction F P) (camera : ViewId → O × M) (pairs : List ((ViewId × ViewId) × D)) (orientations : AMap ViewId O)
    (hd : ∀ p ∈ pairs, p.1.1 ≠ p.1.2) (hp : pairs ≠ []) (hq : orientations.entries ≠ [])
    (hfew : ∀ v V, GetsPosition pairs orientations v → r.view v = some V → V.features.size < o.minPoints) :
    estimate ord g solve o r camera pairs orientations .empty = .abort := by
  obtain ⟨hw, hk⟩ := initialPositions_empty (X := X) g pairs orientations
  have hmo : ∀ v ∈ (initialPositions g (constrained pairs) orientations.entries 0 (.empty : AMap ViewId X)).1.keys,
      v ∈ orientations.keys := fun v hv => AMap.mem_keys_iff.2 ((hk v).1 hv).1
  obtain ⟨cs, hc⟩ := cameraBlocks_ok (g := g) pairs hmo hd
  generalize hm : (initialPositions g (constrained pairs) orientations.entries 0 (.empty : AMap ViewId X)).1 = m at *
  have hpick : ∀ (l : List ViewId) (s : List TrackId × AMap ViewId Nat), (∀ v ∈ l, v ∈ m.keys) →
      pickTracks ord o.minPoints.toNat r m l s = .ok s := by
    intro l
    induction l with
    | nil => intro s _; rfl
    | cons v l ih =>
      intro s hl
      have : pickForView ord o.minPoints.toNat r m v s = .ok s := by
        rw [pickForView]
        cases hV : r.view v with
        | none => rfl
        | some V =>
          have := hfew v V ((hk v).1 (hl v (List.mem_cons_self ..))) hV
          simp only
          rw [if_pos (by omega)]
      rw [pickTracks, this, Outcome.ok_bind]
      exact ih s fun w hw => hl w (List.mem_cons_of_mem _ hw)
  have hsum : ((m.mapVals fun _ _ => 0).entries.map (·.2)).sum = 0 := by
    rw [AMap.mapVals, List.map_map]
    refine List.sum_eq_zero fun x hx => ?_
    obtain ⟨e, _, rfl⟩ := List.mem_map.1 hx
    rfl
  unfold estimate
  rw [checkOptions_ok.2 hopt, Outcome.ok_bind, if_neg (by tauto), hm]
  simp only [hc, Outcome.ok_bind]
  rw [if_pos hmin, addPoints, findTracks, hpick _ _ fun v hv => (ho.positions _).mem_iff.1 hv]
  simp only [Outcome.ok_bind, hsum, if_true, Outcome.abort_bind]

namespace NonlinearPositionRuns

/-- Everything in the order it is stored; insertion sort. -/
def orders : Orders where
  positions l := l
  features l := l
  observers l := l
  chosen l := l
  partialSort _ c := c.insertionSort fun a b => b.2 ≤ a.2

theorem orders_valid : ValidOrders orders := by
  have hs : ∀ c : List (TrackId × Nat), (c.insertionSort fun a b => b.2 ≤ a.2).Pairwise fun a b => b.2 ≤ a.2 := by
    intro c
    have : Std.Total fun a b : TrackId × Nat => b.2 ≤ a.2 := ⟨fun a b => Nat.le_total _ _⟩
    have : IsTrans (TrackId × Nat) fun a b => b.2 ≤ a.2 := ⟨fun a b c h h' => Nat.le_trans h' h⟩
    exact List.pairwise_insertionSort _ c
  refine ⟨fun l => .refl _, fun l => .refl _, fun l => .refl _, fun l => .refl _, fun k c _ => List.perm_insertionSort _ _,
    fun k c _ => (hs c).sublist (List.take_sublist _ _), fun k c _ a ha b hb => ?_⟩
  have := hs c
  rw [← List.take_append_drop k (c.insertionSort fun a b => b.2 ≤ a.2), List.pairwise_append] at this
  exact this.2.2 a ha b hb

/-- Orientations and directions are numbers; so are features. -/
def geometry : Geometry Nat Unit Nat Nat Nat where
  rotate q d := 10 * q + d
  ray q _ f := 100 * q + f
  random n := 1000 + n
  origin := 0

/-- A solver that puts the views at their numbers. -/
def solver (_ : List (Block Nat)) (_ : ViewId) (_ : AMap ViewId Nat) : Bool × (ViewId → Nat) := (true, fun v => v)

def ops : List (Reconstruction.Op Nat Unit) :=
  [.addView "a", .addView "b", .addView "c", .addTrack () [(0, 1), (1, 2)], .addTrack () [(0, 3), (1, 4), (2, 5)],
    .addTrack () [(1, 6), (2, 7)]]

/-- Three views with three tracks. -/
def recon : Reconstruction Nat Unit :=
  match Reconstruction.run Reconstruction.empty ops with
  | .ok (_, r) => r
  | _ => Reconstruction.empty

theorem recon_reachable : recon.Reachable := by
  unfold recon
  split
  · next as r h => exact ⟨ops, as, h⟩
  · exact ⟨[], [], rfl⟩

def options (n : Int) : Options := ⟨1, 1 / 10, n, 1 / 2⟩

def pairs : List ((ViewId × ViewId) × Nat) := [((0, 1), 1), ((1, 2), 2), ((0, 9), 3)]

def orientations : AMap ViewId Nat := ⟨[(0, 4), (1, 5), (2, 6)]⟩

/-- What is shown of a run. -/
def show' : Outcome (Run Nat Nat) → Option (Bool × List (ViewId × Nat) × List (Block Nat) × Option ViewId)
  | .ok run => some (run.usable, run.positions.entries, run.blocks, run.fixed)
  | _ => none

/-- The hypotheses of the theorems hold for three views, of which each gets at least one of the longest tracks. -/
example : ValidOrders orders ∧ recon.Reachable ∧
    show' (estimate orders geometry solver (options 1) recon (fun v => (v + 4, ())) pairs orientations .empty) =
      some (true, [(0, 0), (1, 1), (2, 2)], [.camera 0 1 41 1, .camera 1 2 52 1, .point 0 1 403 (1 / 3), .point 1 1 504 (1 / 3),
        .point 2 1 605 (1 / 3)], some 0) ∧
    (∀ v ∈ orientations.keys, (v + 4, ()).1 = (orientations.get v).getD 0) :=
  ⟨orders_valid, recon_reachable, by decide +kernel, by decide +kernel⟩

/-- The hypotheses of `C83_succeeds` hold, with and without points. -/
example (n : Int) (hn : n = 0 ∨ n = 2) :
    (0 < (options n).numThreads ∧ 0 ≤ (options n).minPoints ∧ 0 < (options n).pointWeight ∧ 0 < (options n).robustLossWidth) ∧
    (∀ p ∈ pairs, p.1.1 ≠ p.1.2) ∧ (∃ v, GetsPosition pairs orientations v) ∧
    (∀ v, GetsPosition pairs orientations v →
      ∃ p ∈ pairs, (v = p.1.1 ∨ v = p.1.2) ∧ (orientations.get p.1.1).isSome ∧ (orientations.get p.1.2).isSome) ∧
    ((options n).minPoints = 0 ∨
      ∃ v V, GetsPosition pairs orientations v ∧ recon.view v = some V ∧ (options n).minPoints ≤ V.features.size) := by
  have h0 : GetsPosition pairs orientations 1 := ⟨⟨5, rfl⟩, ((0, 1), 1), by decide, by decide⟩
  have hfeat : (recon.view 1).map (·.features.size) = some 3 := by decide +kernel
  refine ⟨?_, by decide, ⟨1, h0⟩, ?_, ?_⟩
  · rcases hn with rfl | rfl <;> exact ⟨by decide, by decide, by decide +kernel, by decide +kernel⟩
  · rintro v ⟨hv, _⟩
    have : v ∈ orientations.keys := AMap.mem_keys_iff.2 hv
    have hall : ∀ v ∈ orientations.keys,
      ∃ p ∈ pairs, (v = p.1.1 ∨ v = p.1.2) ∧ (orientations.get p.1.1).isSome ∧ (orientations.get p.1.2).isSome := by decide
    exact hall v this
  · rcases hn with rfl | rfl
    · exact .inl rfl
    · right
      obtain ⟨V, hV, hs⟩ := Option.map_eq_some_iff.1 hfeat
      exact ⟨1, V, h0, hV, by rw [hs]; decide⟩

/-- The hypotheses of `C83_longest` hold for the second of three views. -/
example : orders.positions (orientations.mapVals fun _ _ => 0).keys = [0] ++ 1 :: [2] := by decide

/-- C83: the given orientations have no effect on the constraints on points, which use the orientations stored in the
reconstruction. Here these are all 0, as they are before a global reconstruction sets them (it estimates positions first), the
given ones are 4, 5 and 6, and so the rays are 3, 4 and 5 instead of 403, 504 and 605. -/
theorem C83_ray_counterexample :
    ValidOrders orders ∧ recon.Reachable ∧
    show' (estimate orders geometry solver (options 1) recon (fun _ => (0, ())) pairs orientations .empty) =
      some (true, [(0, 0), (1, 1), (2, 2)], [.camera 0 1 41 1, .camera 1 2 52 1, .point 0 1 3 (1 / 3), .point 1 1 4 (1 / 3),
        .point 2 1 5 (1 / 3)], some 0) ∧
    (geometry.ray 4 () 3, geometry.ray 5 () 4, geometry.ray 6 () 5) = (403, 504, 605) :=
  ⟨orders_valid, recon_reachable, by decide +kernel, rfl⟩

/-- The hypotheses of `C83_unconstrained_counterexample` hold if only a view that is in no pair has an orientation. -/
example : pairs ≠ [] ∧ (⟨[(7, 4)]⟩ : AMap ViewId Nat).entries ≠ [] ∧ ∀ v, ¬ GetsPosition pairs (⟨[(7, 4)]⟩ : AMap ViewId Nat) v := by
  refine ⟨by decide, by decide, ?_⟩
  rintro v ⟨hv, p, hp, h⟩
  have hk : v ∈ (⟨[(7, 4)]⟩ : AMap ViewId Nat).keys := AMap.mem_keys_iff.2 hv
  simp only [AMap.keys, List.map_cons, List.map_nil, List.mem_singleton] at hk
  subst hk
  have : ∀ p ∈ pairs, ¬ (p.1.1 = 7 ∨ p.1.2 = 7) := by decide
  exact this p hp h

/-- The hypotheses of `C83_isolated_counterexample` hold if only one view has an orientation. -/
example : (∀ p ∈ pairs, 2 = p.1.1 ∨ 2 = p.1.2 →
      (⟨[(2, 4)]⟩ : AMap ViewId Nat).get p.1.1 = none ∨ (⟨[(2, 4)]⟩ : AMap ViewId Nat).get p.1.2 = none) ∧
    ∀ l : List ViewId, (∀ w, w ∈ l ↔ GetsPosition pairs (⟨[(2, 4)]⟩ : AMap ViewId Nat) w) →
      (orders.positions l).head? = some 2 := by
  refine ⟨by decide, fun l hl => ?_⟩
  have hin : 2 ∈ l := (hl 2).2 ⟨⟨4, rfl⟩, ((1, 2), 2), by decide, by decide⟩
  have hall : ∀ w ∈ l, w = 2 := by
    intro w hw
    have hk : w ∈ (⟨[(2, 4)]⟩ : AMap ViewId Nat).keys := AMap.mem_keys_iff.2 ((hl w).1 hw).1
    simpa [AMap.keys] using hk
  cases l with
  | nil => cases hin
  | cons a l => rw [hall a (List.mem_cons_self ..)]; rfl

/-- The hypotheses of `C83_no_points_counterexample` hold for three views with at most three features if four are asked for. -/
example : 0 < (options 4).minPoints ∧
    ∀ v V, GetsPosition pairs orientations v → recon.view v = some V → V.features.size < (options 4).minPoints := by
  refine ⟨by decide, fun v V hv hV => ?_⟩
  have hk : v ∈ orientations.keys := AMap.mem_keys_iff.2 hv.1
  have : ∀ v ∈ orientations.keys, ((recon.view v).map (·.features.size)).getD 0 < 4 := by decide +kernel
  have := this v hk
  rw [hV] at this
  show (V.features.size : Int) < 4
  simp only [Option.map_some, Option.getD_some] at this
  omega

end NonlinearPositionRuns

end Theia
