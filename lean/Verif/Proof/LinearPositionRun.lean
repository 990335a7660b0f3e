import Verif.Proof.LinearPositionExact
import Verif.Proof.Eigensolver
import Verif.Props.TripletExtractor

/-!
# Linear estimation of global positions: whole runs
-/

namespace Theia
namespace LinearPosition

open Spec LinearRotation BaselineRatios Triangulation AngleAxis

/-! ## The largest component -/

theorem isTriangle_congr {E F : List (Nat × Nat)} (h : ∀ e, e ∈ E ↔ e ∈ F) (t : Triplet) : IsTriangle E t ↔ IsTriangle F t := by
  unfold IsTriangle
  rw [h, h, h]

theorem connected_congr {E F : List (Nat × Nat)} (h : ∀ e, e ∈ E ↔ e ∈ F) :
    TriangleConnected E = TriangleConnected F := by
  unfold TriangleConnected
  congr 1
  funext t u
  rw [isTriangle_congr h t, isTriangle_congr h u]

theorem connected_triangle {E : List (Nat × Nat)} {t u : Triplet} (ht : IsTriangle E t) (h : TriangleConnected E t u) :
    IsTriangle E u := by
  cases h with
  | refl => exact ht
  | tail _ h => exact h.2.1

section

variable {limit : Nat} {order : List (Nat × Nat) → List (Nat × Nat)} {pairs : AMap (Nat × Nat) Info}

theorem largest_spec (hl : 0 < limit) (horder : ∀ l, (order l).Perm l) (hwf : pairs.WF)
    (hord : ∀ e ∈ pairs.keys, e.1 < e.2)
    (hlimit : ∀ ts : List Triplet, ts.Nodup → (∀ t ∈ ts, IsTriangle pairs.keys t) → ts.length ≤ limit) :
    ((∀ t, ¬ IsTriangle pairs.keys t) ∧ largest limit order pairs = .abort) ∨
      ∃ ts, largest limit order pairs = .ok ts ∧ LargestComponent pairs.keys ts := by
  have hmem : ∀ e, e ∈ order pairs.keys ↔ e ∈ pairs.keys := fun e => (horder _).mem_iff
  obtain ⟨res, groups, hres, hperm, hsort, hnd, htri, hne, hcon⟩ := C15_triplets_exact limit hl (order pairs.keys)
    ((horder _).nodup_iff.2 hwf) (fun e he => hord e ((hmem e).1 he))
    (fun ts h1 h2 => hlimit ts h1 (fun t ht => (isTriangle_congr hmem t).1 (h2 t ht))) []
  rw [List.nil_append] at hperm
  unfold largest
  rw [hres]
  cases res with
  | nil =>
    left
    refine ⟨fun t ht => ?_, rfl⟩
    have hg : groups = [] := List.nil_perm.1 hperm
    have := (htri t).2 ((isTriangle_congr hmem t).2 ht)
    rw [hg] at this
    simp at this
  | cons g gs =>
    right
    have hg : g ∈ groups := hperm.mem_iff.1 List.mem_cons_self
    refine ⟨g, rfl, hne g hg, (List.nodup_flatten.1 hnd).1 g hg, ?_, ?_⟩
    · intro t ht
      refine ⟨(isTriangle_congr hmem t).1 ((htri t).1 (List.mem_flatten.2 ⟨g, hg, ht⟩)), ?_⟩
      rw [← connected_congr hmem]
      exact hcon g hg t ht
    · intro t h ht hh hc
      obtain ⟨g', hg', ht'⟩ := List.mem_flatten.1 ((htri t).2 ((isTriangle_congr hmem t).2 ht))
      have hsub : h ⊆ g' := by
        intro u hu
        rw [hcon g' hg' t ht' u, connected_congr hmem]
        exact hc u hu
      have h1 : h.length ≤ g'.length := (hh.subperm hsub).length_le
      rcases List.mem_cons.1 (hperm.mem_iff.2 hg') with rfl | hm
      · exact h1
      · exact h1.trans (List.rel_of_pairwise_cons hsort hm)

end

theorem distinct {E : List (Nat × Nat)} {t : Triplet} (h : IsTriangle E t) : t.1 ≠ t.2.1 ∧ t.1 ≠ t.2.2 ∧ t.2.1 ≠ t.2.2 :=
  ⟨h.1.ne, (h.1.trans h.2.1).ne, h.2.1.ne⟩

/-- The system has at least six unknowns. -/
theorem size_ge (s : State) {ts : List Triplet} {E : List (Nat × Nat)} (hc : LargestComponent E ts) :
    6 ≤ ((ts.foldl addTriplet s).index.size - 1) * 3 := by
  cases ts with
  | nil => exact absurd rfl hc.1
  | cons t ts =>
    have hd := distinct (hc.2.2.1 t List.mem_cons_self).1
    have hk : ∀ v, Corner t v → v ∈ ((t :: ts).foldl addTriplet s).index.keys :=
      fun v hv => (mem_keys_addAll v (t :: ts) s).2 (Or.inr ⟨t, List.mem_cons_self, hv⟩)
    have hsub : [t.1, t.2.1, t.2.2] ⊆ ((t :: ts).foldl addTriplet s).index.keys := by
      intro v hv
      simp only [List.mem_cons, List.not_mem_nil, or_false] at hv
      exact hk v hv
    have hnd : [t.1, t.2.1, t.2.2].Nodup := by
      simp [hd.1, hd.2.1, hd.2.2]
    have hlen := (hnd.subperm hsub).length_le
    rw [AMap.size_eq_length_keys]
    simp only [List.length_cons, List.length_nil] at hlen
    omega

/-! ## Votes -/

theorem votes_ok {orientations positions : AMap Nat (V3 ℝ)} : ∀ (es : List ((Nat × Nat) × Info)),
    (∀ e ∈ es, ∃ o, orientations.get e.1.1 = some o) → ∃ n, votes orientations positions es = .ok n
  | [], _ => ⟨0, rfl⟩
  | e :: es, h => by
    obtain ⟨n, hn⟩ := votes_ok (positions := positions) es (fun x hx => h x (List.mem_cons_of_mem _ hx))
    obtain ⟨o, ho⟩ := h e List.mem_cons_self
    unfold votes
    rw [hn]
    cases positions.get e.1.1 <;> cases positions.get e.1.2 <;> simp [ho]

theorem flip_cases {pairs : AMap (Nat × Nat) Info} {orientations positions p : AMap Nat (V3 ℝ)}
    (h : flip pairs orientations positions = .ok p) :
    p = positions ∨ p = positions.mapVals (fun _ q => q.smul (-1)) := by
  unfold flip at h
  cases hv : votes orientations positions pairs.entries with
  | abort => rw [hv] at h; simp at h
  | ub => rw [hv] at h; simp at h
  | ok n =>
    rw [hv] at h
    simp only [Outcome.ok.injEq] at h
    split_ifs at h with hn
    · exact Or.inr h.symm
    · exact Or.inl h.symm

/-! ## The solution -/

/-- The positions before the signs are settled. -/
noncomputable def rawPositions (s : State) (u : Nat → ℝ) : AMap Nat (V3 ℝ) := s.index.mapVals fun _ i => positionOf u i

theorem get_raw {s : State} {u : Nat → ℝ} {v : Nat} (hv : v ∈ s.index.keys) :
    (rawPositions s u).get v = some (positionOf u (idx s v)) := by
  unfold rawPositions
  rw [AMap.get_mapVals, get_idx hv]
  rfl

theorem keys_raw (s : State) (u : Nat → ℝ) : (rawPositions s u).keys = s.index.keys := AMap.keys_mapVals _ _

theorem solve_ok {eig : Nat → (Nat → Nat → ℝ) → Option (Nat → ℝ)} (he : EigensolverOne eig)
    {pairs : AMap (Nat × Nat) Info} {orientations : AMap Nat (V3 ℝ)} {s : State} (hinv : Inv s) {es : List (Int × Int × ℝ)}
    (hsize : 6 ≤ (s.index.size - 1) * 3) :
    ∃ u, SmallestEigenvector ((s.index.size - 1) * 3) (symmetric (stored (kept es))) u ∧
      solve eig pairs orientations s es = flip pairs orientations (rawPositions s u) := by
  obtain ⟨u, hu, hs⟩ := he ((s.index.size - 1) * 3) (symmetric (stored (kept es))) (by omega)
    (fun r c => symmetric_comm _ _ _)
  refine ⟨u, hs, ?_⟩
  unfold solve
  rw [hinv.size, if_neg (by omega), hu]
  rfl

theorem estimate_ok {llt : (V4 → V4) → V4 → Option V4} {fromTwo : V3 ℝ → V3 ℝ → M3 ℝ}
    {eig : Nat → (Nat → Nat → ℝ) → Option (Nat → ℝ)} {limit : Nat} {order : List (Nat × Nat) → List (Nat × Nat)}
    {views : AMap Nat (AMap Nat V2)} {pairs : AMap (Nat × Nat) Info} {orientations : AMap Nat (V3 ℝ)} {s s' : State}
    {p : AMap Nat (V3 ℝ)} (h : estimate llt fromTwo eig limit order views pairs orientations s = .ok (s', p)) :
    ∃ ts tbs es, largest limit order pairs = .ok ts ∧ baselines llt views pairs ts = .ok tbs ∧
      allEntries fromTwo pairs orientations (ts.foldl addTriplet s) tbs = .ok es ∧
      solve eig pairs orientations (ts.foldl addTriplet s) es = .ok p ∧ s' = ts.foldl addTriplet s := by
  unfold estimate at h
  cases h1 : largest limit order pairs with
  | abort => rw [h1] at h; simp at h
  | ub => rw [h1] at h; simp at h
  | ok ts =>
    rw [h1] at h
    simp only at h
    cases h2 : baselines llt views pairs ts with
    | abort => rw [h2] at h; simp at h
    | ub => rw [h2] at h; simp at h
    | ok tbs =>
      rw [h2] at h
      simp only at h
      cases h3 : allEntries fromTwo pairs orientations (ts.foldl addTriplet s) tbs with
      | abort => rw [h3] at h; simp at h
      | ub => rw [h3] at h; simp at h
      | ok es =>
        rw [h3] at h
        simp only at h
        cases h4 : solve eig pairs orientations (ts.foldl addTriplet s) es with
        | abort => rw [h4] at h; simp at h
        | ub => rw [h4] at h; simp at h
        | ok q =>
          rw [h4] at h
          simp only [Outcome.ok.injEq, Prod.mk.injEq] at h
          obtain ⟨h5, rfl⟩ := h
          exact ⟨ts, tbs, es, rfl, h2, h3, h4, h5.symm⟩

/-- What a solution is: the positions `P`, with the view `f` at the origin. -/
theorem solution {fromTwo : V3 ℝ → V3 ℝ → M3 ℝ} {pairs : AMap (Nat × Nat) Info} {orientations : AMap Nat (V3 ℝ)}
    {ts : List Triplet} (hc : LargestComponent pairs.keys ts) {tbs : List (Triplet × V3 ℝ)} (htb : tbs.map Prod.fst = ts)
    {es : List (Int × Int × ℝ)} (he : allEntries fromTwo pairs orientations (ts.foldl addTriplet empty) tbs = .ok es)
    (shape : Triplet → TripletShape)
    (hshape : ∀ tb ∈ tbs, ∃ r, rotations fromTwo pairs orientations tb.1 = .ok r ∧ shape tb.1 = shapeOf r tb.2) {u : Nat → ℝ}
    (hu : SmallestEigenvector (((ts.foldl addTriplet empty).index.size - 1) * 3) (symmetric (stored (kept es))) u) :
    ∃ f ∈ (ts.foldl addTriplet empty).index.keys, positionOf u (idx (ts.foldl addTriplet empty) f) = V3.zero ∧
      ((ts.foldl addTriplet empty).index.keys.map (fun v => (positionOf u (idx (ts.foldl addTriplet empty) v)).dot
        (positionOf u (idx (ts.foldl addTriplet empty) v)))).sum = 1 ∧
      ∀ Y : Nat → V3 ℝ, Y f = V3.zero →
        ((ts.foldl addTriplet empty).index.keys.map (fun v => (Y v).dot (Y v))).sum = 1 →
        positionCost ts shape (fun v => positionOf u (idx (ts.foldl addTriplet empty) v)) ≤ positionCost ts shape Y := by
  have hinv := Inv.addAll ts Inv.empty
  have hd : ∀ t ∈ ts, t.1 ≠ t.2.1 ∧ t.1 ≠ t.2.2 ∧ t.2.1 ≠ t.2.2 := fun t ht => distinct (hc.2.2.1 t ht).1
  obtain ⟨t, rest, rfl⟩ := List.exists_cons_of_ne_nil hc.1
  have hfirst := get_first t rest
  have hi : idx ((t :: rest).foldl addTriplet empty) t.1 = -1 := by
    unfold idx
    rw [hfirst]
    rfl
  refine ⟨t.1, AMap.mem_keys_iff.2 ⟨_, hfirst⟩, ?_, ?_, ?_⟩
  · rw [hi]
    simp [positionOf]
  · rw [norm_sum hinv]
    exact hu.1
  · intro Y hY0 hY
    refine optimal hd htb he shape hshape hu ?_ hY
    intro v hv hk
    have : v = t.1 := hinv.index.inj v t.1 (-1) (hv ▸ get_idx hk) hfirst
    rw [this]
    exact hY0

end LinearPosition
end Theia
