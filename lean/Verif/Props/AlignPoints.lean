import Verif.Proof.AlignPoints
import Verif.Props.Transform

/-!
# Alignment of point clouds and reconstructions: properties
-/

namespace Theia

open Spec AlignPoints

theorem zipMatches_weight {left right : List (V3 ℝ)} {weights : List ℝ} {m : Match}
    (hm : m ∈ zipMatches left right weights) : m.weight ∈ weights ∧ (m.left, m.right) ∈ List.zip left right := by
  unfold zipMatches at hm
  obtain ⟨p, hp, rfl⟩ := List.mem_map.1 hm
  exact List.of_mem_zip hp

theorem zipMatches_sum {left right : List (V3 ℝ)} {weights : List ℝ} (h1 : left.length = right.length)
    (h2 : left.length = weights.length) : weightSum (zipMatches left right weights) = weights.sum := by
  unfold weightSum zipMatches
  rw [List.map_map]
  have : (List.zip weights (List.zip left right)).map ((fun m : Match => m.weight) ∘ fun p => ⟨p.1, p.2.1, p.2.2⟩) =
      (List.zip weights (List.zip left right)).map Prod.fst := rfl
  rw [this, List.map_fst_zip (by simp [← h1, h2])]

/-- When the alignment is defined: as many right points and weights as left points, no negative weight, a positive sum, and
two different left points with nonzero weight. -/
theorem C63_defined (svd : M3 ℝ → M3 ℝ × M3 ℝ × V3 ℝ) (left right : List (V3 ℝ)) (weights : List ℝ) :
    (∃ sim, alignWeighted svd left right weights = .ok sim) ↔
      left.length = right.length ∧ left.length = weights.length ∧ (∀ w ∈ weights, 0 ≤ w) ∧ 0 < weights.sum ∧
      ∃ p ∈ List.zip weights left, ∃ q ∈ List.zip weights left, p.1 ≠ 0 ∧ q.1 ≠ 0 ∧ p.2 ≠ q.2 := by
  constructor
  · rintro ⟨sim, h⟩
    unfold alignWeighted at h
    split_ifs at h with h1 h2 h3 h4 h5 h6
    rw [not_not] at h1 h2
    have hw : ∀ w ∈ weights, 0 ≤ w := fun w hw => not_lt.1 (fun hlt => h4 ⟨w, hw, hlt⟩)
    have hsum : 0 < weights.sum := by rw [← zipMatches_sum h1 h2]; exact not_le.1 h5
    refine ⟨h1, h2, hw, hsum, ?_⟩
    by_contra hcon
    push Not at hcon
    have hW : 0 < weightSum (zipMatches left right weights) := not_le.1 h5
    -- some weight is positive
    obtain ⟨m0, hm0, hm0w⟩ : ∃ m ∈ zipMatches left right weights, m.weight ≠ 0 := by
      by_contra hall
      push Not at hall
      have : weightSum (zipMatches left right weights) = 0 := by
        unfold weightSum
        apply List.sum_eq_zero
        intro x hx
        obtain ⟨m, hm, rfl⟩ := List.mem_map.1 hx
        exact hall m hm
      linarith
    have hmem : ∀ m ∈ zipMatches left right weights, (m.weight, m.left) ∈ List.zip weights left := by
      intro m hm
      unfold zipMatches at hm
      obtain ⟨p, hp, rfl⟩ := List.mem_map.1 hm
      obtain ⟨i, hi, hpi⟩ := List.getElem_of_mem hp
      simp only [List.getElem_zip] at hpi
      subst hpi
      simp only [List.length_zip] at hi
      apply List.mem_iff_getElem.2
      exact ⟨i, by simp only [List.length_zip]; omega, by simp [List.getElem_zip]⟩
    apply h6
    apply sigma_zero_of_equal hW (c := m0.left)
    intro m hm hmw
    exact hcon _ (hmem m hm) _ (hmem m0 hm0) hmw hm0w
  · rintro ⟨h1, h2, hw, hsum, p, hp, q, hq, hpw, hqw, hne⟩
    have h5 : ¬ weightSum (zipMatches left right weights) ≤ 0 := by rw [zipMatches_sum h1 h2]; exact not_le.2 hsum
    have hmem : ∀ p ∈ List.zip weights left, ∃ m ∈ zipMatches left right weights, m.weight = p.1 ∧ m.left = p.2 := by
      intro p hp
      obtain ⟨i, hi, hpi⟩ := List.getElem_of_mem hp
      simp only [List.getElem_zip] at hpi
      subst hpi
      simp only [List.length_zip] at hi
      refine ⟨⟨weights[i], left[i], right[i]⟩, ?_, rfl, rfl⟩
      unfold zipMatches
      apply List.mem_map.2
      refine ⟨(weights[i], left[i], right[i]), ?_, rfl⟩
      apply List.mem_iff_getElem.2
      exact ⟨i, by simp only [List.length_zip]; omega, by simp [List.getElem_zip]⟩
    have hwm : ∀ m ∈ zipMatches left right weights, 0 ≤ m.weight := fun m hm => hw _ (zipMatches_weight hm).1
    have h6 : sigma (zipMatches left right weights) ≠ 0 := by
      intro hz
      obtain ⟨m, hm, em1, em2⟩ := hmem p hp
      obtain ⟨n, hn, en1, en2⟩ := hmem q hq
      have e1 := sigma_eq_zero hwm (not_le.1 h5) hz m hm (by rw [em1]; exact hpw)
      have e2 := sigma_eq_zero hwm (not_le.1 h5) hz n hn (by rw [en1]; exact hqw)
      exact hne (by rw [← em2, ← en2, e1, e2])
    refine ⟨fromSvd (zipMatches left right weights)
      (svd (crossCorrelation (zipMatches left right weights)).transpose), ?_⟩
    · unfold alignWeighted
      rw [if_neg (by simpa using h1), if_neg (by simpa using h2), if_neg, if_neg, if_neg h5, if_neg h6]
      · rintro ⟨w, hw', hlt⟩
        exact absurd (hw w hw') (not_le.2 hlt)
      · intro h0
        have : left = [] := List.length_eq_zero_iff.1 h0
        rw [this] at hp
        simp at hp

theorem alignWeighted_ok {svd : M3 ℝ → M3 ℝ × M3 ℝ × V3 ℝ} {left right : List (V3 ℝ)} {weights : List ℝ} {sim : Similarity}
    (h : alignWeighted svd left right weights = .ok sim) : left.length = right.length ∧ left.length = weights.length ∧
      (∀ m ∈ zipMatches left right weights, 0 ≤ m.weight) ∧ 0 < weightSum (zipMatches left right weights) ∧
      sigma (zipMatches left right weights) ≠ 0 ∧
      sim = fromSvd (zipMatches left right weights) (svd (crossCorrelation (zipMatches left right weights)).transpose) := by
  unfold alignWeighted at h
  split_ifs at h with h1 h2 h3 h4 h5 h6
  rw [not_not] at h1 h2
  cases h
  exact ⟨h1, h2, fun m hm => not_lt.1 (fun hlt => h4 ⟨_, (zipMatches_weight hm).1, hlt⟩), not_le.1 h5, h6, rfl⟩

/-- Whatever the points and weights: the result is a similarity with nonnegative scale, and no other one has a smaller
weighted sum of squared distances. -/
theorem C63_least_squares {svd : M3 ℝ → M3 ℝ × M3 ℝ × V3 ℝ} (hsvd : ∀ m, IsFullSvd m (svd m).1 (svd m).2.1 (svd m).2.2)
    {left right : List (V3 ℝ)} {weights : List ℝ} {sim : Similarity}
    (h : alignWeighted svd left right weights = .ok sim) :
    sim.rotation.IsRotation ∧ 0 ≤ sim.scale ∧
    ∀ (R : M3 ℝ) (t : V3 ℝ) (s : ℝ), R.IsRotation → 0 ≤ s →
      alignmentError left right weights sim.rotation sim.translation sim.scale ≤ alignmentError left right weights R t s := by
  obtain ⟨_, _, hw, hW, hσ, rfl⟩ := alignWeighted_ok h
  obtain ⟨h1, h2, h3⟩ := fromSvd_optimal hw hW hσ (hsvd _)
  refine ⟨h1, h2, ?_⟩
  intro R t s hR hs
  rw [← matchError_zip, ← matchError_zip]
  exact h3 R t s hR hs

/-- The same without weights. -/
theorem C63_least_squares_unweighted {svd : M3 ℝ → M3 ℝ × M3 ℝ × V3 ℝ}
    (hsvd : ∀ m, IsFullSvd m (svd m).1 (svd m).2.1 (svd m).2.2) {left right : List (V3 ℝ)} {sim : Similarity}
    (h : align svd left right = .ok sim) : sim.rotation.IsRotation ∧ 0 ≤ sim.scale ∧
    ∀ (R : M3 ℝ) (t : V3 ℝ) (s : ℝ), R.IsRotation → 0 ≤ s →
      ((List.zip left right).map (fun p => (p.2.sub (similarity sim.rotation sim.translation sim.scale p.1)).dot
        (p.2.sub (similarity sim.rotation sim.translation sim.scale p.1)))).sum ≤
      ((List.zip left right).map (fun p => (p.2.sub (similarity R t s p.1)).dot (p.2.sub (similarity R t s p.1)))).sum := by
  obtain ⟨h1, h2, h3⟩ := C63_least_squares hsvd h
  refine ⟨h1, h2, ?_⟩
  have hlen := (alignWeighted_ok h).1
  have e : ∀ R t s, alignmentError left right (List.replicate left.length 1) R t s =
      ((List.zip left right).map (fun p => (p.2.sub (similarity R t s p.1)).dot (p.2.sub (similarity R t s p.1)))).sum := by
    intro R t s
    unfold alignmentError
    have hz : (List.zip left right).length = left.length := by simp [hlen]
    rw [← hz]
    generalize List.zip left right = l
    induction l with
    | nil => rfl
    | cons p l ih =>
      rw [List.length_cons, List.replicate_succ, List.zip_cons_cons, List.map_cons, List.sum_cons, List.map_cons,
        List.sum_cons, ih, one_mul]
  intro R t s hR hs
  rw [← e, ← e]
  exact h3 R t s hR hs

/-- If the right points are the images of the left points under a similarity and the left points are not on one line, then
that similarity is the result, whatever the positive weights. -/
theorem C63_recovered {svd : M3 ℝ → M3 ℝ × M3 ℝ × V3 ℝ} (hsvd : ∀ m, IsFullSvd m (svd m).1 (svd m).2.1 (svd m).2.2)
    {left : List (V3 ℝ)} {weights : List ℝ} (hl : left.length = weights.length) (hw : ∀ w ∈ weights, 0 < w)
    (hn : NotCollinear left) {R : M3 ℝ} (hR : R.IsRotation) (t : V3 ℝ) {s : ℝ} (hs : 0 < s) :
    alignWeighted svd left (left.map (similarity R t s)) weights = .ok ⟨R, t, s⟩ := by
  obtain ⟨a, ha, b, hb, c, hc, hcross⟩ := hn
  have hab : b ≠ a := by
    rintro rfl
    exact hcross (by simp [V3.sub, V3.cross, V3.zero])
  have hzip : ∀ x ∈ left, ∃ p ∈ List.zip weights left, p.2 = x := by
    intro x hx
    obtain ⟨i, hi, rfl⟩ := List.getElem_of_mem hx
    exact ⟨(weights[i], left[i]), List.mem_iff_getElem.2 ⟨i, by simp only [List.length_zip]; omega, by simp⟩, rfl⟩
  have hpos : ∀ p ∈ List.zip weights left, p.1 ≠ 0 := fun p hp => (hw _ (List.of_mem_zip hp).1).ne'
  have hsum : 0 < weights.sum := by
    apply List.sum_pos _ hw
    rintro rfl
    rw [List.length_nil] at hl
    rw [List.length_eq_zero_iff.1 hl] at ha
    simp at ha
  obtain ⟨sim, h⟩ := (C63_defined svd left (left.map (similarity R t s)) weights).2
    ⟨by simp, hl, fun w h => (hw w h).le, hsum, by
      obtain ⟨p, hp, ep⟩ := hzip b hb
      obtain ⟨q, hq, eq⟩ := hzip a ha
      exact ⟨p, hp, q, hq, hpos p hp, hpos q hq, by rw [ep, eq]; exact hab⟩⟩
  rw [h]
  obtain ⟨h1, h2, h3⟩ := C63_least_squares hsvd h
  have hm := h3 R t s hR hs.le
  rw [← matchError_zip, ← matchError_zip] at hm
  have hmem : ∀ m ∈ zipMatches left (left.map (similarity R t s)) weights, m.right = similarity R t s m.left := by
    intro m hm
    have := (zipMatches_weight hm).2
    obtain ⟨i, hi, e⟩ := List.getElem_of_mem this
    simp only [List.getElem_zip, List.getElem_map, Prod.mk.injEq] at e
    rw [← e.1, ← e.2]
  have hzero : matchError (zipMatches left (left.map (similarity R t s)) weights) R t s = 0 := by
    unfold matchError
    apply List.sum_eq_zero
    intro x hx
    obtain ⟨m, hm, rfl⟩ := List.mem_map.1 hx
    rw [hmem m hm]
    simp [V3.sub, V3.dot]
  rw [hzero] at hm
  have hall := error_zero (fun m hm => hw _ (zipMatches_weight hm).1) hm
  have hleft : ∀ x ∈ left, similarity R t s x = similarity sim.rotation sim.translation sim.scale x := by
    intro x hx
    obtain ⟨i, hi, rfl⟩ := List.getElem_of_mem hx
    have hin : (⟨weights[i], left[i], similarity R t s left[i]⟩ : Match) ∈
        zipMatches left (left.map (similarity R t s)) weights := by
      unfold zipMatches
      apply List.mem_map.2
      refine ⟨(weights[i], left[i], similarity R t s left[i]), ?_, rfl⟩
      apply List.mem_iff_getElem.2
      exact ⟨i, by simp only [List.length_zip, List.length_map]; omega, by simp [List.getElem_zip]⟩
    exact hall _ hin
  obtain ⟨e1, e2, e3⟩ := similarity_unique hR h1 hs h2 hcross (hleft a ha) (hleft b hb) (hleft c hc)
  cases sim
  simp only at e1 e2 e3
  rw [e1, e2, e3]

/-- A negative scale would sometimes fit better: the result is the best one among nonnegative scales only. -/
example : ∃ left right : List (V3 ℝ), alignmentError left right [1, 1, 1, 1] M3.one V3.zero (-1) = 0 ∧
    alignmentError left right [1, 1, 1, 1] M3.one V3.zero 1 ≠ 0 :=
  ⟨[⟨0, 0, 0⟩, ⟨1, 0, 0⟩, ⟨0, 1, 0⟩, ⟨0, 0, 1⟩], [⟨0, 0, 0⟩, ⟨-1, 0, 0⟩, ⟨0, -1, 0⟩, ⟨0, 0, -1⟩], by
    simp [alignmentError, similarity, M3.one, M3.mulVec, V3.dot, V3.smul, V3.add, V3.sub, V3.zero], by
    simp [alignmentError, similarity, M3.one, M3.mulVec, V3.dot, V3.smul, V3.add, V3.sub, V3.zero]; norm_num⟩

/-- A decomposition for every matrix exists, and points that meet the hypotheses of `C63_recovered`. -/
example : (∃ svd : M3 ℝ → M3 ℝ × M3 ℝ × V3 ℝ, ∀ m, IsFullSvd m (svd m).1 (svd m).2.1 (svd m).2.2) ∧
    NotCollinear [⟨1, 0, 0⟩, ⟨0, 1, 0⟩, ⟨0, 0, 1⟩, ⟨1, 1, 1⟩] := by
  refine ⟨exists_fullSvd, ⟨1, 0, 0⟩, by simp, ⟨0, 1, 0⟩, by simp, ⟨0, 0, 1⟩, by simp, ?_⟩
  simp [V3.sub, V3.cross, V3.zero]

/-! ## Reconstructions -/

open AlignReconstructions Transform

/-- What holds of the names in a reconstruction (C03): each view has one name and each name belongs to one view. -/
structure AlignReconstructions.Named.WF {A I : Type} (r : Named A I) : Prop where
  views : r.scene.views.WF
  tracks : r.scene.tracks.WF
  named : ∀ v, v ∈ r.scene.views.keys ↔ ∃ n, r.names.get v = some n
  ids : ∀ n v, r.ids.get n = some v ↔ r.names.get v = some n

variable {A I : Type}

/-- The views `v1` of the first and `v2` of the second reconstruction have the same name. -/
def Common (r1 r2 : Named A I) (v1 v2 : Nat) : Prop := ∃ n, r1.names.get v1 = some n ∧ r2.names.get v2 = some n

theorem commonNames_ok {r1 r2 : Named A I} (h1 : r1.WF) : ∀ vs : List Nat, (∀ v ∈ vs, v ∈ r1.scene.views.keys) →
    ∃ names, commonNames r1 r2 vs = .ok names ∧
      ∀ n, n ∈ names ↔ ∃ v ∈ vs, r1.names.get v = some n ∧ r2.ids.contains n = true := by
  intro vs
  induction vs with
  | nil => intro _; exact ⟨[], rfl, by simp⟩
  | cons v vs ih =>
    intro h
    obtain ⟨names, e, hm⟩ := ih (fun v hv => h v (List.mem_cons_of_mem _ hv))
    obtain ⟨n0, hn0⟩ := (h1.named v).1 (h v List.mem_cons_self)
    refine ⟨if r2.ids.contains n0 = true then n0 :: names else names, by unfold commonNames; simp only [hn0, e], ?_⟩
    intro n
    by_cases hc : r2.ids.contains n0 = true
    · rw [if_pos hc, List.mem_cons, hm]
      constructor
      · rintro (rfl | ⟨w, hw, h⟩)
        · exact ⟨v, List.mem_cons_self, hn0, hc⟩
        · exact ⟨w, List.mem_cons_of_mem _ hw, h⟩
      · rintro ⟨w, hw, hwn, hwc⟩
        rcases List.mem_cons.1 hw with rfl | hw
        · rw [hn0] at hwn; cases hwn; exact Or.inl rfl
        · exact Or.inr ⟨w, hw, hwn, hwc⟩
    · rw [if_neg hc, hm]
      constructor
      · rintro ⟨w, hw, h⟩
        exact ⟨w, List.mem_cons_of_mem _ hw, h⟩
      · rintro ⟨w, hw, hwn, hwc⟩
        rcases List.mem_cons.1 hw with rfl | hw
        · rw [hn0] at hwn; cases hwn; exact absurd hwc hc
        · exact ⟨w, hw, hwn, hwc⟩

theorem positionByName_ok {r : Named A I} (h : r.WF) {n : String} (hn : r.ids.contains n = true) :
    ∃ v view, r.names.get v = some n ∧ r.scene.views.get v = some view ∧ positionByName r n = .ok view.position := by
  obtain ⟨v, hv⟩ := AMap.mem_keys_iff.1 (AMap.contains_iff.1 hn)
  have hname := (h.ids n v).1 hv
  obtain ⟨view, hview⟩ := AMap.mem_keys_iff.1 ((h.named v).2 ⟨n, hname⟩)
  exact ⟨v, view, hname, hview, by unfold positionByName; simp only [hv, hview]⟩

/-- The positions collected: `f` is any function that maps the position in the second reconstruction to that in the
first. -/
theorem positions_ok {r1 r2 : Named A I} (h1 : r1.WF) (h2 : r2.WF) : ∀ names : List String,
    (∀ n ∈ names, r1.ids.contains n = true ∧ r2.ids.contains n = true) →
    ∃ ps, positions r1 r2 names = .ok ps ∧ ps.1.length = ps.2.length ∧
      (∀ f : V3 ℝ → V3 ℝ, (∀ v1 v2 w1 w2, Common r1 r2 v1 v2 → r1.scene.views.get v1 = some w1 →
        r2.scene.views.get v2 = some w2 → w1.position = f w2.position) → ps.2 = ps.1.map f) ∧
      ∀ n ∈ names, ∀ v w, r2.names.get v = some n → r2.scene.views.get v = some w → w.position ∈ ps.1 := by
  intro names
  induction names with
  | nil => intro _; exact ⟨([], []), rfl, rfl, fun _ _ => rfl, by simp⟩
  | cons n names ih =>
    intro h
    obtain ⟨ps, e, hlen, hf, hmem⟩ := ih (fun n hn => h n (List.mem_cons_of_mem _ hn))
    obtain ⟨c1, c2⟩ := h n List.mem_cons_self
    obtain ⟨v1, w1, n1, g1, p1⟩ := positionByName_ok h1 c1
    obtain ⟨v2, w2, n2, g2, p2⟩ := positionByName_ok h2 c2
    refine ⟨(w2.position :: ps.1, w1.position :: ps.2), by unfold positions; simp only [p1, p2, e], by simp [hlen], ?_, ?_⟩
    · intro f hff
      simp only [List.map_cons]
      rw [← hf f hff, hff v1 v2 w1 w2 ⟨n, n1, n2⟩ g1 g2]
    · intro m hm v w hv hw
      rcases List.mem_cons.1 hm with rfl | hm
      · have : v = v2 := by
          have a := (h2.ids _ _).2 hv
          have b := (h2.ids _ _).2 n2
          rw [a] at b
          exact Option.some.inj b
        subst this
        rw [g2] at hw
        cases hw
        exact List.mem_cons_self
      · exact List.mem_cons_of_mem _ (hmem m hm v w hv hw)

theorem names_unique {r : Named A I} (h : r.WF) {v w : Nat} {n : String} (hv : r.names.get v = some n)
    (hw : r.names.get w = some n) : v = w := by
  have a := (h.ids _ _).2 hv
  have b := (h.ids _ _).2 hw
  rw [a] at b
  exact Option.some.inj b

/-- If the camera positions of all common views in the first reconstruction are the images of those in the second under a
similarity, and three of them are not on one line, then the second reconstruction is transformed by exactly this similarity:
the estimated common views get the positions they have in the first one. -/
theorem C63_reconstructions {rep : Rep ℝ} (hrep : rep.Faithful) {svd : M3 ℝ → M3 ℝ × M3 ℝ × V3 ℝ}
    (hsvd : ∀ m, IsFullSvd m (svd m).1 (svd m).2.1 (svd m).2.2) {order : List Nat → List Nat}
    (horder : ∀ l, (order l).Perm l) {r1 r2 : Named rep.A I} (h1 : r1.WF) (h2 : r2.WF)
    {R : M3 ℝ} (hR : R.IsRotation) {t : V3 ℝ} {s : ℝ} (hs : 0 < s)
    (hpos : ∀ v1 v2 w1 w2, Common r1 r2 v1 v2 → r1.scene.views.get v1 = some w1 → r2.scene.views.get v2 = some w2 →
      w1.position = similarity R t s w2.position)
    (hn : ∃ ps, NotCollinear ps ∧ ∀ p ∈ ps, ∃ v1 v2 w2, Common r1 r2 v1 v2 ∧ r2.scene.views.get v2 = some w2 ∧
      w2.position = p)
    (hw : ∀ i x, r2.scene.tracks.get i = some x → x.estimated = true → x.w ≠ 0) :
    ∃ r, alignReconstructions rep svd order r1 r2 = .ok r ∧ r.ids = r2.ids ∧ r.names = r2.names ∧
      transform rep R t s r2.scene = .ok r.scene ∧
      ∀ v1 v2 w1 w2, Common r1 r2 v1 v2 → r1.scene.views.get v1 = some w1 → r2.scene.views.get v2 = some w2 →
        w2.estimated = true → ∃ w, r.scene.views.get v2 = some w ∧ w.position = w1.position := by
  obtain ⟨names, hnames, hmem⟩ := commonNames_ok (r2 := r2) h1 (order r1.scene.views.keys)
    (fun v hv => (horder _).mem_iff.1 hv)
  have hcontains : ∀ n ∈ names, r1.ids.contains n = true ∧ r2.ids.contains n = true := by
    intro n hn'
    obtain ⟨v, _, hv, hc⟩ := (hmem n).1 hn'
    exact ⟨AMap.contains_iff.2 (AMap.mem_keys_iff.2 ⟨v, (h1.ids n v).2 hv⟩), hc⟩
  obtain ⟨ps, hps, hlen, hf, hin⟩ := positions_ok h1 h2 names hcontains
  have hright := hf (similarity R t s) hpos
  have hnc : NotCollinear ps.1 := by
    obtain ⟨qs, ⟨a, ha, b, hb, c, hc, hcross⟩, hq⟩ := hn
    have hsub : ∀ p ∈ qs, p ∈ ps.1 := by
      intro p hp
      obtain ⟨v1, v2, w2, ⟨n, n1, n2⟩, g2, rfl⟩ := hq p hp
      have hn' : n ∈ names := (hmem n).2 ⟨v1, (horder _).mem_iff.2 ((h1.named v1).2 ⟨n, n1⟩), n1,
        AMap.contains_iff.2 (AMap.mem_keys_iff.2 ⟨v2, (h2.ids n v2).2 n2⟩)⟩
      exact hin n hn' v2 w2 n2 g2
    exact ⟨a, hsub a ha, b, hsub b hb, c, hsub c hc, hcross⟩
  have halign : align svd ps.1 ps.2 = .ok ⟨R, t, s⟩ := by
    unfold align
    rw [hright]
    exact C63_recovered hsvd (by simp) (fun w hw => by rw [List.eq_of_mem_replicate hw]; exact one_pos) hnc hR t hs
  obtain ⟨hdef, hspec⟩ := C39_transform rep hrep R hR t s r2.scene h2.views h2.tracks
  obtain ⟨sc, hsc⟩ := hdef.2 hw
  refine ⟨{ r2 with scene := sc }, ?_, rfl, rfl, hsc, ?_⟩
  · unfold alignReconstructions
    simp only [hnames, hps, halign, hsc]
  · intro v1 v2 w1 w2 hc g1 g2 he
    obtain ⟨w, gw, _, _, hp, _⟩ := (hspec sc hsc).2.2.2.2.1 v2 w2 g2 he
    exact ⟨w, gw, by rw [hp, hpos v1 v2 w1 w2 hc g1 g2]⟩

/-! ### A view that is not estimated takes part -/

/-- Three estimated cameras and a fourth one at `d`, estimated if `e`. -/
def fourViews (rep : Rep ℝ) (o : rep.A) (e : Bool) (d : V3 ℝ) : Named rep.A Unit :=
  ⟨⟨⟨[(0, ⟨true, o, ⟨0, 0, 0⟩, ()⟩), (1, ⟨true, o, ⟨1, 0, 0⟩, ()⟩), (2, ⟨true, o, ⟨0, 1, 0⟩, ()⟩), (3, ⟨e, o, d, ()⟩)]⟩, ⟨[]⟩⟩,
   ⟨[("a", 0), ("b", 1), ("c", 2), ("d", 3)]⟩, ⟨[(0, "a"), (1, "b"), (2, "c"), (3, "d")]⟩⟩

theorem fourViews_wf (rep : Rep ℝ) (o : rep.A) (e : Bool) (d : V3 ℝ) : (fourViews rep o e d).WF := by
  refine ⟨by simp [fourViews, AMap.WF, AMap.keys], by simp [fourViews, AMap.WF, AMap.keys], ?_, ?_⟩
  · intro v
    constructor
    · intro h
      simp only [fourViews, AMap.keys, List.map_cons, List.map_nil, List.mem_cons, List.not_mem_nil, or_false] at h
      rcases h with rfl | rfl | rfl | rfl
      exacts [⟨"a", rfl⟩, ⟨"b", rfl⟩, ⟨"c", rfl⟩, ⟨"d", rfl⟩]
    · rintro ⟨n, hn⟩
      have hm := AMap.mem_entries_of_get hn
      simp only [fourViews, List.mem_cons, Prod.mk.injEq, List.not_mem_nil, or_false] at hm
      rcases hm with ⟨rfl, _⟩ | ⟨rfl, _⟩ | ⟨rfl, _⟩ | ⟨rfl, _⟩ <;> simp [fourViews, AMap.keys]
  · intro n v
    constructor
    · intro hn
      have hm := AMap.mem_entries_of_get hn
      simp only [fourViews, List.mem_cons, Prod.mk.injEq, List.not_mem_nil, or_false] at hm
      rcases hm with ⟨rfl, rfl⟩ | ⟨rfl, rfl⟩ | ⟨rfl, rfl⟩ | ⟨rfl, rfl⟩ <;> rfl
    · intro hn
      have hm := AMap.mem_entries_of_get hn
      simp only [fourViews, List.mem_cons, Prod.mk.injEq, List.not_mem_nil, or_false] at hm
      rcases hm with ⟨rfl, rfl⟩ | ⟨rfl, rfl⟩ | ⟨rfl, rfl⟩ | ⟨rfl, rfl⟩ <;> rfl

/-- The camera position of a view that was never estimated is used like any other. Two reconstructions whose commonly
estimated views have the same positions are moved apart by `AlignReconstructions` because a fourth view is estimated in the
second one only: not all the commonly estimated views have equal positions afterwards. -/
theorem C63_unestimated_view_counterexample (rep : Rep ℝ) (hrep : rep.Faithful) (o : rep.A)
    (svd : M3 ℝ → M3 ℝ × M3 ℝ × V3 ℝ) (hsvd : ∀ m, IsFullSvd m (svd m).1 (svd m).2.1 (svd m).2.2) :
    ∃ r, alignReconstructions rep svd id (fourViews rep o false ⟨0, 0, 0⟩) (fourViews rep o true ⟨0, 0, 4⟩) = .ok r ∧
      ¬ ∀ v ∈ [0, 1, 2], ∃ w1 w, (fourViews rep o false ⟨0, 0, 0⟩).scene.views.get v = some w1 ∧
        r.scene.views.get v = some w ∧ w.position = w1.position := by
  let ps2 : List (V3 ℝ) := [⟨0, 0, 0⟩, ⟨1, 0, 0⟩, ⟨0, 1, 0⟩, ⟨0, 0, 4⟩]
  let ps1 : List (V3 ℝ) := [⟨0, 0, 0⟩, ⟨1, 0, 0⟩, ⟨0, 1, 0⟩, ⟨0, 0, 0⟩]
  have hnames : commonNames (fourViews rep o false ⟨0, 0, 0⟩) (fourViews rep o true ⟨0, 0, 4⟩)
      (id (fourViews rep o false ⟨0, 0, 0⟩).scene.views.keys) = .ok ["a", "b", "c", "d"] := rfl
  have hpos : positions (fourViews rep o false ⟨0, 0, 0⟩) (fourViews rep o true ⟨0, 0, 4⟩) ["a", "b", "c", "d"] =
      .ok (ps2, ps1) := rfl
  obtain ⟨sim, hsim⟩ := (C63_defined svd ps2 ps1 [1, 1, 1, 1]).2 ⟨rfl, rfl, by simp, by norm_num,
    (1, ⟨0, 0, 0⟩), by simp [ps2], (1, ⟨1, 0, 0⟩), by simp [ps2], by simp⟩
  have halign : align svd ps2 ps1 = .ok sim := hsim
  obtain ⟨h1, h2, h3⟩ := C63_least_squares hsvd hsim
  have hwf := fourViews_wf rep o true ⟨0, 0, 4⟩
  obtain ⟨hdef, hspec⟩ := C39_transform rep hrep sim.rotation h1 sim.translation sim.scale
    (fourViews rep o true ⟨0, 0, 4⟩).scene hwf.views hwf.tracks
  obtain ⟨sc, hsc⟩ := hdef.2 (by intro i x hx; exact absurd hx (by simp [fourViews, AMap.get]))
  refine ⟨{ fourViews rep o true ⟨0, 0, 4⟩ with scene := sc }, ?_, ?_⟩
  · unfold alignReconstructions
    rw [hnames]
    simp only [hpos, halign, hsc]
  · intro hall
    have key : ∀ v (p : V3 ℝ), (fourViews rep o true ⟨0, 0, 4⟩).scene.views.get v = some ⟨true, o, p, ()⟩ → v ∈ [0, 1, 2] →
        (fourViews rep o false ⟨0, 0, 0⟩).scene.views.get v = some ⟨true, o, p, ()⟩ →
        similarity M3.one V3.zero 1 p = similarity sim.rotation sim.translation sim.scale p := by
      intro v p hv hin hv1
      obtain ⟨w1, w, g1, g, e⟩ := hall v hin
      obtain ⟨w', g', _, _, hp, _⟩ := (hspec sc hsc).2.2.2.2.1 v _ hv rfl
      rw [hv1] at g1
      cases g1
      simp only at g
      rw [g'] at g
      cases g
      rw [e] at hp
      simp only at hp
      rw [← hp]
      simp [similarity, M3.mulVec, M3.one, V3.dot, V3.smul, V3.add, V3.zero]
    have k0 := key 0 ⟨0, 0, 0⟩ rfl (by simp) rfl
    have k1 := key 1 ⟨1, 0, 0⟩ rfl (by simp) rfl
    have k2 := key 2 ⟨0, 1, 0⟩ rfl (by simp) rfl
    obtain ⟨e1, e2, e3⟩ := similarity_unique M3.IsRotation.one h1 one_pos h2
      (by simp [V3.sub, V3.cross, V3.zero]) k0 k1 k2
    have hsim' : sim = ⟨M3.one, V3.zero, 1⟩ := by cases sim; simp_all
    have := h3 M3.one ⟨0, 0, -1⟩ 1 M3.IsRotation.one zero_le_one
    rw [hsim'] at this
    simp [alignmentError, similarity, M3.one, M3.mulVec, V3.dot, V3.smul, V3.add, V3.sub, V3.zero, ps1, ps2] at this
    norm_num at this

/-- The hypotheses of `C63_reconstructions` hold of two reconstructions with four common views. -/
example (rep : Rep ℝ) (o : rep.A) : (fourViews rep o true ⟨0, 0, 4⟩).WF ∧
    (∀ v1 v2 w1 w2, Common (fourViews rep o true ⟨0, 0, 4⟩) (fourViews rep o true ⟨0, 0, 4⟩) v1 v2 →
      (fourViews rep o true ⟨0, 0, 4⟩).scene.views.get v1 = some w1 →
      (fourViews rep o true ⟨0, 0, 4⟩).scene.views.get v2 = some w2 →
      w1.position = similarity M3.one V3.zero 1 w2.position) ∧
    (∃ ps, NotCollinear ps ∧ ∀ p ∈ ps, ∃ v1 v2 w2, Common (fourViews rep o true ⟨0, 0, 4⟩)
      (fourViews rep o true ⟨0, 0, 4⟩) v1 v2 ∧ (fourViews rep o true ⟨0, 0, 4⟩).scene.views.get v2 = some w2 ∧
      w2.position = p) := by
  have hwf := fourViews_wf rep o true ⟨0, 0, 4⟩
  refine ⟨hwf, ?_, [⟨0, 0, 0⟩, ⟨1, 0, 0⟩, ⟨0, 1, 0⟩], ?_, ?_⟩
  · rintro v1 v2 w1 w2 ⟨n, n1, n2⟩ g1 g2
    have := names_unique hwf n1 n2
    subst this
    rw [g1] at g2
    cases g2
    simp [similarity, M3.mulVec, M3.one, V3.dot, V3.smul, V3.add, V3.zero]
  · exact ⟨_, List.mem_cons_self, ⟨1, 0, 0⟩, by simp, ⟨0, 1, 0⟩, by simp, by simp [V3.sub, V3.cross, V3.zero]⟩
  · intro p hp
    simp only [List.mem_cons, List.not_mem_nil, or_false] at hp
    rcases hp with rfl | rfl | rfl
    · exact ⟨0, 0, _, ⟨"a", rfl, rfl⟩, rfl, rfl⟩
    · exact ⟨1, 1, _, ⟨"b", rfl, rfl⟩, rfl, rfl⟩
    · exact ⟨2, 2, _, ⟨"c", rfl, rfl⟩, rfl, rfl⟩

end Theia
