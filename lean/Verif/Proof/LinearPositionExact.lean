import Verif.Proof.LinearPosition
import Verif.Spec.LinearPositionScene
import Mathlib.Data.List.Sort

/-!
# Linear estimation of global positions: exact data
-/

namespace Theia

open Spec

/-! ## Common tracks -/

namespace CommonTracks

theorem mem_setIntersection (k : Nat) : ∀ (l m : List Nat), l.Pairwise (· ≤ ·) → m.Pairwise (· ≤ ·) →
    (k ∈ setIntersection l m ↔ k ∈ l ∧ k ∈ m) := by
  intro l m
  induction l, m using setIntersection.induct with
  | case1 m => intro _ _; simp [setIntersection]
  | case2 a as => intro _ _; simp [setIntersection]
  | case3 a as b bs hlt ih =>
    intro hl hm
    rw [setIntersection, if_pos hlt, ih hl.of_cons hm]
    constructor
    · rintro ⟨h1, h2⟩
      exact ⟨List.mem_cons_of_mem _ h1, h2⟩
    · rintro ⟨h1, h2⟩
      rcases List.mem_cons.1 h1 with rfl | h1
      · rcases List.mem_cons.1 h2 with rfl | h2
        · exact absurd hlt (lt_irrefl _)
        · exact absurd (List.rel_of_pairwise_cons hm h2) (by omega)
      · exact ⟨h1, h2⟩
  | case4 a as b bs hn hlt ih =>
    intro hl hm
    rw [setIntersection, if_neg hn, if_pos hlt, ih hl hm.of_cons]
    constructor
    · rintro ⟨h1, h2⟩
      exact ⟨h1, List.mem_cons_of_mem _ h2⟩
    · rintro ⟨h1, h2⟩
      rcases List.mem_cons.1 h2 with rfl | h2
      · rcases List.mem_cons.1 h1 with rfl | h1
        · exact absurd hlt (lt_irrefl _)
        · exact absurd (List.rel_of_pairwise_cons hl h1) (by omega)
      · exact ⟨h1, h2⟩
  | case5 a as b bs h1 h2 ih =>
    intro hl hm
    have hab : a = b := by omega
    subst hab
    rw [setIntersection, if_neg h1, if_neg h2, List.mem_cons, ih hl.of_cons hm.of_cons, List.mem_cons, List.mem_cons]
    constructor
    · rintro (rfl | ⟨h1, h2⟩)
      · exact ⟨Or.inl rfl, Or.inl rfl⟩
      · exact ⟨Or.inr h1, Or.inr h2⟩
    · rintro ⟨h1 | h1, h2⟩
      · exact Or.inl h1
      · rcases h2 with h2 | h2
        · exact Or.inl h2
        · exact Or.inr ⟨h1, h2⟩

theorem setIntersection_sublist : ∀ (l m : List Nat), (setIntersection l m).Sublist l := by
  intro l m
  induction l, m using setIntersection.induct with
  | case1 m => simp [setIntersection]
  | case2 a as => simp [setIntersection]
  | case3 a as b bs hlt ih =>
    rw [setIntersection, if_pos hlt]
    exact ih.cons _
  | case4 a as b bs h1 hlt ih =>
    rw [setIntersection, if_neg h1, if_pos hlt]
    exact ih
  | case5 a as b bs h1 h2 ih =>
    rw [setIntersection, if_neg h1, if_neg h2]
    exact ih.cons_cons _

theorem sorted_keys {F : Type} (m : AMap Nat F) : (m.keys.insertionSort (· ≤ ·)).Pairwise (· ≤ ·) :=
  List.pairwise_insertionSort _ _

theorem loop_spec {F : Type} (views : AMap Nat (AMap Nat F)) : ∀ (ids common : List Nat), common.Pairwise (· ≤ ·) →
    (∀ v ∈ ids, v ∈ views.keys) →
    ∃ res, loop views ids common = .ok res ∧ res.Sublist common ∧
      ∀ k, k ∈ res ↔ k ∈ common ∧ ∀ v ∈ ids, ∀ m, views.get v = some m → k ∈ m.keys
  | [], common, _, _ => ⟨common, rfl, List.Sublist.refl _, by simp⟩
  | v :: vs, common, hc, hids => by
    unfold loop
    by_cases h0 : common.length = 0
    · rw [if_pos h0]
      have : common = [] := List.eq_nil_of_length_eq_zero h0
      subst this
      exact ⟨[], rfl, List.Sublist.refl _, by simp⟩
    · rw [if_neg h0]
      obtain ⟨m, hm⟩ := AMap.mem_keys_iff.1 (hids v List.mem_cons_self)
      rw [hm]
      simp only
      have hsub := setIntersection_sublist common (m.keys.insertionSort (· ≤ ·))
      obtain ⟨res, hr, hs, hmem⟩ := loop_spec views vs (setIntersection common (m.keys.insertionSort (· ≤ ·)))
        (hc.sublist hsub) (fun w hw => hids w (List.mem_cons_of_mem _ hw))
      refine ⟨res, hr, hs.trans hsub, ?_⟩
      intro k
      rw [hmem, mem_setIntersection k _ _ hc (sorted_keys m), List.mem_insertionSort]
      constructor
      · rintro ⟨⟨h1, h2⟩, h3⟩
        refine ⟨h1, ?_⟩
        intro w hw m' hm'
        rcases List.mem_cons.1 hw with rfl | hw
        · rw [hm] at hm'
          cases hm'
          exact h2
        · exact h3 w hw m' hm'
      · rintro ⟨h1, h2⟩
        exact ⟨⟨h1, h2 v List.mem_cons_self m hm⟩, fun w hw => h2 w (List.mem_cons_of_mem _ hw)⟩

theorem find_spec {F : Type} (views : AMap Nat (AMap Nat F)) (ids : List Nat) (hlen : 2 ≤ ids.length)
    (hids : ∀ v ∈ ids, v ∈ views.keys) :
    ∃ res, find views ids = .ok res ∧ res.Pairwise (· ≤ ·) ∧
      ((∀ v m, views.get v = some m → m.WF) → res.Nodup) ∧
      ∀ k, k ∈ res ↔ ∀ v ∈ ids, ∀ m, views.get v = some m → k ∈ m.keys := by
  unfold find
  rw [if_neg (by omega)]
  cases ids with
  | nil => simp at hlen
  | cons v vs =>
    obtain ⟨m, hm⟩ := AMap.mem_keys_iff.1 (hids v List.mem_cons_self)
    simp only [hm]
    obtain ⟨res, hr, hs, hmem⟩ := loop_spec views vs (m.keys.insertionSort (· ≤ ·)) (sorted_keys m)
      (fun w hw => hids w (List.mem_cons_of_mem _ hw))
    have hk : ∀ k, k ∈ res ↔ ∀ w ∈ v :: vs, ∀ m, views.get w = some m → k ∈ m.keys := by
      intro k
      rw [hmem, List.mem_insertionSort]
      constructor
      · rintro ⟨h1, h2⟩ w hw m' hm'
        rcases List.mem_cons.1 hw with rfl | hw
        · rw [hm] at hm'
          cases hm'
          exact h1
        · exact h2 w hw m' hm'
      · intro h
        exact ⟨h v List.mem_cons_self m hm, fun w hw => h w (List.mem_cons_of_mem _ hw)⟩
    refine ⟨res, hr, (sorted_keys m).sublist hs, ?_, hk⟩
    intro hwf
    exact ((List.perm_insertionSort _ _).nodup_iff.2 (hwf v m hm)).sublist hs

end CommonTracks

namespace LinearPosition

open LinearRotation BaselineRatios Triangulation AngleAxis

theorem featuresOf_ok (view : AMap Nat V2) : ∀ tracks : List Nat, (∀ k ∈ tracks, k ∈ view.keys) →
    featuresOf view tracks = .ok (tracks.map (fun k => (view.get k).getD (0, 0)))
  | [], _ => rfl
  | k :: ks, h => by
    obtain ⟨p, hp⟩ := AMap.mem_keys_iff.1 (h k List.mem_cons_self)
    unfold featuresOf
    rw [hp, featuresOf_ok view ks (fun x hx => h x (List.mem_cons_of_mem _ hx))]
    simp [hp]

section

variable {llt : (V4 → V4) → V4 → Option V4} {fromTwo : V3 ℝ → V3 ℝ → M3 ℝ} {views : AMap Nat (AMap Nat V2)}
  {pairs : AMap (Nat × Nat) Info} {orientations : AMap Nat (V3 ℝ)} {G : Nat → M3 ℝ} {c X : Nat → V3 ℝ}

theorem baseline_exact (hl : Cholesky llt) (hG : ∀ v, (G v).IsRotation)
    (hfeat : ∀ v m k p, views.get v = some m → m.get k = some p → ExactFeature G c v (X k) p)
    (hpose : ∀ e info, pairs.get e = some info → ExactPose G c e.1 e.2 info.rotation info.position) {t : Triplet}
    (ht : IsTriangle pairs.keys t) (hk : ∃ k, SeenBy views t k ∧ Useful c t (X k)) :
    baselineFor llt views pairs t = .ok ⟨1, dist3 (c t.1) (c t.2.2) / dist3 (c t.1) (c t.2.1),
      dist3 (c t.2.1) (c t.2.2) / dist3 (c t.1) (c t.2.1)⟩ := by
  obtain ⟨k, ⟨m1, m2, m3, h1, h2, h3, k1, k2, k3⟩, hu⟩ := hk
  obtain ⟨-, -, e12, e13, e23⟩ := ht
  obtain ⟨i12, g12⟩ := AMap.mem_keys_iff.1 e12
  obtain ⟨i13, g13⟩ := AMap.mem_keys_iff.1 e13
  obtain ⟨i23, g23⟩ := AMap.mem_keys_iff.1 e23
  obtain ⟨tracks, hf, -, -, hmem⟩ := CommonTracks.find_spec views [t.1, t.2.1, t.2.2] (by simp) (by
    intro v hv
    simp only [List.mem_cons, List.not_mem_nil, or_false] at hv
    rcases hv with rfl | rfl | rfl
    · exact AMap.mem_keys_iff.2 ⟨_, h1⟩
    · exact AMap.mem_keys_iff.2 ⟨_, h2⟩
    · exact AMap.mem_keys_iff.2 ⟨_, h3⟩)
  have hm1 : ∀ k ∈ tracks, k ∈ m1.keys := fun k hk => (hmem k).1 hk _ (by simp) m1 h1
  have hm2 : ∀ k ∈ tracks, k ∈ m2.keys := fun k hk => (hmem k).1 hk _ (by simp) m2 h2
  have hm3 : ∀ k ∈ tracks, k ∈ m3.keys := fun k hk => (hmem k).1 hk _ (by simp) m3 h3
  have hkt : k ∈ tracks := by
    rw [hmem]
    intro v hv m hm
    simp only [List.mem_cons, List.not_mem_nil, or_false] at hv
    rcases hv with rfl | rfl | rfl
    · rw [h1] at hm; cases hm; exact k1
    · rw [h2] at hm; cases hm; exact k2
    · rw [h3] at hm; cases hm; exact k3
  have hget : ∀ (m : AMap Nat V2) (v : Nat), views.get v = some m → (∀ k ∈ tracks, k ∈ m.keys) → ∀ k ∈ tracks,
      ExactFeature G c v (X k) ((m.get k).getD (0, 0)) := by
    intro m v hv hall k hk
    obtain ⟨p, hp⟩ := AMap.mem_keys_iff.1 (hall k hk)
    rw [hp]
    exact hfeat v m k p hv hp
  obtain ⟨n, hn, hz⟩ := ratios_exact hl hG (hpose _ _ g12) (hpose _ _ g13) (hpose _ _ g23) (X := X)
    (p1 := fun k => (m1.get k).getD (0, 0)) (p2 := fun k => (m2.get k).getD (0, 0)) (p3 := fun k => (m3.get k).getD (0, 0))
    tracks (fun k hk => ⟨hget m1 _ h1 hm1 k hk, hget m2 _ h2 hm2 k hk, hget m3 _ h3 hm3 k hk⟩)
  have hn0 : n ≠ 0 := fun h => hz.1 h k hkt hu
  unfold baselineFor
  simp only [h1, h2, h3, hf, featuresOf_ok m1 tracks hm1, featuresOf_ok m2 tracks hm2, featuresOf_ok m3 tracks hm3]
  unfold baselineWith
  simp only [g12, g13, g23]
  unfold compute
  rw [if_neg (by simp), if_neg (by simp), hn]
  simp only [fromRatios_replicate, if_neg hn0, Option.getD_some]

/-! ## Turns -/

theorem turn_exact (hf : TurnsOneToOther fromTwo) {a b : V3 ℝ} (ha : a ≠ V3.zero) (hb : b ≠ V3.zero) {p q : ℝ}
    (hp : p = Real.sqrt (a.dot a)) (hq : q = Real.sqrt (b.dot b)) :
    (fromTwo (a.smul (1 / p)) (b.smul (1 / q))).IsRotation ∧
      ((fromTwo (a.smul (1 / p)) (b.smul (1 / q))).mulVec a).smul (q / p) = b ∧
      (fromTwo (a.smul (1 / p)) (b.smul (1 / q))).mulVec (a.cross b) = a.cross b := by
  have pp : 0 < p := hp ▸ Real.sqrt_pos.2 (V3.self_pos ha)
  have pq : 0 < q := hq ▸ Real.sqrt_pos.2 (V3.self_pos hb)
  have na : a.smul (1 / p) ≠ V3.zero := fun h => ha (V3.eq_zero_of_smul (by positivity) h)
  have nb : b.smul (1 / q) ≠ V3.zero := fun h => hb (V3.eq_zero_of_smul (by positivity) h)
  obtain ⟨h1, h2, h3⟩ := hf _ _ na nb
  have ua : Real.sqrt ((a.smul (1 / p)).dot (a.smul (1 / p))) = 1 := by
    rw [sqrt_dot_smul _ (by positivity), ← hp]
    field_simp
  have ub : Real.sqrt ((b.smul (1 / q)).dot (b.smul (1 / q))) = 1 := by
    rw [sqrt_dot_smul _ (by positivity), ← hq]
    field_simp
  rw [ua, ub, V3.one_smul', V3.one_smul', M3.mulVec_smul] at h2
  refine ⟨h1, ?_, ?_⟩
  · have := congrArg (fun v => V3.smul q v) h2
    simp only [V3.smul_smul] at this
    rw [show q * (1 / p) = q / p by ring, show q * (1 / q) = 1 by field_simp, V3.one_smul'] at this
    exact this
  · rw [cross_smul2, M3.mulVec_smul] at h3
    have := congrArg (fun v => V3.smul (p * q) v) h3
    simp only [V3.smul_smul] at this
    rw [show p * q * (1 / p * (1 / q)) = 1 by field_simp, V3.one_smul', V3.one_smul'] at this
    exact this

theorem dist3_comm (a b : V3 ℝ) : dist3 a b = dist3 b a := by
  unfold dist3
  congr 1
  simp only [V3.dot, V3.sub]
  ring

theorem sub_ne_zero' {a b : V3 ℝ} (h : a ≠ b) : a.sub b ≠ V3.zero := fun e => h (V3.sub_eq_zero e)

theorem translation_exact (hG : ∀ v, (G v).IsRotation) {i j : Nat} {info : Info}
    (hpose : ExactPose G c i j info.rotation info.position) :
    translation (G i) info = ((c i).sub (c j)).smul (1 / dist3 (c i) (c j)) := by
  have hb := dist3_pos hpose.1
  have hpos : info.position = ((G i).mulVec ((c j).sub (c i))).smul (1 / dist3 (c i) (c j)) := by
    rw [← hpose.2.2, V3.smul_smul, one_div, inv_mul_cancel₀ hb.ne', V3.one_smul']
  rw [translation, hpos, M3.mulVec_smul, (hG i).transpose_mulVec]
  apply V3.ext <;> simp only [V3.smul, V3.sub, V3.neg] <;> ring

theorem rotations_exact (hf : TurnsOneToOther fromTwo) (hG : ∀ v, (G v).IsRotation)
    (hpose : ∀ e info, pairs.get e = some info → ExactPose G c e.1 e.2 info.rotation info.position)
    (hori : ∀ e ∈ pairs.keys, ∃ o, orientations.get e.1 = some o ∧ o ≠ V3.zero ∧ toM o = G e.1) {t : Triplet}
    (ht : IsTriangle pairs.keys t) :
    ∃ r, rotations fromTwo pairs orientations t = .ok r ∧
      ExactShape (c t.1) (c t.2.1) (c t.2.2) (shapeOf r ⟨1, dist3 (c t.1) (c t.2.2) / dist3 (c t.1) (c t.2.1),
        dist3 (c t.2.1) (c t.2.2) / dist3 (c t.1) (c t.2.1)⟩) := by
  obtain ⟨-, -, e01, e02, e12⟩ := ht
  obtain ⟨i01, g01⟩ := AMap.mem_keys_iff.1 e01
  obtain ⟨i02, g02⟩ := AMap.mem_keys_iff.1 e02
  obtain ⟨i12, g12⟩ := AMap.mem_keys_iff.1 e12
  have x01 := hpose _ _ g01
  have x02 := hpose _ _ g02
  have x12 := hpose _ _ g12
  dsimp only at x01 x02 x12
  obtain ⟨o0, ho0, z0, w0⟩ := hori _ e01
  obtain ⟨o1, ho1, z1, w1⟩ := hori _ e12
  dsimp only at ho0 ho1 w0 w1
  have p01 := dist3_pos x01.1
  have p02 := dist3_pos x02.1
  have p12 := dist3_pos x12.1
  have t01 := translation_exact hG x01
  have t02 := translation_exact hG x02
  have t12 := translation_exact hG x12
  refine ⟨between fromTwo (translation (G t.1) i01) (translation (G t.1) i02) (translation (G t.2.1) i12), ?_, ?_⟩
  · unfold rotations rotationOf
    simp only [ho0, ho1, if_neg z0, if_neg z1, g01, g02, g12, w0, w1]
  · have n01 : (translation (G t.1) i01).neg = ((c t.2.1).sub (c t.1)).smul (1 / dist3 (c t.1) (c t.2.1)) := by
      rw [t01]
      apply V3.ext <;> simp only [V3.smul, V3.sub, V3.neg] <;> ring
    have n02 : (translation (G t.1) i02).neg = ((c t.2.2).sub (c t.1)).smul (1 / dist3 (c t.1) (c t.2.2)) := by
      rw [t02]
      apply V3.ext <;> simp only [V3.smul, V3.sub, V3.neg] <;> ring
    have n12 : (translation (G t.2.1) i12).neg = ((c t.2.2).sub (c t.2.1)).smul (1 / dist3 (c t.2.1) (c t.2.2)) := by
      rw [t12]
      apply V3.ext <;> simp only [V3.smul, V3.sub, V3.neg] <;> ring
    obtain ⟨r0, m0, f0⟩ := turn_exact hf (sub_ne_zero' x01.1) (sub_ne_zero' x02.1)
      (p := dist3 (c t.1) (c t.2.1)) (q := dist3 (c t.1) (c t.2.2)) (dist3_comm _ _) (dist3_comm _ _)
    obtain ⟨r1, m1, f1⟩ := turn_exact hf (sub_ne_zero' x12.1) (sub_ne_zero' x01.1.symm)
      (p := dist3 (c t.2.1) (c t.2.2)) (q := dist3 (c t.1) (c t.2.1)) (dist3_comm _ _) rfl
    obtain ⟨r2, m2, f2⟩ := turn_exact hf (sub_ne_zero' x02.1.symm) (sub_ne_zero' x12.1.symm)
      (p := dist3 (c t.1) (c t.2.2)) (q := dist3 (c t.2.1) (c t.2.2)) rfl rfl
    rw [← t01, ← t02] at r0 m0 f0
    rw [← t12, ← n01] at r1 m1 f1
    rw [← n02, ← n12] at r2 m2 f2
    have neg_map : ∀ (m : M3 ℝ) (a b a' b' : V3 ℝ) (k : ℝ), (m.mulVec a).smul k = b → a' = a.neg → b' = b.neg →
        (m.mulVec a').smul k = b' := by
      rintro m a b a' b' k rfl rfl rfl
      rw [M3.mulVec_neg]
      apply V3.ext <;> simp only [V3.smul, V3.neg] <;> ring
    have hneg : ∀ a b : V3 ℝ, a.sub b = (b.sub a).neg := by
      intro a b
      apply V3.ext <;> simp only [V3.sub, V3.neg] <;> ring
    have c0 : ((c t.1).sub (c t.2.1)).cross ((c t.1).sub (c t.2.2)) =
        ((c t.2.1).sub (c t.1)).cross ((c t.2.2).sub (c t.1)) := by
      apply V3.ext <;> simp only [V3.sub, V3.cross] <;> ring
    have c1 : ((c t.2.1).sub (c t.2.2)).cross ((c t.2.1).sub (c t.1)) =
        ((c t.2.1).sub (c t.1)).cross ((c t.2.2).sub (c t.1)) := by
      apply V3.ext <;> simp only [V3.sub, V3.cross] <;> ring
    have c2 : ((c t.2.2).sub (c t.1)).cross ((c t.2.2).sub (c t.2.1)) =
        ((c t.2.1).sub (c t.1)).cross ((c t.2.2).sub (c t.1)) := by
      apply V3.ext <;> simp only [V3.sub, V3.cross] <;> ring
    rw [c0] at f0
    rw [c1] at f1
    rw [c2] at f2
    refine ⟨r0, r1, r2, ?_, ?_, ?_, f0, f1, f2, one_pos, div_pos p02 p01, div_pos p12 p01, dist3 (c t.1) (c t.2.1), p01, ?_, ?_, ?_⟩
    · simp only [shapeOf, div_one]
      exact neg_map _ _ _ _ _ _ m0 (hneg _ _) (hneg _ _)
    · simp only [shapeOf, one_div_div]
      exact neg_map _ _ _ _ _ _ m1 (hneg _ _) (hneg _ _)
    · simp only [shapeOf]
      rw [div_div_div_cancel_right₀ p01.ne']
      exact neg_map _ _ _ _ _ _ m2 (hneg _ _) (hneg _ _)
    · simp [shapeOf]
    · simp only [shapeOf]
      field_simp
    · simp only [shapeOf]
      field_simp

/-! ## Signs -/

theorem sameDirection_exact (hG : ∀ v, (G v).IsRotation) {i j : Nat} {info : Info}
    (hpose : ExactPose G c i j info.rotation info.position) {o : V3 ℝ} (ho : toM o = G i) {p q : V3 ℝ} {a : ℝ} (ha : a ≠ 0)
    (hd : q.sub p = ((c j).sub (c i)).smul a) : sameDirection p q o info = decide (0 < a) := by
  have hb := dist3_pos hpose.1
  have hpos : info.position = ((G i).mulVec ((c j).sub (c i))).smul (1 / dist3 (c i) (c j)) := by
    rw [← hpose.2.2, V3.smul_smul, one_div, inv_mul_cancel₀ hb.ne', V3.one_smul']
  have hne : (c j).sub (c i) ≠ V3.zero := sub_ne_zero' hpose.1.symm
  have hpd := V3.self_pos hne
  have hq : 0 < (((c j).sub (c i)).smul a).dot (((c j).sub (c i)).smul a) := by
    rw [dot_smul]
    exact mul_pos (mul_self_pos.2 ha) hpd
  unfold sameDirection
  rw [ho, hd, Triangulation.normalize.eq_def, if_pos hq, V3.smul_smul, M3.mulVec_smul, hpos, dot_smul, (hG i).dot]
  have hk : 0 < 1 / Real.sqrt ((((c j).sub (c i)).smul a).dot (((c j).sub (c i)).smul a)) * (1 / dist3 (c i) (c j)) *
      ((c j).sub (c i)).dot ((c j).sub (c i)) := by
    have := Real.sqrt_pos.2 hq
    positivity
  congr 1
  rw [show ∀ x y z : ℝ, x * a * y * z = (x * y * z) * a from fun x y z => by ring]
  exact propext ⟨fun h => (mul_pos_iff_of_pos_left hk).1 h, fun h => mul_pos hk h⟩

theorem votes_exact (hG : ∀ v, (G v).IsRotation) {positions : AMap Nat (V3 ℝ)} {f : V3 ℝ} {a : ℝ} (ha : a ≠ 0)
    (hpos : ∀ v p, positions.get v = some p → p = ((c v).sub f).smul a) : ∀ (es : List ((Nat × Nat) × Info)),
    (∀ e ∈ es, ExactPose G c e.1.1 e.1.2 e.2.rotation e.2.position ∧ ∃ o, orientations.get e.1.1 = some o ∧ toM o = G e.1.1) →
    ∃ n : Int, votes orientations positions es = .ok n ∧
      (0 < a → 0 ≤ n) ∧ (a < 0 → n ≤ 0 ∧ ((∃ e ∈ es, e.1.1 ∈ positions.keys ∧ e.1.2 ∈ positions.keys) → n < 0))
  | [], _ => ⟨0, rfl, fun _ => le_refl _, fun _ => ⟨le_refl _, by simp⟩⟩
  | e :: es, h => by
    obtain ⟨n, hn, h1, h2⟩ := votes_exact hG ha hpos es (fun x hx => h x (List.mem_cons_of_mem _ hx))
    obtain ⟨hp, o, ho, hoG⟩ := h e List.mem_cons_self
    unfold votes
    rw [hn]
    cases g1 : positions.get e.1.1 with
    | none =>
      refine ⟨n, rfl, h1, fun hneg => ⟨(h2 hneg).1, ?_⟩⟩
      rintro ⟨x, hx, hx1, hx2⟩
      rcases List.mem_cons.1 hx with rfl | hx
      · exact absurd hx1 (AMap.get_eq_none_iff.1 g1)
      · exact (h2 hneg).2 ⟨x, hx, hx1, hx2⟩
    | some p1 =>
      cases g2 : positions.get e.1.2 with
      | none =>
        refine ⟨n, rfl, h1, fun hneg => ⟨(h2 hneg).1, ?_⟩⟩
        rintro ⟨x, hx, hx1, hx2⟩
        rcases List.mem_cons.1 hx with rfl | hx
        · exact absurd hx2 (AMap.get_eq_none_iff.1 g2)
        · exact (h2 hneg).2 ⟨x, hx, hx1, hx2⟩
      | some p2 =>
        have hd : p2.sub p1 = ((c e.1.2).sub (c e.1.1)).smul a := by
          rw [hpos _ _ g1, hpos _ _ g2]
          apply V3.ext <;> simp only [V3.sub, V3.smul] <;> ring
        have hs := sameDirection_exact hG hp hoG ha hd
        simp only [ho, hs]
        by_cases hap : 0 < a
        · refine ⟨n + 1, by simp [hap], fun _ => by have := h1 hap; omega, fun hneg => absurd hneg (by linarith)⟩
        · refine ⟨n - 1, by simp [hap], fun h => absurd h hap, fun hneg => ?_⟩
          have := (h2 hneg).1
          exact ⟨by omega, fun _ => by omega⟩

end
end LinearPosition
end Theia
