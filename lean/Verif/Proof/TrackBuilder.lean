import Mathlib.Data.List.Forall2
import Verif.Model.TrackBuilder
import Verif.Proof.ConnectedComponents
import Verif.Props.Reconstruction
import Verif.Spec.Tracks

/-! # Lemmas on the track builder -/

namespace Theia
namespace TrackBuilder

open Spec

variable {F P : Type} [DecidableEq F]

/-- The id pairs `E` are the correspondences `C` under the feature numbering. -/
def Numbered (feats : AMap (ViewId × F) Nat) (C : List ((ViewId × F) × (ViewId × F)))
    (E : List (Nat × Nat)) : Prop :=
  List.Forall₂ (fun c e => feats.get c.1 = some e.1 ∧ feats.get c.2 = some e.2) C E

theorem numbered_mem {feats : AMap (ViewId × F) Nat}
    {C : List ((ViewId × F) × (ViewId × F))} {E : List (Nat × Nat)} (h : Numbered feats C E) :
    (∀ e ∈ E, ∃ c ∈ C, feats.get c.1 = some e.1 ∧ feats.get c.2 = some e.2) ∧
    (∀ c ∈ C, ∃ e ∈ E, feats.get c.1 = some e.1 ∧ feats.get c.2 = some e.2) := by
  unfold Numbered at h
  induction h with
  | nil => simp
  | cons hce _ ih =>
    constructor
    · intro e he
      rcases List.mem_cons.1 he with rfl | he
      · exact ⟨_, by simp, hce⟩
      · obtain ⟨c, hc, h⟩ := ih.1 e he; exact ⟨c, by simp [hc], h⟩
    · intro c hc
      rcases List.mem_cons.1 hc with rfl | hc
      · exact ⟨_, by simp, hce⟩
      · obtain ⟨e, he, h⟩ := ih.2 c hc; exact ⟨e, by simp [he], h⟩

/-- State of the builder after the correspondences `C`. -/
structure BInv (minL maxL : Nat) (C : List ((ViewId × F) × (ViewId × F))) (b : TrackBuilder F)
    (E : List (Nat × Nat)) (rep : Nat → Nat) (depth : Nat → Nat) : Prop where
  wf : b.features.WF
  min : b.minLength = minL
  lt : ∀ o i, b.features.get o = some i → i < b.numFeatures
  inj : ∀ o o' i, b.features.get o = some i → b.features.get o' = some i → o = o'
  keys : ∀ o, o ∈ b.features.keys ↔ IsNode C o
  num : Numbered b.features C E
  cc : CC.State maxL E b.cc rep depth
  count : b.numFeatures = b.features.keys.length
  complete : b.numFeatures ≤ maxL → ∀ e ∈ E, rep e.1 = rep e.2

theorem findOrInsert_spec (b : TrackBuilder F) (o : ViewId × F) (hw : b.features.WF)
    (hlt : ∀ o i, b.features.get o = some i → i < b.numFeatures)
    (hinj : ∀ o o' i, b.features.get o = some i → b.features.get o' = some i → o = o') :
    let r := b.findOrInsert o
    r.2.features.WF ∧ r.2.minLength = b.minLength ∧ r.2.cc = b.cc ∧
      (∀ o i, r.2.features.get o = some i → i < r.2.numFeatures) ∧
      (∀ o o' i, r.2.features.get o = some i → r.2.features.get o' = some i → o = o') ∧
      r.2.features.get o = some r.1 ∧
      (∀ o' i, b.features.get o' = some i → r.2.features.get o' = some i) ∧
      (∀ o', o' ∈ r.2.features.keys ↔ o' ∈ b.features.keys ∨ o' = o) ∧
      (b.numFeatures = b.features.keys.length → r.2.numFeatures = r.2.features.keys.length) ∧
      b.numFeatures ≤ r.2.numFeatures := by
  unfold findOrInsert
  cases h : b.features.get o with
  | some i =>
    refine ⟨hw, rfl, rfl, hlt, hinj, h, fun _ _ h => h, fun o' => ⟨Or.inl, ?_⟩, fun h => h, Nat.le_refl _⟩
    rintro (h' | rfl)
    · exact h'
    · exact AMap.mem_keys_iff.2 ⟨i, h⟩
  | none =>
    simp only
    refine ⟨AMap.wf_insert hw _ _, trivial, trivial, ?_, ?_, AMap.get_insert_self _ _ _, ?_, ?_,
      ?_, Nat.le_succ _⟩
    · intro o' i hi
      rw [AMap.get_insert] at hi
      split at hi
      · cases hi; omega
      · have := hlt o' i hi; omega
    · intro o1 o2 i h1 h2
      rw [AMap.get_insert] at h1 h2
      split at h1 <;> split at h2
      · simp_all
      · cases h1; exact absurd (hlt _ _ h2) (Nat.lt_irrefl _)
      · cases h2; exact absurd (hlt _ _ h1) (Nat.lt_irrefl _)
      · exact hinj _ _ _ h1 h2
    · intro o' i hi
      rw [AMap.get_insert_ne]
      · exact hi
      · rintro rfl; rw [h] at hi; cases hi
    · intro o'
      rw [AMap.mem_keys_insert, or_comm]
    · intro hc
      rw [AMap.keys_insert, if_neg (AMap.get_eq_none_iff.1 h), List.length_append]
      simp [hc]

theorem binv_add {minL maxL : Nat} (hm : 0 < maxL) {C : List ((ViewId × F) × (ViewId × F))}
    {b : TrackBuilder F} {E : List (Nat × Nat)} {rep depth : Nat → Nat}
    (h : BInv minL maxL C b E rep depth) (o1 o2 : ViewId × F) (hne : o1.1 ≠ o2.1) :
    ∃ b' e rep' depth', b.addCorrespondence o1 o2 = .ok b' ∧
      BInv minL maxL (C ++ [(o1, o2)]) b' (E ++ [e]) rep' depth' := by
  unfold addCorrespondence
  rw [if_neg hne]
  obtain ⟨w1, m1, c1, l1, i1, g1, k1, n1, q1, z1⟩ := findOrInsert_spec b o1 h.wf h.lt h.inj
  obtain ⟨w2, m2, c2, l2, i2, g2, k2, n2, q2, z2⟩ :=
    findOrInsert_spec (b.findOrInsert o1).2 o2 w1 l1 i1
  have hcc : CC.State maxL E ((b.findOrInsert o1).2.findOrInsert o2).2.cc rep depth := by
    rw [c2, c1]; exact h.cc
  have hnum : Numbered ((b.findOrInsert o1).2.findOrInsert o2).2.features (C ++ [(o1, o2)])
      (E ++ [((b.findOrInsert o1).1, ((b.findOrInsert o1).2.findOrInsert o2).1)]) := by
    refine List.rel_append ?_ ?_
    · exact h.num.imp (fun c e hce => ⟨k2 _ _ (k1 _ _ hce.1), k2 _ _ (k1 _ _ hce.2)⟩)
    · exact List.Forall₂.cons ⟨k2 _ _ g1, g2⟩ List.Forall₂.nil
  obtain ⟨cc', rep', depth', he, hs, hcm⟩ : ∃ cc' rep' depth',
      ((b.findOrInsert o1).2.findOrInsert o2).2.cc.addEdge (b.findOrInsert o1).1
        ((b.findOrInsert o1).2.findOrInsert o2).1 = .ok cc' ∧
      CC.State maxL (E ++ [((b.findOrInsert o1).1, ((b.findOrInsert o1).2.findOrInsert o2).1)])
        cc' rep' depth' ∧
      (((b.findOrInsert o1).2.findOrInsert o2).2.numFeatures ≤ maxL →
        ∀ e ∈ E ++ [((b.findOrInsert o1).1, ((b.findOrInsert o1).2.findOrInsert o2).1)],
          rep' e.1 = rep' e.2) := by
    by_cases hle : ((b.findOrInsert o1).2.findOrInsert o2).2.numFeatures ≤ maxL
    · obtain ⟨cc', rep', depth', hrun, hs, hcm⟩ := CC.state_complete hm hcc
        (h.complete (by omega))
        [CC.Op.addEdge (b.findOrInsert o1).1 ((b.findOrInsert o1).2.findOrInsert o2).1]
        (List.range ((b.findOrInsert o1).2.findOrInsert o2).2.numFeatures)
        (by simpa using hle)
        (by
          intro x hx
          rw [List.mem_range]
          obtain ⟨e, hem, hx⟩ := hx
          obtain ⟨c, h1, h2⟩ : ∃ c : (ViewId × F) × (ViewId × F),
              ((b.findOrInsert o1).2.findOrInsert o2).2.features.get c.1 = some e.1 ∧
              ((b.findOrInsert o1).2.findOrInsert o2).2.features.get c.2 = some e.2 := by
            obtain ⟨c, _, h⟩ := (numbered_mem hnum).1 e hem
            exact ⟨c, h⟩
          rcases hx with rfl | rfl
          · exact l2 _ _ h1
          · exact l2 _ _ h2)
      refine ⟨cc', rep', depth', ?_, hs, fun _ => hcm⟩
      simp only [CC.run, CC.step] at hrun
      cases hadd : ((b.findOrInsert o1).2.findOrInsert o2).2.cc.addEdge (b.findOrInsert o1).1
        ((b.findOrInsert o1).2.findOrInsert o2).1 with
      | ok x => rw [hadd] at hrun; simpa [Outcome.bind] using hrun
      | abort => rw [hadd] at hrun; simp [Outcome.bind] at hrun
      | ub => rw [hadd] at hrun; simp [Outcome.bind] at hrun
    · obtain ⟨cc', rep', depth', he, hs, _⟩ := CC.state_addEdge hm hcc (b.findOrInsert o1).1
        ((b.findOrInsert o1).2.findOrInsert o2).1
      exact ⟨cc', rep', depth', he, hs, fun h => absurd h hle⟩
  simp only [he]
  refine ⟨_, ((b.findOrInsert o1).1, ((b.findOrInsert o1).2.findOrInsert o2).1), rep', depth', rfl,
    ⟨w2, ?_, l2, i2, ?_, hnum, hs, q2 (q1 h.count), hcm⟩⟩
  · simp only [m2, m1, h.min]
  · intro o
    simp only
    rw [n2, n1, h.keys, CC.isNode_append, CC.isNode_single, or_assoc]

theorem binv_addAll {minL maxL : Nat} (hm : 0 < maxL) (cs : List ((ViewId × F) × (ViewId × F)))
    (hne : ∀ c ∈ cs, c.1.1 ≠ c.2.1) {C : List ((ViewId × F) × (ViewId × F))}
    {b : TrackBuilder F} {E : List (Nat × Nat)} {rep depth : Nat → Nat}
    (h : BInv minL maxL C b E rep depth) :
    ∃ b' E' rep' depth', b.addAll cs = .ok b' ∧ BInv minL maxL (C ++ cs) b' E' rep' depth' := by
  induction cs generalizing C b E rep depth with
  | nil => exact ⟨b, E, rep, depth, rfl, by simpa using h⟩
  | cons c cs ih =>
    obtain ⟨b1, e, r1, d1, he, h1⟩ := binv_add hm h c.1 c.2 (hne c (by simp))
    obtain ⟨b2, E2, r2, d2, he2, h2⟩ := ih (fun c hc => hne c (by simp [hc])) h1
    refine ⟨b2, E2, r2, d2, ?_, by simpa using h2⟩
    simp [addAll, he, he2]

theorem binv_empty (minL maxL : Nat) :
    BInv (F := F) minL maxL [] ⟨.empty, 0, minL, ⟨maxL, .empty⟩⟩ [] id (fun _ => 0) :=
  ⟨by simp, rfl, by simp, by simp, by simp [IsNode], List.Forall₂.nil, CC.state_empty _,
    rfl, by simp⟩

/-! ### Reverse map -/

omit [DecidableEq F] in
theorem reverse_spec (es : List ((ViewId × F) × Nat)) (m : AMap Nat (ViewId × F))
    (hnd : (es.map (·.2)).Nodup) (hd : ∀ e ∈ es, e.2 ∉ m.keys) :
    ∃ rev, reverse es m = .ok rev ∧ ∀ i o, rev.get i = some o ↔ m.get i = some o ∨ (o, i) ∈ es := by
  induction es generalizing m with
  | nil => exact ⟨m, rfl, by simp⟩
  | cons e es ih =>
    rw [List.map_cons, List.nodup_cons] at hnd
    have hek := hd e (by simp)
    obtain ⟨rev, hr, hrev⟩ := ih (m.insert e.2 e.1) hnd.2 (by
      intro f hf hk
      rw [AMap.mem_keys_insert] at hk
      rcases hk with hk | hk
      · exact hnd.1 (hk ▸ List.mem_map_of_mem hf)
      · exact hd f (by simp [hf]) hk)
    refine ⟨rev, ?_, ?_⟩
    · unfold reverse
      rw [if_neg (by simpa using hek)]
      exact hr
    · intro i o
      rw [hrev, AMap.get_insert]
      by_cases hi : i = e.2
      · subst hi
        have hn : m.get e.2 = none := AMap.get_eq_none_iff.2 hek
        rw [if_pos rfl, hn]
        simp only [Option.some.injEq, List.mem_cons, reduceCtorEq, false_or]
        constructor
        · rintro (rfl | h)
          · exact Or.inl rfl
          · exact Or.inr h
        · rintro (h | h)
          · exact Or.inl (by rw [← h])
          · exact Or.inr h
      · rw [if_neg hi]
        simp only [List.mem_cons]
        constructor
        · rintro (h | h)
          · exact Or.inl h
          · exact Or.inr (Or.inr h)
        · rintro (h | h | h)
          · exact Or.inl h
          · exact absurd (by rw [← h]) hi
          · exact Or.inr h

/-! ### One component -/

omit [DecidableEq F] in
theorem pick_spec (rev : AMap Nat (ViewId × F)) (is : List Nat) (hk : ∀ i ∈ is, ∃ o, rev.get i = some o)
    (views : List ViewId) (track : List (ViewId × F)) (hv : views = track.map (·.1))
    (hnd : (track.map (·.1)).Nodup) :
    ∃ t, pick rev is views track = .ok t ∧ (t.map (·.1)).Nodup ∧
      (∀ o ∈ t, o ∈ track ∨ ∃ i ∈ is, rev.get i = some o) ∧
      (∀ o ∈ track, o ∈ t) ∧
      (∀ i ∈ is, ∀ o, rev.get i = some o → o.1 ∈ t.map (·.1)) ∧
      t.length ≤ track.length + is.length := by
  induction is generalizing views track with
  | nil => exact ⟨track, rfl, hnd, fun o ho => Or.inl ho, fun _ h => h, by simp, by simp⟩
  | cons i is ih =>
    obtain ⟨o, ho⟩ := hk i (by simp)
    have hk' : ∀ j ∈ is, ∃ o, rev.get j = some o := fun j hj => hk j (by simp [hj])
    unfold pick
    simp only [ho]
    by_cases hin : o.1 ∈ views
    · rw [if_pos hin]
      obtain ⟨t, h1, h2, h3, h4, h5, h6⟩ := ih hk' views track hv hnd
      refine ⟨t, h1, h2, ?_, h4, ?_, by simp; omega⟩
      · intro o' ho'
        rcases h3 o' ho' with h | ⟨j, hj, h⟩
        · exact Or.inl h
        · exact Or.inr ⟨j, by simp [hj], h⟩
      · intro j hj o' ho'
        rcases List.mem_cons.1 hj with rfl | hj
        · rw [ho] at ho'; cases ho'
          rw [hv] at hin
          obtain ⟨x, hx, hxo⟩ := List.mem_map.1 hin
          exact List.mem_map.2 ⟨x, h4 x hx, hxo⟩
        · exact h5 j hj o' ho'
    · rw [if_neg hin]
      obtain ⟨t, h1, h2, h3, h4, h5, h6⟩ := ih hk' (views ++ [o.1]) (track ++ [o]) (by simp [hv])
        (by
          rw [List.map_append, List.nodup_append]
          refine ⟨hnd, by simp, ?_⟩
          intro a ha b hb hab
          simp only [List.map_cons, List.map_nil, List.mem_singleton] at hb
          subst hb; subst hab
          exact hin (hv ▸ ha))
      refine ⟨t, h1, h2, ?_, fun o' ho' => h4 o' (by simp [ho']), ?_, by simp at h6 ⊢; omega⟩
      · intro o' ho'
        rcases h3 o' ho' with h | ⟨j, hj, h⟩
        · rcases List.mem_append.1 h with h | h
          · exact Or.inl h
          · rw [List.mem_singleton.1 h]; exact Or.inr ⟨i, by simp, ho⟩
        · exact Or.inr ⟨j, by simp [hj], h⟩
      · intro j hj o' ho'
        rcases List.mem_cons.1 hj with rfl | hj
        · rw [ho] at ho'; cases ho'
          exact List.mem_map_of_mem (h4 o (by simp))
        · exact h5 j hj o' ho'

/-! ### All components -/

omit [DecidableEq F] in
theorem tracksAdded_nil (r : Reconstruction F P) (p : P) : TracksAdded r p [] r :=
  ⟨by simp, by simp, by simp, fun _ _ => rfl, rfl, fun v V hV => ⟨V, hV, rfl, rfl, rfl, by simp⟩,
    fun _ => rfl, fun _ => rfl, fun _ => rfl⟩

omit [DecidableEq F] in
theorem tracksAdded_cons {r r1 r2 : Reconstruction F P} {p : P} {t : TrackId}
    {obs : List (ViewId × F)} {added : List (TrackId × List (ViewId × F))}
    (hr : r.Reachable)
    (h1n : r.track t = none) (h1t : r1.track t = some ⟨false, p, obs.map (·.1)⟩)
    (h1o : ∀ s, s ≠ t → r1.track s = r.track s) (h1v : r1.viewIds = r.viewIds)
    (h1f : ∀ v V, r.view v = some V → ∃ V', r1.view v = some V' ∧ V'.name = V.name ∧
        V'.estimated = V.estimated ∧ V'.intrinsics = V.intrinsics ∧
        (∀ s, s ≠ t → V'.getFeature s = V.getFeature s) ∧
        (∀ f, V'.getFeature t = some f ↔ (v, f) ∈ obs))
    (h1m : ∀ n, r1.viewIdFromName n = r.viewIdFromName n)
    (h1g : ∀ v, r1.groupOf v = r.groupOf v) (h1g' : ∀ g, r1.viewsInGroup g = r.viewsInGroup g)
    (h2 : TracksAdded r1 p added r2) : TracksAdded r p ((t, obs) :: added) r2 := by
  have hnin : t ∉ added.map (·.1) := by
    intro h
    obtain ⟨a, ha, rfl⟩ := List.mem_map.1 h
    have := h2.fresh a ha
    rw [h1t] at this; cases this
  refine ⟨?_, ?_, ?_, ?_, h2.viewIds.trans h1v, ?_, fun n => (h2.names n).trans (h1m n),
    fun v => (h2.groups.1 v).trans (h1g v), fun g => (h2.groups.2 g).trans (h1g' g)⟩
  · rw [List.map_cons, List.nodup_cons]; exact ⟨hnin, h2.distinct⟩
  · intro a ha
    rcases List.mem_cons.1 ha with rfl | ha
    · exact h1n
    · have hne : a.1 ≠ t := fun h => hnin (h ▸ List.mem_map_of_mem ha)
      rw [← h1o _ hne]; exact h2.fresh a ha
  · intro a ha
    rcases List.mem_cons.1 ha with rfl | ha
    · rw [h2.old t hnin]; exact h1t
    · exact h2.new a ha
  · intro s hs
    rw [List.map_cons, List.mem_cons, not_or] at hs
    rw [h2.old s hs.2, h1o s hs.1]
  · intro v V hV
    obtain ⟨V1, hV1, n1, e1, i1, o1, f1⟩ := h1f v V hV
    obtain ⟨V2, hV2, n2, e2, i2, f2⟩ := h2.views v V1 hV1
    refine ⟨V2, hV2, n2.trans n1, e2.trans e1, i2.trans i1, ?_⟩
    intro s f
    rw [f2]
    by_cases hs : s = t
    · subst hs
      rw [f1]
      have hVt : ¬ V.getFeature s = some f := by
        intro hf
        obtain ⟨T, hT, _⟩ := (C01_views_and_tracks_agree r hr v s).1 ⟨V, f, hV, hf⟩
        rw [h1n] at hT; cases hT
      constructor
      · rintro (h | ⟨a, ha, rfl, _⟩)
        · exact Or.inr ⟨(s, obs), by simp, rfl, h⟩
        · exact absurd (List.mem_map_of_mem ha) hnin
      · rintro (h | ⟨a, ha, hat, h⟩)
        · exact absurd h hVt
        · rcases List.mem_cons.1 ha with rfl | ha
          · exact Or.inl h
          · exact Or.inr ⟨a, ha, hat, h⟩
    · rw [o1 s hs]
      constructor
      · rintro (h | ⟨a, ha, hat, h⟩)
        · exact Or.inl h
        · exact Or.inr ⟨a, by simp [ha], hat, h⟩
      · rintro (h | ⟨a, ha, hat, h⟩)
        · exact Or.inl h
        · rcases List.mem_cons.1 ha with rfl | ha
          · exact absurd hat.symm hs
          · exact Or.inr ⟨a, ha, hat, h⟩

omit [DecidableEq F] in
theorem reachable_addTrack {r r' : Reconstruction F P} (h : r.Reachable) {p : P}
    {obs : List (ViewId × F)} {t : Option TrackId} (he : r.addTrack p obs = .ok (t, r')) :
    r'.Reachable := by
  obtain ⟨ops, as, hrun⟩ := h
  refine ⟨ops ++ [.addTrack p obs], as ++ [.trackId t], ?_⟩
  have : ∀ (ops : List (Reconstruction.Op F P)) (r0 : Reconstruction F P) as,
      Reconstruction.run r0 ops = .ok (as, r) →
      Reconstruction.run r0 (ops ++ [.addTrack p obs]) = .ok (as ++ [.trackId t], r') := by
    intro ops
    induction ops with
    | nil =>
      intro r0 as h
      simp only [Reconstruction.run, Outcome.ok.injEq, Prod.mk.injEq] at h
      obtain ⟨rfl, rfl⟩ := h
      simp [Reconstruction.run, Reconstruction.step, he, Outcome.bind]
    | cons op ops ih =>
      intro r0 as h
      obtain ⟨a, r1, as', h1, h2, rfl⟩ := Reconstruction.run_cons_ok h
      simp only [List.cons_append, Reconstruction.run, h1, ih _ _ h2]
  exact this ops _ _ hrun

/-- What is known of the track made from a component. -/
def FromComp (rev : AMap Nat (ViewId × F)) (c : Nat × List Nat) (obs : List (ViewId × F)) : Prop :=
  (obs.map (·.1)).Nodup ∧ (∀ o ∈ obs, ∃ i ∈ c.2, rev.get i = some o) ∧
    (∀ i ∈ c.2, ∀ o, rev.get i = some o → o.1 ∈ obs.map (·.1)) ∧ obs.length ≤ c.2.length

omit [DecidableEq F] in
theorem buildLoop_spec (rev : AMap Nat (ViewId × F)) (minL : Nat) (p : P)
    (cs : List (Nat × List Nat)) (r : Reconstruction F P) (hr : r.Reachable)
    (hk : ∀ c ∈ cs, ∀ i ∈ c.2, ∃ o, rev.get i = some o ∧ ∃ V, r.view o.1 = some V)
    (h2 : ∀ c ∈ cs, minL ≤ c.2.length → ∃ i ∈ c.2, ∃ j ∈ c.2, ∃ o o', rev.get i = some o ∧
      rev.get j = some o' ∧ o.1 ≠ o'.1) :
    ∃ r' added, buildLoop rev minL p cs r = .ok r' ∧ TracksAdded r p added r' ∧
      List.Forall₂ (fun c (a : TrackId × List (ViewId × F)) => FromComp rev c a.2)
        (cs.filter (fun c => decide (minL ≤ c.2.length))) added := by
  induction cs generalizing r with
  | nil => exact ⟨r, [], rfl, tracksAdded_nil r p, by simp⟩
  | cons c cs ih =>
    unfold buildLoop
    by_cases hlen : c.2.length < minL
    · rw [if_pos hlen]
      obtain ⟨r', added, h1, h3, h4⟩ := ih r hr (fun c hc => hk c (by simp [hc]))
        (fun c hc => h2 c (by simp [hc]))
      refine ⟨r', added, h1, h3, ?_⟩
      rw [List.filter_cons_of_neg (by simp; omega)]
      exact h4
    · rw [if_neg hlen]
      obtain ⟨t, k1, k2, k3, k4, k5, k6⟩ := pick_spec rev c.2
        (fun i hi => by obtain ⟨o, ho, _⟩ := hk c (by simp) i hi; exact ⟨o, ho⟩) [] [] rfl (by simp)
      simp only [k1]
      have hk3 : ∀ o ∈ t, ∃ i ∈ c.2, rev.get i = some o := by
        intro o ho
        rcases k3 o ho with h | h
        · simp at h
        · exact h
      have hlen2 : 2 ≤ t.length := by
        obtain ⟨i, hi, j, hj, o, o', ho, ho', hne⟩ := h2 c (by simp) (by omega)
        have m1 := k5 i hi o ho
        have m2 := k5 j hj o' ho'
        have : [o.1, o'.1].length ≤ (t.map (·.1)).length := by
          apply List.Nodup.length_le_of_subset (by simpa using hne)
          intro x hx
          simp only [List.mem_cons, List.not_mem_nil, or_false] at hx
          rcases hx with rfl | rfl
          · exact m1
          · exact m2
        simpa using this
      have hviews : ∀ o ∈ t, ∃ V, r.view o.1 = some V := by
        intro o ho
        obtain ⟨i, hi, hio⟩ := hk3 o ho
        obtain ⟨o', ho', hV⟩ := hk c (by simp) i hi
        rw [hio] at ho'; cases ho'; exact hV
      obtain ⟨tid, r1, e, n1, t1, o1, v1, f1, m1, g1, g2⟩ :=
        C05_addTrack_exact r hr p t hlen2 k2 hviews
      simp only [e]
      have hsome : ∀ v, (∃ V, r.view v = some V) → ∃ V, r1.view v = some V := by
        rintro v ⟨V, hV⟩
        obtain ⟨V', hV', _⟩ := f1 v V hV
        exact ⟨V', hV'⟩
      obtain ⟨r', added, q1, q2, q3⟩ := ih r1 (reachable_addTrack hr e)
        (fun c hc i hi => by
          obtain ⟨o, ho, hV⟩ := hk c (by simp [hc]) i hi
          exact ⟨o, ho, hsome _ hV⟩)
        (fun c hc => h2 c (by simp [hc]))
      refine ⟨r', (tid, t) :: added, q1, tracksAdded_cons hr n1 t1 o1 v1 f1 m1 g1 g2 q2, ?_⟩
      rw [List.filter_cons_of_pos (by simp; omega)]
      exact List.Forall₂.cons ⟨k2, hk3, k5, by simpa using k6⟩ q3

end TrackBuilder
end Theia
