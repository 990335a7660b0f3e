import Verif.Proof.TrackBuilder

/-!
# C16: building tracks from correspondences
-/

namespace Theia

open Spec TrackBuilder

variable {F P : Type} [DecidableEq F]

theorem numbered_connected {feats : AMap (ViewId × F) Nat}
    {C : List ((ViewId × F) × (ViewId × F))} {E : List (Nat × Nat)} (h : Numbered feats C E)
    (hinj : ∀ o o' i, feats.get o = some i → feats.get o' = some i → o = o') {i j : Nat}
    (hc : Connected E i j) {o o' : ViewId × F} (hi : feats.get o = some i)
    (hj : feats.get o' = some j) : Connected C o o' := by
  induction hc generalizing o' with
  | refl => rw [hinj o o' i hi hj]; exact .refl
  | step _ hadj ih =>
    rcases hadj with he | he
    · obtain ⟨c, hc, h1, h2⟩ := (numbered_mem h).1 _ he
      have := hinj _ _ _ hj h2
      subst this
      exact (ih h1).step (Or.inl hc)
    · obtain ⟨c, hc, h1, h2⟩ := (numbered_mem h).1 _ he
      have := hinj _ _ _ hj h1
      subst this
      exact (ih h2).step (Or.inr hc)

omit [DecidableEq F] in
theorem forall₂_pairwise {α β : Type} {R : α → β → Prop} {S : α → α → Prop} {S' : β → β → Prop}
    (himp : ∀ a b a' b', R a b → R a' b' → S a a' → S' b b') {l : List α} {l' : List β}
    (h : List.Forall₂ R l l') (hp : l.Pairwise S) : l'.Pairwise S' := by
  induction h with
  | nil => exact List.Pairwise.nil
  | cons hab hrest ih =>
    rw [List.pairwise_cons] at hp ⊢
    refine ⟨?_, ih hp.2⟩
    intro b' hb'
    have : ∀ {l : List α} {l' : List β}, List.Forall₂ R l l' → ∀ b ∈ l', ∃ a ∈ l, R a b := by
      intro l l' h
      induction h with
      | nil => simp
      | cons hab _ ih =>
        intro b hb
        rcases List.mem_cons.1 hb with rfl | hb
        · exact ⟨_, by simp, hab⟩
        · obtain ⟨a, ha, h⟩ := ih b hb; exact ⟨a, by simp [ha], h⟩
    obtain ⟨a', ha', hab'⟩ := this hrest b' hb'
    exact himp _ _ _ _ hab hab' (hp.1 a' ha')

/-- The work for C16. -/
theorem track_builder_main (minL maxL : Nat) (hmin : 2 ≤ minL) (hmax : 0 < maxL)
    (C : List ((ViewId × F) × (ViewId × F))) (hne : ∀ c ∈ C, c.1.1 ≠ c.2.1)
    (r : Reconstruction F P) (hr : r.Reachable)
    (hviews : ∀ o, IsNode C o → ∃ V, r.view o.1 = some V) (p : P) :
    ∃ b0 b r' added, TrackBuilder.create minL maxL = .ok b0 ∧ b0.addAll C = .ok b ∧
      b.buildTracks p r = .ok r' ∧ TracksAdded r p added r' ∧
      (∀ a ∈ added, (a.2.map (·.1)).Nodup ∧ 2 ≤ a.2.length ∧ a.2.length ≤ maxL ∧
        (∀ o ∈ a.2, IsNode C o) ∧ ∀ o ∈ a.2, ∀ o' ∈ a.2, Connected C o o') ∧
      added.Pairwise (fun a a' => ∀ o ∈ a.2, o ∉ a'.2) ∧
      ((∃ nodes : List (ViewId × F), nodes.length ≤ maxL ∧ ∀ o, IsNode C o → o ∈ nodes) →
        ∀ cls : List (ViewId × F), cls.Nodup → minL ≤ cls.length → (∀ o ∈ cls, IsNode C o) →
          (∀ o ∈ cls, ∀ o' ∈ cls, Connected C o o') →
          ∃ a ∈ added, ∀ o ∈ cls, o.1 ∈ a.2.map (·.1) ∧ ∀ x ∈ a.2, Connected C x o) := by
  obtain ⟨b, E, rep, depth, hb, hI⟩ := binv_addAll hmax C hne (binv_empty (F := F) minL maxL)
  rw [List.nil_append] at hI
  -- reverse map
  have hidnd : (b.features.entries.map (·.2)).Nodup := by
    have hk : b.features.entries.Pairwise (fun e f => e.1 ≠ f.1) := List.pairwise_map.1 hI.wf
    rw [List.Nodup, List.pairwise_map]
    refine List.Pairwise.imp_of_mem ?_ hk
    intro e f he hf hef h2
    have h1 := AMap.get_of_mem_entries hI.wf he
    have h3 := AMap.get_of_mem_entries hI.wf hf
    rw [h2] at h1
    exact hef (hI.inj _ _ _ h1 h3)
  obtain ⟨rev, hrev, hrevg⟩ := reverse_spec b.features.entries .empty hidnd (by simp)
  have hrg : ∀ i o, rev.get i = some o ↔ b.features.get o = some i := by
    intro i o
    rw [hrevg, AMap.get_eq_some_iff hI.wf]
    simp
  -- components
  obtain ⟨comps, c', hex, _, _, _, hcol⟩ := CC.extract_spec b.cc hI.cc.forest
  have hent : ∀ c ∈ comps.entries, c.2 = b.cc.set.keys.filter (fun x => decide (rep x = c.1)) :=
    fun c hc => hcol.2.2 _ _ (AMap.get_of_mem_entries hcol.1 hc)
  have hmemc : ∀ c ∈ comps.entries, ∀ i, i ∈ c.2 ↔ IsNode E i ∧ rep i = c.1 := by
    intro c hc i
    rw [hent c hc, List.mem_filter, decide_eq_true_eq, hI.cc.keys]
  have hnd : ∀ c ∈ comps.entries, c.2.Nodup := by
    intro c hc; rw [hent c hc]; exact hI.cc.forest.wf.sublist List.filter_sublist
  have hcap : ∀ c ∈ comps.entries, c.2.length ≤ maxL := by
    intro c hc
    obtain ⟨z, hz, hzr⟩ := (hcol.2.1 c.1).1 (AMap.mem_keys_iff.2 ⟨_, AMap.get_of_mem_entries hcol.1 hc⟩)
    have := hI.cc.cap z hz
    unfold CC.csize at this
    rw [hent c hc, ← hzr]
    exact this
  have hfeat : ∀ i, IsNode E i → ∃ o, rev.get i = some o ∧ IsNode C o := by
    rintro i ⟨e, he, h⟩
    obtain ⟨cc, hcc, h1, h2⟩ := (numbered_mem hI.num).1 e he
    rcases h with rfl | rfl
    · exact ⟨cc.1, (hrg _ _).2 h1, cc, hcc, Or.inl rfl⟩
    · exact ⟨cc.2, (hrg _ _).2 h2, cc, hcc, Or.inr rfl⟩
  obtain ⟨r', added, hbuild, hadd, hrel⟩ := buildLoop_spec rev minL p comps.entries r hr
    (by
      intro c hc i hi
      obtain ⟨o, ho, hn⟩ := hfeat i ((hmemc c hc i).1 hi).1
      exact ⟨o, ho, hviews o hn⟩)
    (by
      intro c hc hlen
      -- two different members, hence an edge inside the component
      obtain ⟨i, j, hij, hi, hj⟩ : ∃ i j, i ≠ j ∧ i ∈ c.2 ∧ j ∈ c.2 := by
        have hn := hnd c hc
        match hc2 : c.2, hlen, hn with
        | [], hlen, _ => simp at hlen; omega
        | [x], hlen, _ => simp at hlen; omega
        | x :: y :: l, _, hn =>
          refine ⟨x, y, ?_, by simp, by simp⟩
          rw [List.nodup_cons] at hn
          exact fun h => hn.1 (by simp [h])
      have hi' := (hmemc c hc i).1 hi
      have hj' := (hmemc c hc j).1 hj
      have hcon := hI.cc.connIn i j (hi'.2.trans hj'.2.symm)
      cases hcon with
      | refl => exact absurd rfl hij
      | step _ hadj =>
        rename_i k _
        have key : ∃ e ∈ E, rep e.1 = rep e.2 ∧ rep e.1 = c.1 := by
          rcases hadj with h | h
          all_goals
            have hm := List.mem_filter.1 h
            simp only [decide_eq_true_eq] at hm
          · exact ⟨_, hm.1, hm.2, hm.2.trans hj'.2⟩
          · exact ⟨_, hm.1, hm.2, hj'.2⟩
        obtain ⟨e, he, h1, h2⟩ := key
        obtain ⟨cc, hcc, g1, g2⟩ := (numbered_mem hI.num).1 e he
        exact ⟨e.1, (hmemc c hc _).2 ⟨⟨e, he, Or.inl rfl⟩, h2⟩, e.2,
          (hmemc c hc _).2 ⟨⟨e, he, Or.inr rfl⟩, h1.symm.trans h2⟩, cc.1, cc.2, (hrg _ _).2 g1,
          (hrg _ _).2 g2, hne cc hcc⟩)
  have hmems : ∀ {l : List (Nat × List Nat)} {l' : List (TrackId × List (ViewId × F))},
      List.Forall₂ (fun c a => FromComp rev c a.2) l l' →
      (∀ a ∈ l', ∃ c ∈ l, FromComp rev c a.2) ∧ ∀ c ∈ l, ∃ a ∈ l', FromComp rev c a.2 := by
    intro l l' h
    induction h with
    | nil => simp
    | cons hab _ ih =>
      constructor
      · intro a ha
        rcases List.mem_cons.1 ha with rfl | ha
        · exact ⟨_, by simp, hab⟩
        · obtain ⟨c, hc, h⟩ := ih.1 a ha; exact ⟨c, by simp [hc], h⟩
      · intro c hc
        rcases List.mem_cons.1 hc with rfl | hc
        · exact ⟨_, by simp, hab⟩
        · obtain ⟨a, ha, h⟩ := ih.2 c hc; exact ⟨a, by simp [ha], h⟩
  have hbl : b.minLength = minL := hI.min
  refine ⟨⟨.empty, 0, minL, ⟨maxL, .empty⟩⟩, b, r', added, by simp [TrackBuilder.create, CC.create, hmax],
    hb, ?_, hadd, ?_, ?_, ?_⟩
  · simp only [buildTracks, hrev, hex, hbl, hbuild]
  · intro a ha
    obtain ⟨c, hc, h1, h2, h3, h4⟩ := (hmems hrel).1 a ha
    obtain ⟨hc, hlen⟩ := List.mem_filter.1 hc
    simp only [decide_eq_true_eq] at hlen
    have hCon : ∀ o ∈ a.2, ∀ o' ∈ a.2, Connected C o o' := by
      intro o ho o' ho'
      obtain ⟨i, hi, hio⟩ := h2 o ho
      obtain ⟨j, hj, hjo⟩ := h2 o' ho'
      exact numbered_connected hI.num hI.inj
        (hI.cc.conn i j (((hmemc c hc i).1 hi).2.trans ((hmemc c hc j).1 hj).2.symm))
        ((hrg _ _).1 hio) ((hrg _ _).1 hjo)
    refine ⟨h1, ?_, Nat.le_trans h4 (hcap c hc), ?_, hCon⟩
    · -- the reconstruction accepted the track, so it has two observations
      by_contra hlt
      have hT := hadd.new a ha
      obtain ⟨i, j, hij, hi, hj⟩ : ∃ i j, i ≠ j ∧ i ∈ c.2 ∧ j ∈ c.2 := by
        have hn := hnd c hc
        match hc2 : c.2, hlen, hn with
        | [], hlen, _ => simp at hlen; omega
        | [x], hlen, _ => simp at hlen; omega
        | x :: y :: l, _, hn =>
          refine ⟨x, y, ?_, by simp, by simp⟩
          rw [List.nodup_cons] at hn
          exact fun h => hn.1 (by simp [h])
      have hi' := (hmemc c hc i).1 hi
      have hj' := (hmemc c hc j).1 hj
      have hcon := hI.cc.connIn i j (hi'.2.trans hj'.2.symm)
      cases hcon with
      | refl => exact absurd rfl hij
      | step _ hadj =>
        rename_i k _
        have key : ∃ e ∈ E, rep e.1 = rep e.2 ∧ rep e.1 = c.1 := by
          rcases hadj with h | h
          all_goals
            have hm := List.mem_filter.1 h
            simp only [decide_eq_true_eq] at hm
          · exact ⟨_, hm.1, hm.2, hm.2.trans hj'.2⟩
          · exact ⟨_, hm.1, hm.2, hj'.2⟩
        obtain ⟨e, he, k1, k2⟩ := key
        obtain ⟨cc, hcc, g1, g2⟩ := (numbered_mem hI.num).1 e he
        have m1 := h3 e.1 ((hmemc c hc _).2 ⟨⟨e, he, Or.inl rfl⟩, k2⟩) _ ((hrg _ _).2 g1)
        have m2 := h3 e.2 ((hmemc c hc _).2 ⟨⟨e, he, Or.inr rfl⟩, k1.symm.trans k2⟩) _ ((hrg _ _).2 g2)
        have : [cc.1.1, cc.2.1].length ≤ (a.2.map (·.1)).length := by
          apply List.Nodup.length_le_of_subset (by simpa using hne cc hcc)
          intro x hx
          simp only [List.mem_cons, List.not_mem_nil, or_false] at hx
          rcases hx with rfl | rfl
          · exact m1
          · exact m2
        simp at this
        omega
    · intro o ho
      obtain ⟨i, hi, hio⟩ := h2 o ho
      obtain ⟨o', ho', hn⟩ := hfeat i ((hmemc c hc i).1 hi).1
      rw [hio] at ho'; cases ho'; exact hn
  · have hkp : comps.entries.Pairwise (fun e f => e.1 ≠ f.1) := List.pairwise_map.1 hcol.1
    have hdisj : comps.entries.Pairwise (fun e f => ∀ i ∈ e.2, i ∉ f.2) := by
      refine List.Pairwise.imp_of_mem ?_ hkp
      intro e f he hf hef i hi hi'
      exact hef (((hmemc e he i).1 hi).2.symm.trans ((hmemc f hf i).1 hi').2)
    refine forall₂_pairwise ?_ hrel (List.Pairwise.filter _ hdisj)
    intro c a c' a' h h' hd o ho ho'
    obtain ⟨i, hi, hio⟩ := h.2.1 o ho
    obtain ⟨j, hj, hjo⟩ := h'.2.1 o ho'
    have h1 := (hrg _ _).1 hio
    have h2 := (hrg _ _).1 hjo
    rw [h1] at h2
    cases h2
    exact hd i hi hj
  · rintro ⟨nodes, hnl, hnodes⟩ cls hcn hcl hclsN hcls
    -- with at most `maxL` features no merge is refused
    have hcomplete : ∀ e ∈ E, rep e.1 = rep e.2 := by
      apply hI.complete
      rw [hI.count]
      refine Nat.le_trans ?_ hnl
      exact List.Nodup.length_le_of_subset hI.wf (fun o ho => hnodes o ((hI.keys o).1 ho))
    -- the numbers of the class
    have hid : ∀ o, IsNode C o → ∃ i, b.features.get o = some i ∧ IsNode E i := by
      rintro o ⟨c, hc, h⟩
      obtain ⟨e, he, h1, h2⟩ := (numbered_mem hI.num).2 c hc
      rcases h with rfl | rfl
      · exact ⟨e.1, h1, e, he, Or.inl rfl⟩
      · exact ⟨e.2, h2, e, he, Or.inr rfl⟩
    have hrepC : ∀ o o', Connected C o o' → ∀ i j, b.features.get o = some i →
        b.features.get o' = some j → rep i = rep j := by
      intro o o' h
      induction h with
      | refl => intro i j hi hj; rw [hi] at hj; cases hj; rfl
      | step _ hadj ih =>
        intro i j hi hj
        rcases hadj with h | h
        · obtain ⟨e, he, h1, h2⟩ := (numbered_mem hI.num).2 _ h
          have : j = e.2 := by rw [h2] at hj; exact (Option.some.inj hj).symm
          rw [this, ← hcomplete e he]
          exact ih i e.1 hi h1
        · obtain ⟨e, he, h1, h2⟩ := (numbered_mem hI.num).2 _ h
          have : j = e.1 := by rw [h1] at hj; exact (Option.some.inj hj).symm
          rw [this, hcomplete e he]
          exact ih i e.2 hi h2
    obtain ⟨o0, ho0⟩ : ∃ o, o ∈ cls := by
      cases cls with
      | nil => simp at hcl; omega
      | cons o _ => exact ⟨o, by simp⟩
    obtain ⟨i0, hi0, hn0⟩ := hid o0 (hclsN o0 ho0)
    obtain ⟨l, hl⟩ := AMap.mem_keys_iff.1 ((hcol.2.1 (rep i0)).2 ⟨i0, (hI.cc.keys i0).2 hn0, rfl⟩)
    have hle := AMap.mem_entries_of_get hl
    have hin : ∀ o ∈ cls, ∃ i ∈ l, b.features.get o = some i := by
      intro o ho
      obtain ⟨i, hi, hn⟩ := hid o (hclsN o ho)
      refine ⟨i, (hmemc (rep i0, l) hle i).2 ⟨hn, ?_⟩, hi⟩
      exact hrepC o o0 (hcls o ho o0 ho0) i i0 hi hi0
    have hlen : minL ≤ l.length := by
      refine Nat.le_trans hcl ?_
      have hsub : (cls.map some) ⊆ l.map rev.get := by
        intro x hx
        obtain ⟨o, ho, rfl⟩ := List.mem_map.1 hx
        obtain ⟨i, hi, hio⟩ := hin o ho
        exact List.mem_map.2 ⟨i, hi, (hrg _ _).2 hio⟩
      have hmn : (cls.map some).Nodup := by
        rw [List.Nodup, List.pairwise_map]
        exact List.Pairwise.imp (fun h h' => h (Option.some.inj h')) hcn
      have := List.Nodup.length_le_of_subset hmn hsub
      simpa using this
    obtain ⟨a, ha, h1, h2, h3, h4⟩ := (hmems hrel).2 (rep i0, l)
      (List.mem_filter.2 ⟨hle, by simpa using hlen⟩)
    refine ⟨a, ha, fun o ho => ?_⟩
    obtain ⟨i, hi, hio⟩ := hin o ho
    refine ⟨h3 i hi o ((hrg _ _).2 hio), ?_⟩
    intro x hx
    obtain ⟨j, hj, hjx⟩ := h2 x hx
    exact numbered_connected hI.num hI.inj
      (hI.cc.conn j i (((hmemc _ hle j).1 hj).2.trans ((hmemc _ hle i).1 hi).2.symm))
      ((hrg _ _).1 hjx) hio

/-- C16: for `min_track_length >= 2`, any positive `max_track_length` and any sequence of
correspondences between different views that all exist in the reconstruction, neither
`AddFeatureCorrespondence` nor `BuildTracks` aborts; what `BuildTracks` does is add tracks; each of
them has at most one feature per view, at least two and at most `max_track_length` features, all of
which occur in correspondences and are linked by them; and no feature is in two of the tracks. -/
theorem C16_tracks_consistent (minL maxL : Nat) (hmin : 2 ≤ minL) (hmax : 0 < maxL)
    (C : List ((ViewId × F) × (ViewId × F))) (hne : ∀ c ∈ C, c.1.1 ≠ c.2.1)
    (r : Reconstruction F P) (hr : r.Reachable)
    (hviews : ∀ o, IsNode C o → ∃ V, r.view o.1 = some V) (p : P) :
    ∃ b0 b r' added, TrackBuilder.create minL maxL = .ok b0 ∧ b0.addAll C = .ok b ∧
      b.buildTracks p r = .ok r' ∧ TracksAdded r p added r' ∧
      (∀ a ∈ added, (a.2.map (·.1)).Nodup ∧ 2 ≤ a.2.length ∧ a.2.length ≤ maxL ∧
        (∀ o ∈ a.2, IsNode C o) ∧ ∀ o ∈ a.2, ∀ o' ∈ a.2, Connected C o o') ∧
      added.Pairwise (fun a a' => ∀ o ∈ a.2, o ∉ a'.2) := by
  obtain ⟨b0, b, r', added, h1, h2, h3, h4, h5, h6, _⟩ :=
    track_builder_main minL maxL hmin hmax C hne r hr hviews p
  exact ⟨b0, b, r', added, h1, h2, h3, h4, h5, h6⟩

/-- C16, nothing is lost: if there are no more features than `max_track_length`, then for every set
of at least `min_track_length` features linked by correspondences one of the added tracks consists of features
linked to them and has a feature in every view of the set. -/
theorem C16_tracks_complete (minL maxL : Nat) (hmin : 2 ≤ minL) (hmax : 0 < maxL)
    (C : List ((ViewId × F) × (ViewId × F))) (hne : ∀ c ∈ C, c.1.1 ≠ c.2.1)
    (r : Reconstruction F P) (hr : r.Reachable)
    (hviews : ∀ o, IsNode C o → ∃ V, r.view o.1 = some V) (p : P)
    (nodes : List (ViewId × F)) (hlen : nodes.length ≤ maxL) (hnodes : ∀ o, IsNode C o → o ∈ nodes) :
    ∃ b0 b r' added, TrackBuilder.create minL maxL = .ok b0 ∧ b0.addAll C = .ok b ∧
      b.buildTracks p r = .ok r' ∧ TracksAdded r p added r' ∧
      ∀ cls : List (ViewId × F), cls.Nodup → minL ≤ cls.length → (∀ o ∈ cls, IsNode C o) →
          (∀ o ∈ cls, ∀ o' ∈ cls, Connected C o o') →
          ∃ a ∈ added, ∀ o ∈ cls, o.1 ∈ a.2.map (·.1) ∧ ∀ x ∈ a.2, Connected C x o := by
  obtain ⟨b0, b, r', added, h1, h2, h3, h4, _, _, h7⟩ :=
    track_builder_main minL maxL hmin hmax C hne r hr hviews p
  exact ⟨b0, b, r', added, h1, h2, h3, h4, h7 ⟨nodes, hlen, hnodes⟩⟩

/-- A correspondence inside one view aborts. -/
theorem C16_same_view_aborts (b : TrackBuilder F) (v : ViewId) (f f' : F) :
    b.addCorrespondence (v, f) (v, f') = .abort := by
  simp [addCorrespondence]

/-- A reconstruction with three views. -/
def threeViews : Reconstruction Nat Unit :=
  match Reconstruction.run (Reconstruction.empty : Reconstruction Nat Unit)
    [.addView "a", .addView "b", .addView "c"] with
  | .ok (_, r) => r
  | _ => Reconstruction.empty

theorem threeViews_reachable : threeViews.Reachable :=
  ⟨[.addView "a", .addView "b", .addView "c"], [.viewId (some 0), .viewId (some 1), .viewId (some 2)],
    rfl⟩

/-- Two tracks over three views satisfy the hypotheses of C16, and building them succeeds. -/
example : (∃ r' b, ((⟨.empty, 0, 2, ⟨100, .empty⟩⟩ : TrackBuilder Nat).addAll
      [((0, 10), (1, 20)), ((1, 20), (2, 30)), ((0, 11), (2, 31))]) = .ok b ∧
      b.buildTracks () threeViews = .ok r' ∧ r'.track 0 = some ⟨false, (), [0, 1, 2]⟩ ∧
      r'.track 1 = some ⟨false, (), [0, 2]⟩) ∧
    (∀ v ∈ [0, 1, 2], (threeViews.view v).isSome = true) :=
  ⟨⟨_, _, rfl, rfl, rfl, rfl⟩, by decide⟩

/-- C16: a built track can be shorter than `min_track_length`, because features of a view that is
already in the track are dropped after the length test. -/
theorem C16_track_shorter_than_minimum_counterexample :
    ∃ b r' : _, ((⟨.empty, 0, 3, ⟨100, .empty⟩⟩ : TrackBuilder Nat).addAll
      [((0, 1), (1, 1)), ((1, 1), (0, 2))]) = .ok b ∧ b.buildTracks () threeViews = .ok r' ∧
      r'.track 0 = some ⟨false, (), [0, 1]⟩ :=
  ⟨_, _, rfl, rfl, rfl⟩

/-- C16: with `min_track_length = 1` and `max_track_length = 1`, `BuildTracks` aborts on a single
correspondence. -/
theorem C16_minimum_one_aborts_counterexample :
    ∃ b : _, ((⟨.empty, 0, 1, ⟨1, .empty⟩⟩ : TrackBuilder Nat).addAll
      [((0, 1), (1, 1))]) = .ok b ∧ b.buildTracks () threeViews = .abort :=
  ⟨_, rfl, rfl⟩

end Theia
