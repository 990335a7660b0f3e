import Verif.Proof.Undistort

/-! # Lemmas on undistorting a reconstruction -/

namespace Theia
namespace Undistort

open CameraModels Spec

variable {P : Type}

theorem _root_.Theia.Spec.Without.refl (r : Reconstruction V2 P) : Without (fun _ _ => False) r r where
  views := fun _ => rfl
  kept := fun _ _ _ => rfl
  lost := fun _ _ h => h.elim
  track := fun t T' h => ⟨T', h, rfl, rfl, by simp⟩
  gone := fun t T h => by simp [h]

theorem _root_.Theia.Spec.Without.trans {S1 S2 : Nat → Nat → Prop} {r r1 r2 : Reconstruction V2 P} (h1 : Without S1 r r1) (h2 : Without S2 r1 r2) :
    Without (fun v t => S1 v t ∨ S2 v t) r r2 where
  views := fun v => (h2.views v).trans (h1.views v)
  kept := fun v t h => by
    rw [h2.kept v t (fun x => h (Or.inr x)), h1.kept v t (fun x => h (Or.inl x))]
  lost := fun v t h => by
    by_cases hs : S2 v t
    · exact h2.lost v t hs
    · rw [h2.kept v t hs, h1.lost v t (h.resolve_right hs)]
  track := fun t T' h => by
    obtain ⟨T1, a1, a2, a3, a4⟩ := h2.track t T' h
    obtain ⟨T, b1, b2, b3, b4⟩ := h1.track t T1 a1
    refine ⟨T, b1, a2.trans b2, a3.trans b3, fun v => ?_⟩
    rw [a4, b4]; tauto
  gone := fun t T h => by
    constructor
    · intro hn
      cases h1t : r1.track t with
      | none =>
        obtain ⟨⟨v, hv⟩, hall⟩ := (h1.gone t T h).1 h1t
        exact ⟨⟨v, Or.inl hv⟩, fun w hw => Or.inl (hall w hw)⟩
      | some T1 =>
        obtain ⟨⟨v, hv⟩, hall⟩ := (h2.gone t T1 h1t).1 hn
        obtain ⟨T0, b1, -, -, b4⟩ := h1.track t T1 h1t
        rw [h] at b1; cases b1
        refine ⟨⟨v, Or.inr hv⟩, fun w hw => ?_⟩
        by_cases hs : S1 w t
        · exact Or.inl hs
        · exact Or.inr (hall w ((b4 w).2 ⟨hw, hs⟩))
    · rintro ⟨⟨v, hv⟩, hall⟩
      cases h1t : r1.track t with
      | none =>
        cases h2t : r2.track t with
        | none => rfl
        | some T2 =>
          obtain ⟨T1, a1, -⟩ := h2.track t T2 h2t
          rw [h1t] at a1; cases a1
      | some T1 =>
        obtain ⟨T0, b1, -, -, b4⟩ := h1.track t T1 h1t
        rw [h] at b1; cases b1
        rw [h2.gone t T1 h1t]
        have hall' : ∀ w ∈ T1.views, S2 w t := fun w hw => (hall w ((b4 w).1 hw).1).resolve_left ((b4 w).1 hw).2
        refine ⟨?_, hall'⟩
        by_contra hno
        push Not at hno
        have : ∃ v, S1 v t := ⟨v, hv.resolve_right (hno v)⟩
        have hn : r1.track t = none := (h1.gone t T h).2 ⟨this, fun w hw => (hall w hw).resolve_right (hno w)⟩
        rw [h1t] at hn; cases hn

theorem _root_.Theia.Spec.Without.congr {S S' : Nat → Nat → Prop} {r r' : Reconstruction V2 P} (h : Without S r r') (e : ∀ v t, S v t ↔ S' v t) :
    Without S' r r' := by
  have : S = S' := by funext v t; exact propext (e v t)
  rwa [← this]

/-- Removing one observation. -/
theorem without_one {r : Reconstruction V2 P} {v t : Nat} {V : View V2} {T : Track P} (hV : r.views.get v = some V)
    (hT : r.tracks.get t = some T) :
    Without (fun w u => w = v ∧ u = t) r
      (let r2 : Reconstruction V2 P := { r with
          views := r.views.insert v { V with features := V.features.erase t },
          tracks := r.tracks.insert t (T.removeView v).2 }
        if (T.removeView v).2.views.length = 0 then (r2.removeTrack t).2 else r2) := by
  have hrem : ∀ r2 : Reconstruction V2 P, r2.tracks.get t = some (T.removeView v).2 → (T.removeView v).2.views.length = 0 →
      (r2.removeTrack t).2 = { r2 with tracks := r2.tracks.erase t } := by
    intro r2 h hl
    have hnil : (T.removeView v).2.views = [] := List.length_eq_zero_iff.1 hl
    simp only [Reconstruction.removeTrack, h, hnil, Reconstruction.removeTrackLoop, if_true]
  have hviews : ∀ w, ((r.views.insert v { V with features := V.features.erase t }).get w).map
      (fun V => (V.name, V.estimated, V.intrinsics)) = (r.views.get w).map (fun V => (V.name, V.estimated, V.intrinsics)) := by
    intro w
    rw [AMap.get_insert]
    split
    · rename_i h; subst h; rw [hV]; rfl
    · rfl
  have hfeat : ∀ (tracks : AMap TrackId (Track P)) w u, featureOf { r with
      views := r.views.insert v { V with features := V.features.erase t }, tracks := tracks } w u =
      if w = v ∧ u = t then none else featureOf r w u := by
    intro tracks w u
    simp only [featureOf, Reconstruction.view, View.getFeature]
    rw [AMap.get_insert]
    by_cases hw : w = v
    · subst hw
      rw [if_pos rfl, hV]
      simp only [AMap.get_erase, true_and]
    · rw [if_neg hw]; simp [hw]
  have hmem : ∀ w, w ∈ (T.removeView v).2.views ↔ w ∈ T.views ∧ ¬ (w = v ∧ t = t) := by
    intro w; simp [Track.removeView]
  by_cases hl : (T.removeView v).2.views.length = 0
  · simp only [hl, if_true]
    rw [hrem _ (AMap.get_insert_self _ _ _) hl]
    refine ⟨hviews, ?_, ?_, ?_, ?_⟩
    · intro w u h; rw [hfeat, if_neg h]
    · intro w u h; rw [hfeat, if_pos h]
    · intro u T' h
      simp only [Reconstruction.track, AMap.get_erase] at h
      by_cases hu : u = t
      · rw [if_pos hu] at h; cases h
      · rw [if_neg hu, AMap.get_insert_ne _ _ hu] at h
        exact ⟨T', h, rfl, rfl, by simp [hu]⟩
    · intro u U hU
      simp only [Reconstruction.track, AMap.get_erase] at hU ⊢
      by_cases hu : u = t
      · subst hu
        rw [hT] at hU; cases hU
        rw [if_pos rfl]
        have hnil : (T.removeView v).2.views = [] := List.length_eq_zero_iff.1 hl
        refine ⟨fun _ => ⟨⟨v, rfl, rfl⟩, fun w hw => ?_⟩, fun _ => rfl⟩
        by_contra hne
        have := (hmem w).2 ⟨hw, hne⟩
        rw [hnil] at this; cases this
      · rw [if_neg hu, AMap.get_insert_ne _ _ hu, hU]
        simp [hu]
  · simp only [hl, if_false]
    refine ⟨hviews, ?_, ?_, ?_, ?_⟩
    · intro w u h; rw [hfeat, if_neg h]
    · intro w u h; rw [hfeat, if_pos h]
    · intro u T' h
      simp only [Reconstruction.track] at h
      by_cases hu : u = t
      · subst hu
        rw [AMap.get_insert_self] at h; cases h
        exact ⟨T, hT, rfl, rfl, hmem⟩
      · rw [AMap.get_insert_ne _ _ hu] at h
        exact ⟨T', h, rfl, rfl, by simp [hu]⟩
    · intro u U hU
      simp only [Reconstruction.track] at hU ⊢
      by_cases hu : u = t
      · subst hu
        rw [hT] at hU; cases hU
        rw [AMap.get_insert_self]
        constructor
        · intro h; cases h
        rintro ⟨-, hall⟩
        exfalso; apply hl
        rw [List.length_eq_zero_iff, List.eq_nil_iff_forall_not_mem]
        intro w hw
        exact ((hmem w).1 hw).2 (hall w ((hmem w).1 hw).1)
      · rw [AMap.get_insert_ne _ _ hu, hU]
        simp [hu]

/-- Taking a feature out and putting it back. -/
theorem without_none {r : Reconstruction V2 P} {v t : Nat} {V : View V2} {f : V2} (hV : r.views.get v = some V)
    (hf : V.features.get t = some f) :
    Without (fun _ _ => False) r { r with
      views := (r.views.insert v { V with features := V.features.erase t }).insert v
        { V with features := (V.features.erase t).insert t f } } := by
  have hget : ∀ w, ((r.views.insert v { V with features := V.features.erase t }).insert v
        { V with features := (V.features.erase t).insert t f }).get w =
      if w = v then some { V with features := (V.features.erase t).insert t f } else r.views.get w := by
    intro w
    rw [AMap.get_insert]
    by_cases hw : w = v
    · rw [if_pos hw, if_pos hw]
    · rw [if_neg hw, if_neg hw, AMap.get_insert_ne _ _ hw]
  refine ⟨?_, ?_, fun _ _ h => h.elim, fun t T' h => ⟨T', h, rfl, rfl, by simp⟩, fun t T h => ?_⟩
  · intro w
    simp only [Reconstruction.view, hget]
    split
    · rename_i h; subst h; rw [hV]; rfl
    · rfl
  · intro w u _
    simp only [featureOf, Reconstruction.view, View.getFeature, hget]
    by_cases hw : w = v
    · subst hw
      rw [if_pos rfl, hV]
      simp only [AMap.get_insert, AMap.get_erase]
      by_cases hu : u = t
      · subst hu; simp [hf]
      · simp [hu]
    · rw [if_neg hw]
  · simp only [Reconstruction.track] at h ⊢
    simp [h]

theorem outside_iff (size : Nat × Nat) (f : V2) : outside size f = true ↔ ¬ InsideImage size f := by
  simp only [outside, InsideImage, Bool.or_eq_true, decide_eq_true_eq, not_and_or, not_le]
  tauto

/-- The observation of a track in the view `v` is lost, judged in `r`. -/
def LostNow (r : Reconstruction V2 P) (size : Nat × Nat) (v t : Nat) : Prop :=
  ∃ T f, r.track t = some T ∧ T.estimated = true ∧ featureOf r v t = some f ∧ ¬ InsideImage size f

/-- The loop over the features removes exactly the lost observations. -/
theorem featureLoop_without {eps : ℝ} {d u : Intrinsics} (hid : ∀ p, remap eps d u p = .ok p) (size : Nat × Nat) (v : Nat)
    (ts : List Nat) (r : Reconstruction V2 P) (hnd : ts.Nodup) (hts : ∀ t ∈ ts, ∃ f, featureOf r v t = some f) :
    ∃ r', featureLoop eps d u size v ts r = .ok r' ∧ Without (fun w t => w = v ∧ t ∈ ts ∧ LostNow r size v t) r r' ∧
      ∀ w, w ≠ v → r'.view w = r.view w := by
  induction ts generalizing r with
  | nil => exact ⟨r, rfl, (Without.refl r).congr (by simp), fun _ _ => rfl⟩
  | cons t ts ih =>
    rw [List.nodup_cons] at hnd
    -- the step
    have key : ∃ r1, featureLoop eps d u size v (t :: ts) r = featureLoop eps d u size v ts r1 ∧
        Without (fun w u => w = v ∧ u = t ∧ LostNow r size v t) r r1 ∧ ∀ w, w ≠ v → r1.view w = r.view w := by
      rw [featureLoop]
      cases hT : r.tracks.get t with
      | none =>
        refine ⟨r, rfl, (Without.refl r).congr ?_, fun _ _ => rfl⟩
        rintro w u
        simp [LostNow, Reconstruction.track, hT]
      | some T =>
        by_cases hest : T.estimated = true
        · simp only [hest, Bool.not_true, Bool.false_eq_true, if_false]
          obtain ⟨f, hf⟩ := hts t (by simp)
          have hf' := hf
          simp only [featureOf, Reconstruction.view] at hf
          cases hV : r.views.get v with
          | none => rw [hV] at hf; cases hf
          | some V =>
            rw [hV] at hf
            simp only [View.getFeature] at hf
            simp only [hf, hid, Outcome.ok_bind]
            by_cases ho : outside size f = true
            · have hl : LostNow r size v t := ⟨T, f, hT, hest, hf', (outside_iff _ _).1 ho⟩
              have hw := without_one hV hT
              simp only [ho, if_true]
              by_cases hlen : (T.removeView v).2.views.length = 0
              · simp only [hlen, if_true] at hw ⊢
                refine ⟨_, rfl, hw.congr (by simp [hl]), fun w hwv => ?_⟩
                have hnil : (T.removeView v).2.views = [] := List.length_eq_zero_iff.1 hlen
                simp only [Reconstruction.view, Reconstruction.removeTrack, AMap.get_insert_self, hnil,
                  Reconstruction.removeTrackLoop, if_true]
                rw [AMap.get_insert_ne _ _ hwv]
              · simp only [hlen, if_false] at hw ⊢
                refine ⟨_, rfl, hw.congr (by simp [hl]), fun w hwv => ?_⟩
                simp only [Reconstruction.view]
                rw [AMap.get_insert_ne _ _ hwv]
            · simp only [ho, if_false, Bool.false_eq_true]
              refine ⟨_, rfl, (without_none hV hf).congr ?_, fun w hwv => by
                simp only [Reconstruction.view]
                rw [AMap.get_insert_ne _ _ hwv, AMap.get_insert_ne _ _ hwv]⟩
              rintro w u
              simp only [false_iff, not_and]
              rintro - - ⟨T2, f2, h1, h2, h3, h4⟩
              rw [hf'] at h3; cases h3
              exact ho ((outside_iff _ _).2 h4)
        · simp only [hest, Bool.not_false, if_true]
          refine ⟨r, rfl, (Without.refl r).congr ?_, fun _ _ => rfl⟩
          rintro w u
          simp only [false_iff, not_and]
          rintro - - ⟨T2, f2, h1, h2, h3, h4⟩
          rw [Reconstruction.track, hT] at h1; cases h1
          exact hest h2
    obtain ⟨r1, e1, w1, o1⟩ := key
    have hne : ∀ x ∈ ts, x ≠ t := fun x hx e => hnd.1 (e ▸ hx)
    have hfe : ∀ x ∈ ts, featureOf r1 v x = featureOf r v x := fun x hx => w1.kept v x (fun h => hne x hx h.2.1)
    obtain ⟨r', e2, w2, o2⟩ := ih r1 hnd.2 (fun x hx => by rw [hfe x hx]; exact hts x (by simp [hx]))
    refine ⟨r', e1.trans e2, (w1.trans w2).congr ?_, fun w hw => (o2 w hw).trans (o1 w hw)⟩
    intro w x
    -- being lost is the same before and after the step
    have hlost : x ∈ ts → (LostNow r1 size v x ↔ LostNow r size v x) := by
      intro hx
      unfold LostNow
      rw [hfe x hx]
      constructor
      · rintro ⟨T, f, h1, h2, h3, h4⟩
        obtain ⟨T0, a1, a2, -⟩ := w1.track x T h1
        exact ⟨T0, f, a1, a2 ▸ h2, h3, h4⟩
      · rintro ⟨T, f, h1, h2, h3, h4⟩
        cases ht : r1.track x with
        | none =>
          obtain ⟨⟨y, hy⟩, -⟩ := (w1.gone x T h1).1 ht
          exact absurd hy.2.1 (hne x hx)
        | some T1 =>
          obtain ⟨T0, a1, a2, -⟩ := w1.track x T1 ht
          rw [h1] at a1; cases a1
          exact ⟨T1, f, rfl, a2.trans h2, h3, h4⟩
    constructor
    · rintro (⟨rfl, rfl, h⟩ | ⟨rfl, hx, h⟩)
      · exact ⟨rfl, by simp, h⟩
      · exact ⟨rfl, by simp [hx], (hlost hx).1 h⟩
    · rintro ⟨rfl, hx, h⟩
      rcases List.mem_cons.1 hx with rfl | hx
      · exact Or.inl ⟨rfl, rfl, h⟩
      · exact Or.inr ⟨rfl, hx, (hlost hx).2 h⟩

/-- What a successful call of `undistortCamera` leaves behind. -/
theorem camera_ok {eps big : ℝ} {heap heap' : Heap} {cam cam' : Camera} (h : undistortCamera eps big heap cam = .ok (heap', cam')) :
    ∃ m px py, heap cam.intrinsics = some m ∧ cam'.intrinsics = cam.intrinsics ∧
      heap' = heap.set cam.intrinsics ⟨{ m.calibration with px := px, py := py }, m.lens.zero⟩ := by
  unfold undistortCamera at h
  simp only [Outcome.bind_eq_ok] at h
  obtain ⟨m, hm, d, hd, u, hu, ⟨l, r⟩, -, ⟨t, b⟩, -, sx, -, sy, -, w, -, hh, -, px, -, py, -, e⟩ := h
  simp only [Outcome.ok.injEq, Prod.mk.injEq] at e
  obtain ⟨rfl, rfl⟩ := e
  have hm' : heap cam.intrinsics = some m := by
    unfold Heap.look at hm
    cases hq : heap cam.intrinsics with
    | none => rw [hq] at hm; cases hm
    | some m0 => rw [hq] at hm; simp only [Outcome.ok.injEq] at hm; rw [hm]
  have hu' : u = ⟨m.calibration, m.lens.zero⟩ := by
    simp only [Heap.look, Heap.set, if_true, Outcome.ok.injEq] at hu
    exact hu.symm
  refine ⟨m, px, py, hm', rfl, ?_⟩
  subst hu'
  funext i
  simp only [Heap.set]
  split <;> rfl

/-- All cameras in memory are usable and not fisheye cameras. -/
def GoodHeap (h : Heap) : Prop := ∀ q m, h q = some m → NotFisheye m.lens ∧ Usable m.calibration

theorem agreeing_without {S : Nat → Nat → Prop} {r r' : Reconstruction V2 P} (hl : Agreeing r) (h : Without S r r') : Agreeing r' := by
  intro v t
  constructor
  · rintro ⟨f, hf⟩
    have hS : ¬ S v t := fun hS => by rw [h.lost v t hS] at hf; cases hf
    rw [h.kept v t hS] at hf
    obtain ⟨T, hT, hv⟩ := (hl v t).1 ⟨f, hf⟩
    cases ht : r'.track t with
    | none => exact absurd (((h.gone t T hT).1 ht).2 v hv) hS
    | some T' =>
      obtain ⟨T0, a1, -, -, a4⟩ := h.track t T' ht
      rw [hT] at a1; cases a1
      exact ⟨T', ht, (a4 v).2 ⟨hv, hS⟩⟩
  · rintro ⟨T', hT', hv⟩
    obtain ⟨T, a1, -, -, a4⟩ := h.track t T' hT'
    obtain ⟨hv, hS⟩ := (a4 v).1 hv
    rw [h.kept v t hS]
    exact (hl v t).2 ⟨T, a1, hv⟩

theorem featureOf_mem {r : Reconstruction V2 P} {v : Nat} {V : View V2} (hV : r.view v = some V) (t : Nat) :
    (∃ f, featureOf r v t = some f) ↔ t ∈ V.features.keys := by
  unfold featureOf
  rw [hV]
  simp only [View.getFeature]
  exact AMap.mem_keys_iff.symm

/-- The loop over the views. -/
theorem viewLoop_without {eps big : ℝ} (he : 0 < eps) {order : List Nat → List Nat} (ho : ∀ l, (order l).Perm l)
    (vs : List Nat) (s s' : Scene P) (hnd : vs.Nodup) (hwf : ∀ v V, v ∈ vs → s.recon.view v = some V → V.features.WF)
    (hl : Agreeing s.recon) (hg : GoodHeap s.heap) (h : viewLoop eps big order vs s = .ok s') :
    Without (fun v t => v ∈ vs ∧ Lost s.recon s'.size v t) s.recon s'.recon ∧
      (∀ v, v ∉ vs → s'.size v = s.size v) ∧
      (∀ v V, s.recon.view v = some V → V.estimated = false → s'.size v = s.size v) ∧
      (∀ v V, v ∈ vs → s.recon.view v = some V → V.estimated = true → ∃ m, s'.heap V.intrinsics = some m ∧ m.lens.zero = m.lens) ∧
      GoodHeap s'.heap ∧
      (∀ q m, s.heap q = some m → m.lens.zero = m.lens → ∃ m', s'.heap q = some m' ∧ m'.lens.zero = m'.lens) := by
  induction vs generalizing s with
  | nil =>
    simp only [viewLoop, Outcome.ok.injEq] at h
    subst h
    exact ⟨(Without.refl _).congr (by simp), fun _ _ => rfl, fun _ _ _ _ => rfl, by simp, hg, fun q m h1 h2 => ⟨m, h1, h2⟩⟩
  | cons v vs ih =>
    rw [List.nodup_cons] at hnd
    rw [viewLoop] at h
    have skip : viewLoop eps big order vs s = .ok s' → (∀ size t, ¬ Lost s.recon size v t) →
        (∀ V, s.recon.view v = some V → V.estimated = false) →
      Without (fun w t => w ∈ v :: vs ∧ Lost s.recon s'.size w t) s.recon s'.recon ∧
      (∀ w, w ∉ v :: vs → s'.size w = s.size w) ∧
      (∀ v V, s.recon.view v = some V → V.estimated = false → s'.size v = s.size v) ∧
      (∀ w V, w ∈ v :: vs → s.recon.view w = some V → V.estimated = true → ∃ m, s'.heap V.intrinsics = some m ∧ m.lens.zero = m.lens) ∧
      GoodHeap s'.heap ∧
      (∀ q m, s.heap q = some m → m.lens.zero = m.lens → ∃ m', s'.heap q = some m' ∧ m'.lens.zero = m'.lens) := by
      intro h hno hest
      obtain ⟨a1, a2, a3, a4, a5, a6⟩ := ih s hnd.2 (fun w V hw => hwf w V (by simp [hw])) hl hg h
      refine ⟨a1.congr ?_, fun w hw => a2 w (fun hx => hw (by simp [hx])), a3, ?_, a5, a6⟩
      · intro w t
        constructor
        · rintro ⟨hw, hL⟩; exact ⟨by simp [hw], hL⟩
        · rintro ⟨hw, hL⟩
          rcases List.mem_cons.1 hw with rfl | hw
          · exact absurd hL (hno _ _)
          · exact ⟨hw, hL⟩
      · intro w V hw hV hE
        rcases List.mem_cons.1 hw with rfl | hw
        · rw [hest V hV] at hE; cases hE
        · exact a4 w V hw hV hE
    cases hV : s.recon.views.get v with
    | none =>
      rw [hV] at h
      refine skip h ?_ ?_
      · rintro size t ⟨V, T, f, h1, -⟩
        rw [Reconstruction.view, hV] at h1; cases h1
      · intro V h1; rw [Reconstruction.view, hV] at h1; cases h1
    | some V =>
      rw [hV] at h
      by_cases hest : V.estimated = true
      · simp only [hest, Bool.not_true, Bool.false_eq_true, if_false, Outcome.bind_eq_ok] at h
        obtain ⟨⟨heap, cam⟩, hcam, d, hd, u, hu, recon, hrec, h⟩ := h
        obtain ⟨m, px, py, hm, hq, hheap⟩ := camera_ok hcam
        simp only at hm hq hheap
        obtain ⟨hml, hmc⟩ := hg _ m hm
        have hlook : heap.look V.intrinsics = .ok ⟨{ m.calibration with px := px, py := py }, m.lens.zero⟩ := by
          rw [hheap]; simp [Heap.look, Heap.set]
        rw [hlook] at hd
        simp only [hq] at hu
        rw [hlook] at hu
        simp only [Outcome.ok.injEq] at hd hu
        subst hd hu
        have hid : ∀ p, remap eps ⟨{ m.calibration with px := px, py := py }, m.lens.zero⟩
            ⟨{ m.calibration with px := px, py := py }, m.lens.zero⟩ p = .ok p :=
          remap_self he (c := { m.calibration with px := px, py := py }) hmc hml
        have hmem : ∀ t, t ∈ order V.features.keys ↔ ∃ f, featureOf s.recon v t = some f := by
          intro t; rw [(ho _).mem_iff, featureOf_mem (V := V) hV]
        obtain ⟨r1, e1, w1, o1⟩ := featureLoop_without hid (cam.width, cam.height) v (order V.features.keys) s.recon
          ((ho _).nodup_iff.2 (hwf v V (by simp) hV)) (fun t ht => (hmem t).1 ht)
        rw [e1] at hrec
        simp only [Outcome.ok.injEq] at hrec
        subst hrec
        have hg1 : GoodHeap heap := by
          intro q m' hm'
          rw [hheap] at hm'
          simp only [Heap.set] at hm'
          split at hm'
          · simp only [Option.some.injEq] at hm'
            subst hm'
            exact ⟨zero_notFisheye hml, hmc⟩
          · exact hg q m' hm'
        have hvne : ∀ w ∈ vs, w ≠ v := fun w hw e => hnd.1 (e ▸ hw)
        obtain ⟨a1, a2, a3, a4, a5, a6⟩ := ih ⟨r1, heap, fun w => if w = v then (cam.width, cam.height) else s.size w⟩ hnd.2
          (fun w W hw hW => hwf w W (by simp [hw]) (by rw [← o1 w (hvne w hw)]; exact hW)) (agreeing_without hl w1) hg1 h
        simp only at a1 a2 a3 a4 a6
        have hsv : s'.size v = (cam.width, cam.height) := by rw [a2 v hnd.1, if_pos rfl]
        have hest1 : ∀ w W, r1.view w = some W → ∃ W0, s.recon.view w = some W0 ∧ W0.estimated = W.estimated ∧
            W0.intrinsics = W.intrinsics := by
          intro w W hW
          have := w1.views w
          rw [hW] at this
          cases hw0 : s.recon.view w with
          | none => rw [hw0] at this; cases this
          | some W0 =>
            rw [hw0] at this
            simp only [Option.map_some, Option.some.injEq, Prod.mk.injEq] at this
            exact ⟨W0, rfl, this.2.1.symm, this.2.2.symm⟩
        have hLv : ∀ t, (t ∈ order V.features.keys ∧ LostNow s.recon (cam.width, cam.height) v t) ↔ Lost s.recon s'.size v t := by
          intro t
          unfold LostNow Lost
          rw [hsv]
          constructor
          · rintro ⟨-, T, f, h1, h2, h3, h4⟩
            exact ⟨V, T, f, hV, hest, h1, h2, h3, h4⟩
          · rintro ⟨V0, T, f, -, -, h1, h2, h3, h4⟩
            exact ⟨(hmem t).2 ⟨f, h3⟩, T, f, h1, h2, h3, h4⟩
        have hLw : ∀ w ∈ vs, ∀ t, Lost r1 s'.size w t ↔ Lost s.recon s'.size w t := by
          intro w hw t
          have hne := hvne w hw
          have hS : ¬ (w = v ∧ t ∈ order V.features.keys ∧ LostNow s.recon (cam.width, cam.height) v t) := fun hx => hne hx.1
          unfold Lost
          rw [o1 w hne, w1.kept w t hS]
          constructor
          · rintro ⟨W, T, f, h1, h2, h3, h4, h5, h6⟩
            obtain ⟨T0, b1, b2, -⟩ := w1.track t T h3
            exact ⟨W, T0, f, h1, h2, b1, b2 ▸ h4, h5, h6⟩
          · rintro ⟨W, T, f, h1, h2, h3, h4, h5, h6⟩
            cases ht : r1.track t with
            | none =>
              obtain ⟨T0, hT0, hwT⟩ := (hl w t).1 ⟨f, h5⟩
              rw [h3] at hT0; cases hT0
              exact absurd (((w1.gone t T h3).1 ht).2 w hwT) hS
            | some T1 =>
              obtain ⟨T0, b1, b2, -⟩ := w1.track t T1 ht
              rw [h3] at b1; cases b1
              exact ⟨W, T1, f, h1, h2, rfl, b2.trans h4, h5, h6⟩
        have hzero : heap V.intrinsics = some ⟨{ m.calibration with px := px, py := py }, m.lens.zero⟩ := by
          rw [hheap]; simp [Heap.set]
        refine ⟨(w1.trans a1).congr ?_, ?_, ?_, ?_, a5, ?_⟩
        · intro w t
          constructor
          · rintro (⟨rfl, ht⟩ | ⟨hw, hL⟩)
            · exact ⟨by simp, (hLv t).1 ht⟩
            · exact ⟨by simp [hw], (hLw w hw t).1 hL⟩
          · rintro ⟨hw, hL⟩
            rcases List.mem_cons.1 hw with rfl | hw
            · exact Or.inl ⟨rfl, (hLv t).2 hL⟩
            · exact Or.inr ⟨hw, (hLw w hw t).2 hL⟩
        · intro w hw
          rw [a2 w (fun hx => hw (by simp [hx])), if_neg (fun e => hw (by simp [e]))]
        · intro w W hW hE
          have hne : w ≠ v := by
            rintro rfl
            rw [Reconstruction.view, hV] at hW; cases hW
            rw [hest] at hE; cases hE
          rw [a3 w W (by rw [o1 w hne]; exact hW) hE, if_neg hne]
        · intro w W hw hW hE
          rcases List.mem_cons.1 hw with rfl | hw
          · rw [Reconstruction.view, hV] at hW; cases hW
            exact a6 _ _ hzero (zero_zero _)
          · exact a4 w W hw (by rw [o1 w (hvne w hw)]; exact hW) hE
        · intro q m0 hq0 hz0
          by_cases hqv : q = V.intrinsics
          · subst hqv
            exact a6 _ _ hzero (zero_zero _)
          · exact a6 q m0 (by rw [hheap]; simp only [Heap.set, if_neg hqv]; exact hq0) hz0
      · simp only [hest, Bool.not_false, if_true] at h
        refine skip h ?_ ?_
        · rintro size t ⟨V0, T, f, h1, h2, -⟩
          rw [Reconstruction.view, hV] at h1; cases h1
          exact hest h2
        · intro V0 h1
          rw [Reconstruction.view, hV] at h1; cases h1
          simpa using hest

end Undistort
end Theia
