import Verif.Proof.OneDSfM

/-!
# Reading a 1DSfM dataset: tracks and pairs
-/

namespace Theia
namespace OneDSfM

open Spec Spec.OneD Reconstruction

/-! ## Tracks -/

/-- The key an observation refers to. -/
def keyAt (keys : AMap ViewId (List Key)) (o : ViewId × Nat) : Option Key := (keys.get o.1).bind (·[o.2]?)

theorem observe_spec (keys : AMap ViewId (List Key)) : ∀ (t : List (ViewId × Nat)) (obs : List (ViewId × Key)),
    observe keys t = .ok obs → t.map (fun o => (o.1, keyAt keys o)) = obs.map (fun o => (o.1, some o.2)) := by
  intro t
  induction t with
  | nil => intro obs h; rw [observe] at h; cases h; rfl
  | cons o t ih =>
    intro obs h
    obtain ⟨v, k⟩ := o
    rw [observe] at h
    cases hv : keys.get v with
    | none => simp [hv] at h
    | some l =>
      cases hk : l[k]? with
      | none => simp [hv, hk] at h
      | some key =>
        simp only [hv, hk] at h
        obtain ⟨others, ho, h⟩ := Outcome.bind_eq_ok.1 h
        cases h
        have hkey : keyAt keys (v, k) = some key := by simp [keyAt, hv, hk]
        rw [List.map_cons, List.map_cons, ih _ ho, hkey]

theorem observe_ok (keys : AMap ViewId (List Key)) : ∀ (t : List (ViewId × Nat)),
    (∀ o ∈ t, ∃ key, keyAt keys o = some key) → ∃ obs, observe keys t = .ok obs := by
  intro t
  induction t with
  | nil => intro _; exact ⟨[], by rw [observe]⟩
  | cons o t ih =>
    intro h
    obtain ⟨v, k⟩ := o
    obtain ⟨key, hkey⟩ := h (v, k) (by simp)
    obtain ⟨obs, hobs⟩ := ih fun o ho => h o (by simp [ho])
    rw [observe]
    unfold keyAt at hkey
    cases hv : keys.get v with
    | none => simp [hv] at hkey
    | some l =>
      simp only [hv, Option.bind_some] at hkey
      simp [hkey, hobs]

theorem observe_views {keys : AMap ViewId (List Key)} {t : List (ViewId × Nat)} {obs : List (ViewId × Key)}
    (h : observe keys t = .ok obs) : obs.map (·.1) = t.map (·.1) := by
  have := congrArg (List.map Prod.fst) (observe_spec keys t obs h)
  simpa [List.map_map, Function.comp_def] using this.symm

theorem observe_mem {keys : AMap ViewId (List Key)} {t : List (ViewId × Nat)} {obs : List (ViewId × Key)}
    (h : observe keys t = .ok obs) (v : ViewId) (key : Key) :
    (v, key) ∈ obs ↔ ∃ k, (v, k) ∈ t ∧ keyAt keys (v, k) = some key := by
  have hs := observe_spec keys t obs h
  have : (v, some key) ∈ obs.map (fun o => (o.1, some o.2)) ↔ (v, key) ∈ obs := by
    constructor
    · intro hm
      obtain ⟨⟨w, key'⟩, hm, he⟩ := List.mem_map.1 hm
      simp only [Prod.mk.injEq, Option.some.injEq] at he
      rw [← he.1, ← he.2]
      exact hm
    · intro hm
      exact List.mem_map.2 ⟨_, hm, rfl⟩
  rw [← this, ← hs]
  constructor
  · intro hm
    obtain ⟨⟨w, k⟩, hm', he⟩ := List.mem_map.1 hm
    simp only [Prod.mk.injEq] at he
    obtain ⟨rfl, he⟩ := he
    exact ⟨k, hm', he⟩
  · rintro ⟨k, hm, he⟩
    exact List.mem_map.2 ⟨(v, k), hm, by rw [he]⟩

/-- The feature of a view for a track. -/
def featureOf (r : Reconstruction (ℝ × ℝ) Colour) (v t : Nat) : Option (ℝ × ℝ) := (r.views.get v).bind (·.getFeature t)

/-- What adding a track does. -/
theorem addTrack_some {r r' : Reconstruction (ℝ × ℝ) Colour} (hi : r.Inv) {c : Colour} {obs : List (ViewId × (ℝ × ℝ))}
    {t : TrackId} (h : r.addTrack c obs = .ok (some t, r')) :
    t = r.nextTrackId ∧ r'.nextTrackId = r.nextTrackId + 1 ∧ r'.Inv ∧ r'.views.keys = r.views.keys ∧
      (∀ v, (r'.views.get v).map (·.name) = (r.views.get v).map (·.name)) ∧
      (∀ s, r'.tracks.get s = if s = t then some ⟨false, c, obs.map (·.1)⟩ else r.tracks.get s) ∧
      (∀ v s p, featureOf r' v s = some p ↔ if s = t then (v, p) ∈ obs else featureOf r v s = some p) := by
  have hi' := inv_addTrack hi h
  rcases addTrack_cases h with ⟨h0, _⟩ | ⟨h2, hnd, hk⟩
  · cases h0
  · obtain ⟨X, heq, hXk, hXg⟩ := addTrack_spec hi c obs h2 hnd hk
    rw [heq] at h
    cases h
    refine ⟨rfl, rfl, hi', hXk, ?_, fun s => AMap.get_insert _ _ _ _, ?_⟩
    · intro v
      simp only [hXg v]
      cases obs.find? (fun o => decide (o.1 = v)) with
      | none => rfl
      | some o => cases r.views.get v <;> rfl
    · intro v s p
      simp only [featureOf, hXg v]
      have hnone : s = r.nextTrackId → featureOf r v s = none := by
        rintro rfl
        cases hV : r.views.get v with
        | none => simp [featureOf, hV]
        | some V =>
          simp only [featureOf, hV, Option.bind_some]
          refine AMap.get_eq_none_iff.2 fun hm => ?_
          obtain ⟨T, hT, _⟩ := (hi.sym v r.nextTrackId).1 ⟨V, hV, hm⟩
          exact Nat.lt_irrefl _ (hi.freshT _ (AMap.mem_keys_iff.2 ⟨T, hT⟩))
      cases ho : obs.find? (fun o => decide (o.1 = v)) with
      | none =>
        rw [List.find?_eq_none] at ho
        by_cases hs : s = r.nextTrackId
        · rw [if_pos hs]
          have := hnone hs
          simp only [featureOf] at this
          rw [this]
          simp only [reduceCtorEq, false_iff]
          intro hm
          exact ho _ hm (by simp)
        · rw [if_neg hs]
      | some o =>
        have h1 := List.find?_some ho
        have h3 := List.mem_of_find?_eq_some ho
        simp only [decide_eq_true_eq] at h1
        obtain ⟨V, hV⟩ := AMap.mem_keys_iff.1 (hk o h3)
        rw [h1] at hV
        simp only [hV, Option.map_some, Option.bind_some, View.getFeature, View.addFeature, AMap.get_insert]
        by_cases hs : s = r.nextTrackId
        · rw [if_pos hs, if_pos hs]
          constructor
          · intro he
            cases he
            rw [← h1]; exact h3
          · intro hm
            have := List.inj_on_of_nodup_map hnd h3 hm h1
            rw [this]
        · rw [if_neg hs, if_neg hs]

theorem addTrack_ok {r : Reconstruction (ℝ × ℝ) Colour} (hi : r.Inv) (c : Colour) {obs : List (ViewId × (ℝ × ℝ))}
    (h2 : 2 ≤ obs.length) (hnd : (obs.map (·.1)).Nodup) (hk : ∀ o ∈ obs, o.1 ∈ r.views.keys) :
    ∃ t r', r.addTrack c obs = .ok (some t, r') := by
  obtain ⟨X, heq, _⟩ := addTrack_spec hi c obs h2 hnd hk
  exact ⟨_, _, heq⟩

/-- What reading the tracks does. -/
theorem readTracks_spec (keys : AMap ViewId (List Key)) (ts : List (List (ViewId × Nat))) :
    ∀ (s s' : State), s.recon.Inv → readTracks keys ts s = .ok s' →
      s'.recon.Inv ∧ s'.recon.nextTrackId = s.recon.nextTrackId + ts.length ∧ s'.graph = s.graph ∧ s'.priors = s.priors ∧
      s'.recon.views.keys = s.recon.views.keys ∧ (∀ v, nameOf s' v = nameOf s v) ∧
      (∀ i, i < s.recon.nextTrackId → s'.recon.tracks.get i = s.recon.tracks.get i) ∧
      (∀ i, s.recon.nextTrackId + ts.length ≤ i → s'.recon.tracks.get i = none) ∧
      (∀ i t, ts[i]? = some t → (t.map (·.1)).Nodup ∧ 2 ≤ t.length ∧
        ∃ obs, observe keys t = .ok obs ∧ s'.recon.tracks.get (s.recon.nextTrackId + i) =
          some ⟨false, meanColour (obs.map (·.2.colour)), t.map (·.1)⟩) ∧
      (∀ v i p, i < s.recon.nextTrackId → (featureOf s'.recon v i = some p ↔ featureOf s.recon v i = some p)) ∧
      (∀ v i t p, ts[i]? = some t → (featureOf s'.recon v (s.recon.nextTrackId + i) = some p ↔
        ∃ k key, (v, k) ∈ t ∧ keyAt keys (v, k) = some key ∧ key.point = p)) := by
  induction ts with
  | nil =>
    intro s s' hi h
    rw [readTracks] at h
    cases h
    refine ⟨hi, rfl, rfl, rfl, rfl, fun _ => rfl, fun _ _ => rfl, ?_, by simp, fun _ _ _ _ => Iff.rfl, by simp⟩
    intro i hle
    refine AMap.get_eq_none_iff.2 fun hm => ?_
    have := hi.freshT _ hm
    simp only [List.length_nil, Nat.add_zero] at hle
    exact Nat.lt_irrefl _ (Nat.lt_of_lt_of_le this hle)
  | cons t ts ih =>
    intro s s' hi h
    rw [readTracks] at h
    obtain ⟨obs, hobs, h⟩ := Outcome.bind_eq_ok.1 h
    obtain ⟨⟨o, r⟩, hadd, h⟩ := Outcome.bind_eq_ok.1 h
    cases o with
    | none => simp at h
    | some tid =>
      obtain ⟨rfl, hn, hi1, hk1, hname1, htr1, hf1⟩ := addTrack_some hi hadd
      obtain ⟨g1, g2, g3, g4, g5, g6, g7, g8, g9, g10, g11⟩ := ih { s with recon := r } s' hi1 h
      simp only [hn] at g2 g7 g8 g9 g10 g11
      have hviews : (obs.map fun o => (o.1, o.2.point)).map (·.1) = t.map (·.1) := by
        rw [List.map_map]
        exact observe_views hobs
      refine ⟨g1, by rw [g2, List.length_cons]; omega, g3, g4, g5.trans hk1, ?_, ?_, ?_, ?_, ?_, ?_⟩
      · intro v
        rw [g6 v]
        exact hname1 v
      · intro i hlt
        rw [g7 i (by omega), htr1, if_neg (Nat.ne_of_lt hlt)]
      · intro i hle
        rw [List.length_cons] at hle
        exact g8 i (by omega)
      · intro i t' ht'
        cases i with
        | zero =>
          simp only [List.getElem?_cons_zero, Option.some.injEq] at ht'
          subst ht'
          rcases addTrack_cases hadd with ⟨h0, _⟩ | ⟨h2, hnd, _⟩
          · cases h0
          · rw [hviews] at hnd
            refine ⟨hnd, ?_, obs, hobs, ?_⟩
            · rw [← List.length_map (·.1), ← hviews, List.length_map]; exact h2
            · rw [Nat.add_zero, g7 _ (by omega), htr1, if_pos rfl, hviews]
        | succ i =>
          rw [List.getElem?_cons_succ] at ht'
          have := g9 i t' ht'
          rwa [show s.recon.nextTrackId + 1 + i = s.recon.nextTrackId + (i + 1) by omega] at this
      · intro v i p hlt
        rw [g10 v i p (by omega), hf1, if_neg (Nat.ne_of_lt hlt)]
      · intro v i t' p ht'
        cases i with
        | zero =>
          simp only [List.getElem?_cons_zero, Option.some.injEq] at ht'
          subst ht'
          rw [Nat.add_zero, g10 v _ p (by omega), hf1, if_pos rfl, List.mem_map]
          constructor
          · rintro ⟨⟨w, key⟩, hm, he⟩
            simp only [Prod.mk.injEq] at he
            obtain ⟨rfl, rfl⟩ := he
            obtain ⟨k, hk, hkey⟩ := (observe_mem hobs _ _).1 hm
            exact ⟨k, key, hk, hkey, rfl⟩
          · rintro ⟨k, key, hk, hkey, rfl⟩
            exact ⟨(v, key), (observe_mem hobs _ _).2 ⟨k, hk, hkey⟩, rfl⟩
        | succ i =>
          rw [List.getElem?_cons_succ] at ht'
          have := g11 v i t' p ht'
          rwa [show s.recon.nextTrackId + 1 + i = s.recon.nextTrackId + (i + 1) by omega] at this

theorem readTracks_ok (keys : AMap ViewId (List Key)) (ts : List (List (ViewId × Nat))) :
    ∀ (s : State), s.recon.Inv → (∀ t ∈ ts, 2 ≤ t.length ∧ (t.map (·.1)).Nodup) →
      (∀ t ∈ ts, ∀ o ∈ t, o.1 ∈ s.recon.views.keys ∧ ∃ key, keyAt keys o = some key) →
      ∃ s', readTracks keys ts s = .ok s' := by
  induction ts with
  | nil => intro s _ _ _; exact ⟨s, by rw [readTracks]⟩
  | cons t ts ih =>
    intro s hi h2 hk
    obtain ⟨obs, hobs⟩ := observe_ok keys t fun o ho => (hk t (by simp) o ho).2
    have hviews : (obs.map fun o => (o.1, o.2.point)).map (·.1) = t.map (·.1) := by
      rw [List.map_map]
      exact observe_views hobs
    obtain ⟨tid, r, hadd⟩ := addTrack_ok hi (meanColour (obs.map (·.2.colour))) (obs := obs.map fun o => (o.1, o.2.point))
      (by rw [← List.length_map (·.1), hviews, List.length_map]; exact (h2 t (by simp)).1)
      (by rw [hviews]; exact (h2 t (by simp)).2) (by
        intro o ho
        have : o.1 ∈ t.map (·.1) := by rw [← hviews]; exact List.mem_map_of_mem ho
        obtain ⟨o', ho', he⟩ := List.mem_map.1 this
        rw [← he]
        exact (hk t (by simp) o' ho').1)
    obtain ⟨rfl, hn, hi1, hk1, _, _, _⟩ := addTrack_some hi hadd
    rw [readTracks, hobs]
    simp only [Outcome.ok_bind, hadd]
    apply ih _ hi1 (fun t ht => h2 t (by simp [ht]))
    intro t' ht' o ho
    simp only [hk1]
    exact hk t' (by simp [ht']) o ho

/-! ## Pairs -/

theorem getEdge_addEdge {I : Type} (g : ViewGraph I) (a b x y : Nat) (i : I) :
    (g.addEdge a b i).getEdge x y = if a ≠ b ∧ SamePair x y a b then some i else g.getEdge x y := by
  unfold ViewGraph.addEdge ViewGraph.getEdge
  by_cases hab : a = b
  · simp [hab]
  · rw [if_neg hab]
    simp only [AMap.get_insert, ordPair_eq_iff, ne_eq, hab, not_false_eq_true, true_and]

theorem readEGs_append (ofM : M3 ℝ → V3 ℝ) (rs rs' : List Record) : ∀ (s : State),
    readEGs ofM (rs ++ rs') s = (readEGs ofM rs s).bind fun s => readEGs ofM rs' s := by
  induction rs with
  | nil => intro s; simp [readEGs, Outcome.bind]
  | cons r rs ih =>
    intro s
    rw [List.cons_append, readEGs, readEGs]
    cases s.recon.view r.view1 with
    | none => rfl
    | some V1 =>
      cases s.recon.view r.view2 with
      | none => rfl
      | some V2 => exact ih _

/-- What reading the pairs does. -/
theorem readEGs_spec (ofM : M3 ℝ → V3 ℝ) (rs : List Record) : ∀ (s s' : State), readEGs ofM rs s = .ok s' →
    s'.recon = s.recon ∧ s'.priors = s.priors ∧
    (∀ a b, (∀ r ∈ rs, ¬ (r.view1 ≠ r.view2 ∧ SamePair a b r.view1 r.view2)) → s'.graph.getEdge a b = s.graph.getEdge a b) ∧
    (∀ r ∈ rs, ∃ V1 V2, s.recon.view r.view1 = some V1 ∧ s.recon.view r.view2 = some V2) := by
  induction rs with
  | nil => intro s s' h; rw [readEGs] at h; cases h; exact ⟨rfl, rfl, fun _ _ _ => rfl, by simp⟩
  | cons r rs ih =>
    intro s s' h
    rw [readEGs] at h
    cases h1 : s.recon.view r.view1 with
    | none => simp [h1] at h
    | some V1 =>
      cases h2 : s.recon.view r.view2 with
      | none => simp [h1, h2] at h
      | some V2 =>
        simp only [h1, h2] at h
        obtain ⟨g1, g2, g3, g4⟩ := ih _ _ h
        refine ⟨g1, g2, ?_, ?_⟩
        · intro a b hno
          rw [g3 a b fun q hq => hno q (by simp [hq]), getEdge_addEdge, if_neg (hno r (by simp))]
        · intro q hq
          rcases List.mem_cons.1 hq with rfl | hq
          · exact ⟨V1, V2, h1, h2⟩
          · exact g4 q hq

theorem readEGs_ok (ofM : M3 ℝ → V3 ℝ) (rs : List Record) : ∀ (s : State),
    (∀ r ∈ rs, r.view1 ∈ s.recon.views.keys ∧ r.view2 ∈ s.recon.views.keys) → ∃ s', readEGs ofM rs s = .ok s' := by
  induction rs with
  | nil => intro s _; exact ⟨s, by rw [readEGs]⟩
  | cons r rs ih =>
    intro s h
    obtain ⟨V1, h1⟩ := AMap.mem_keys_iff.1 (h r (by simp)).1
    obtain ⟨V2, h2⟩ := AMap.mem_keys_iff.1 (h r (by simp)).2
    rw [readEGs]
    simp only [Reconstruction.view, h1, h2]
    exact ih _ fun q hq => h q (by simp [hq])

/-- The last record of a pair decides. -/
theorem readEGs_last (ofM : M3 ℝ → V3 ℝ) {pre post : List Record} {r : Record} {s s' : State}
    (h : readEGs ofM (pre ++ r :: post) s = .ok s') (hne : r.view1 ≠ r.view2)
    (hlast : ∀ q ∈ post, ¬ SamePair r.view1 r.view2 q.view1 q.view2) :
    ∃ V1 V2, s.recon.view r.view1 = some V1 ∧ s.recon.view r.view2 = some V2 ∧
      s'.graph.getEdge r.view1 r.view2 = some (infoOf ofM s r V1 V2) := by
  rw [readEGs_append] at h
  obtain ⟨s1, hs1, h⟩ := Outcome.bind_eq_ok.1 h
  obtain ⟨g1, g2, _, _⟩ := readEGs_spec ofM pre s s1 hs1
  rw [readEGs] at h
  cases h1 : s1.recon.view r.view1 with
  | none => simp [h1] at h
  | some V1 =>
    cases h2 : s1.recon.view r.view2 with
    | none => simp [h1, h2] at h
    | some V2 =>
      simp only [h1, h2] at h
      obtain ⟨_, _, g3, _⟩ := readEGs_spec ofM post _ _ h
      refine ⟨V1, V2, by rw [← g1]; exact h1, by rw [← g1]; exact h2, ?_⟩
      rw [g3 _ _ fun q hq hc => hlast q hq hc.2, getEdge_addEdge, if_pos ⟨hne, Or.inl ⟨rfl, rfl⟩⟩]
      simp only [infoOf, State.prior, g2]

/-! ## Common tracks and geometry -/

theorem setIntersection_sublist : ∀ (l m : List Nat), (CommonTracks.setIntersection l m).Sublist l := by
  intro l m
  induction l, m using CommonTracks.setIntersection.induct with
  | case1 m => simp [CommonTracks.setIntersection]
  | case2 a as => simp [CommonTracks.setIntersection]
  | case3 a as b bs hlt ih => rw [CommonTracks.setIntersection, if_pos hlt]; exact ih.cons _
  | case4 a as b bs hn hlt ih => rw [CommonTracks.setIntersection, if_neg hn, if_pos hlt]; exact ih
  | case5 a as b bs hn hn' ih => rw [CommonTracks.setIntersection, if_neg hn, if_neg hn']; exact ih.cons_cons _

theorem mem_commonTracks (V1 V2 : View (ℝ × ℝ)) (t : Nat) :
    t ∈ commonTracks V1 V2 ↔ t ∈ V1.features.keys ∧ t ∈ V2.features.keys := by
  have hs : ∀ l : List Nat, (l.insertionSort (· ≤ ·)).Pairwise (· ≤ ·) := fun l => List.pairwise_insertionSort _ l
  unfold commonTracks
  rw [CommonTracks.mem_setIntersection _ _ _ (hs _) (hs _), List.mem_insertionSort, List.mem_insertionSort]
  rfl

theorem nodup_commonTracks {V1 : View (ℝ × ℝ)} (V2 : View (ℝ × ℝ)) (h : V1.features.WF) : (commonTracks V1 V2).Nodup :=
  (setIntersection_sublist _ _).nodup ((List.perm_insertionSort _ _).nodup_iff.2 h)

theorem flip_mulVec (p : V3 ℝ) : flip.mulVec p = toTheia p := by
  apply V3.ext <;> simp only [flip, M3.mulVec, V3.dot, toTheia] <;> ring

theorem isRotation_flip : (flip : M3 ℝ).IsRotation := by
  refine ⟨?_, ?_, ?_⟩
  · apply M3.ext <;> apply V3.ext <;> norm_num [flip, M3.mul, M3.mulVec, M3.transpose, V3.dot, M3.one]
  · apply M3.ext <;> apply V3.ext <;> norm_num [flip, M3.mul, M3.mulVec, M3.transpose, V3.dot, M3.one]
  · norm_num [flip, M3.det, V3.dot, V3.cross]

theorem toTheia_toTheia (p : V3 ℝ) : toTheia (toTheia p) = p := by
  apply V3.ext <;> simp [toTheia]

theorem sameCameras {R : M3 ℝ} (hR : R.IsRotation) (t : V3 ℝ) :
    SameCameras R t ((flip.mul R.transpose).mul flip) (flip.mulVec t) := by
  intro p1 p2
  have hsub : (toTheia p1).sub (flip.mulVec t) = toTheia (p1.sub t) := by
    rw [flip_mulVec]
    apply V3.ext <;> simp only [toTheia, V3.sub] <;> ring
  rw [hsub, M3.mulVec_mul, M3.mulVec_mul, flip_mulVec, flip_mulVec, toTheia_toTheia]
  constructor
  · rintro rfl
    congr 1
    have : ((R.mulVec p2).add t).sub t = R.mulVec p2 := by
      apply V3.ext <;> simp only [V3.add, V3.sub] <;> ring
    rw [this, hR.transpose_mulVec]
  · intro h
    have h' := congrArg toTheia h
    rw [toTheia_toTheia, toTheia_toTheia] at h'
    rw [h', hR.mulVec_transpose]
    apply V3.ext <;> simp only [V3.add, V3.sub] <;> ring

end OneDSfM
end Theia
