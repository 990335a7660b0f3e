import Verif.Spec.NonlinearPosition
import Verif.Proof.Builder

/-!
# Lemmas on the non-linear estimation of positions
-/

namespace Theia
namespace NonlinearPosition

open Spec Reconstruction

variable {F P M O D X : Type}

/-! ## Positions and constraints between cameras -/

theorem initialPositions_spec (g : Geometry F M O D X) (views : List ViewId) (l : List (ViewId × O)) :
    ∀ n (m : AMap ViewId X), m.WF →
      (initialPositions g views l n m).1.WF ∧
      ∀ v, v ∈ (initialPositions g views l n m).1.keys ↔ v ∈ m.keys ∨ (v ∈ l.map (·.1) ∧ v ∈ views) := by
  induction l with
  | nil => intro n m h; simp [initialPositions, h]
  | cons e l ih =>
    intro n m h
    obtain ⟨w, q⟩ := e
    rw [initialPositions]
    split
    case isTrue hw =>
      obtain ⟨h1, h2⟩ := ih (n + 1) (m.insert w (g.random n)) (AMap.wf_insert h _ _)
      refine ⟨h1, fun v => ?_⟩
      rw [h2, AMap.mem_keys_insert]
      simp only [List.map_cons, List.mem_cons]
      constructor
      · rintro ((h | h) | h)
        · exact .inr ⟨.inl h, h ▸ hw⟩
        · exact .inl h
        · exact .inr ⟨.inr h.1, h.2⟩
      · rintro (h | ⟨h | h, h'⟩)
        · tauto
        · tauto
        · tauto
    case isFalse hw =>
      obtain ⟨h1, h2⟩ := ih n m h
      refine ⟨h1, fun v => ?_⟩
      rw [h2]
      simp only [List.map_cons, List.mem_cons]
      constructor
      · tauto
      · rintro (h | ⟨rfl | h, h'⟩)
        · exact .inl h
        · exact absurd h' hw
        · exact .inr ⟨h, h'⟩

theorem mem_constrained {pairs : List ((ViewId × ViewId) × D)} {v : ViewId} :
    v ∈ constrained pairs ↔ ∃ p ∈ pairs, p.1.1 = v ∨ p.1.2 = v := by
  simp only [constrained, List.mem_flatMap, List.mem_cons, List.not_mem_nil, or_false]
  constructor
  · rintro ⟨p, hp, h | h⟩
    · exact ⟨p, hp, .inl h.symm⟩
    · exact ⟨p, hp, .inr h.symm⟩
  · rintro ⟨p, hp, h | h⟩
    · exact ⟨p, hp, .inl h.symm⟩
    · exact ⟨p, hp, .inr h.symm⟩

/-- The positions an estimation that starts with none has. -/
def Positions (pairs : List ((ViewId × ViewId) × D)) (orientations : AMap ViewId O) (m : AMap ViewId X) : Prop :=
  m.WF ∧ ∀ v, v ∈ m.keys ↔ GetsPosition pairs orientations v

theorem initialPositions_empty (g : Geometry F M O D X) (pairs : List ((ViewId × ViewId) × D)) (orientations : AMap ViewId O) :
    Positions pairs orientations (initialPositions g (constrained pairs) orientations.entries 0 .empty).1 := by
  obtain ⟨h1, h2⟩ := initialPositions_spec g (constrained pairs) orientations.entries 0 (.empty : AMap ViewId X) AMap.wf_empty
  refine ⟨h1, fun v => ?_⟩
  rw [h2, mem_constrained]
  simp only [AMap.keys_empty, List.not_mem_nil, false_or]
  rw [GetsPosition, ← AMap.mem_keys_iff]
  rfl

theorem cameraBlocks_eq {g : Geometry F M O D X} {orientations : AMap ViewId O} {m : AMap ViewId X}
    (l : List ((ViewId × ViewId) × D)) (hm : ∀ p ∈ l, ∀ v, v = p.1.1 ∨ v = p.1.2 → (v ∈ m.keys ↔ v ∈ orientations.keys)) :
    ∀ {bs}, cameraBlocks g orientations m l = .ok bs → bs = cameraConstraints g l orientations := by
  induction l with
  | nil => intro bs h; simp only [cameraBlocks, Outcome.ok.injEq] at h; subst h; rfl
  | cons p l ih =>
    intro bs h
    have ih := @ih fun q hq => hm q (List.mem_cons_of_mem _ hq)
    have h1 := hm p (List.mem_cons_self ..) p.1.1 (.inl rfl)
    have h2 := hm p (List.mem_cons_self ..) p.1.2 (.inr rfl)
    rw [AMap.mem_keys_iff (m := orientations)] at h1 h2
    rw [cameraBlocks] at h
    split at h
    case isTrue hc =>
      rw [Bool.and_eq_true, AMap.contains_iff, AMap.contains_iff, h1, h2] at hc
      obtain ⟨⟨q, hq⟩, q', hq'⟩ := hc
      rw [hq] at h
      simp only at h
      split at h
      · cases h
      · obtain ⟨rest, hr, h⟩ := Outcome.bind_eq_ok.1 h
        simp only [Outcome.ok.injEq] at h
        subst h
        rw [ih hr, cameraConstraints, cameraConstraints, List.filterMap_cons, hq, hq']
    case isFalse hc =>
      rw [Bool.and_eq_true, AMap.contains_iff, AMap.contains_iff, h1, h2] at hc
      rw [ih h, cameraConstraints, cameraConstraints, List.filterMap_cons]
      split
      · rename_i h3
        rfl
      · rename_i b h3
        split at h3
        · rename_i q q' hq hq'
          exact absurd ⟨⟨q, hq⟩, q', hq'⟩ hc
        · cases h3

theorem cameraBlocks_ok {g : Geometry F M O D X} {orientations : AMap ViewId O} {m : AMap ViewId X}
    (l : List ((ViewId × ViewId) × D)) (hm : ∀ v ∈ m.keys, v ∈ orientations.keys) (hd : ∀ p ∈ l, p.1.1 ≠ p.1.2) :
    ∃ bs, cameraBlocks g orientations m l = .ok bs := by
  induction l with
  | nil => exact ⟨_, rfl⟩
  | cons p l ih =>
    obtain ⟨bs, hb⟩ := ih fun q hq => hd q (List.mem_cons_of_mem _ hq)
    rw [cameraBlocks]
    split
    case isTrue hc =>
      rw [Bool.and_eq_true, AMap.contains_iff, AMap.contains_iff] at hc
      obtain ⟨q, hq⟩ := AMap.mem_keys_iff.1 (hm _ hc.1)
      rw [hq]
      simp only [if_neg (hd p (List.mem_cons_self ..)), hb, Outcome.ok_bind]
      exact ⟨_, rfl⟩
    case isFalse hc => exact ⟨bs, hb⟩

/-! ## The choice of tracks -/

/-- The track lists the view. -/
def listed (r : Reconstruction F P) (v : ViewId) (t : TrackId) : Bool :=
  match r.track t with
  | some T => decide (v ∈ T.views)
  | none => false

theorem listed_iff {r : Reconstruction F P} {v : ViewId} {t : TrackId} :
    listed r v t = true ↔ ∃ T, r.track t = some T ∧ v ∈ T.views := by
  unfold listed
  split <;> simp_all

theorem countViews_spec (m : AMap ViewId X) (l : List ViewId) : ∀ (c : AMap ViewId Nat), l.Nodup → c.keys = m.keys →
    (countViews m l c).keys = m.keys ∧
    ∀ v ∈ m.keys, (countViews m l c).get v = some ((c.get v).getD 0 + if v ∈ l then 1 else 0) := by
  induction l with
  | nil =>
    intro c _ hk
    refine ⟨hk, fun v hv => ?_⟩
    obtain ⟨n, hn⟩ := AMap.mem_keys_iff.1 (hk ▸ hv)
    simp [countViews, hn]
  | cons w l ih =>
    intro c hnd hk
    rw [List.nodup_cons] at hnd
    rw [countViews]
    split
    case isTrue hw =>
      rw [AMap.contains_iff] at hw
      have hk' : (c.insert w ((c.get w).getD 0 + 1)).keys = m.keys := by
        rw [AMap.keys_insert, if_pos (by rw [hk]; exact hw), hk]
      obtain ⟨h1, h2⟩ := ih _ hnd.2 hk'
      refine ⟨h1, fun v hv => ?_⟩
      rw [h2 v hv, AMap.get_insert]
      by_cases hvw : v = w
      · subst hvw; simp [hnd.1]
      · simp [hvw]
    case isFalse hw =>
      rw [AMap.contains_iff] at hw
      obtain ⟨h1, h2⟩ := ih _ hnd.2 hk
      refine ⟨h1, fun v hv => ?_⟩
      have : v ≠ w := by rintro rfl; exact hw hv
      rw [h2 v hv]
      simp [this]

/-- What holds throughout the choice. -/
structure Chosen (r : Reconstruction F P) (m : AMap ViewId X) (s : List TrackId × AMap ViewId Nat) : Prop where
  nodup : s.1.Nodup
  keys : s.2.keys = m.keys
  count : ∀ v ∈ m.keys, s.2.get v = some ((s.1.filter (listed r v)).length)
  seen : ∀ t ∈ s.1, ∃ v ∈ m.keys, listed r v t = true

theorem chosen_start (r : Reconstruction F P) (m : AMap ViewId X) : Chosen r m ([], m.mapVals fun _ _ => 0) where
  nodup := List.nodup_nil
  keys := AMap.keys_mapVals _ _
  count v hv := by
    obtain ⟨x, hx⟩ := AMap.mem_keys_iff.1 hv
    simp [AMap.get_mapVals, hx]
  seen := by simp

theorem chosen_add {ord : Orders} (ho : ValidOrders ord) {r : Reconstruction F P} (hi : r.Inv) {m : AMap ViewId X}
    {s : List TrackId × AMap ViewId Nat} (hs : Chosen r m s) {t : TrackId} {T : Track P} (ht : r.track t = some T)
    (hn : t ∉ s.1) {v : ViewId} (hv : v ∈ m.keys) (hvT : v ∈ T.views) :
    Chosen r m (s.1 ++ [t], countViews m (ord.observers T.views) s.2) := by
  have hnd := hi.ndTrack t T ht
  obtain ⟨h1, h2⟩ := countViews_spec m (ord.observers T.views) s.2 ((ho.observers _).nodup_iff.2 hnd) hs.keys
  refine ⟨?_, h1, fun w hw => ?_, fun t' ht' => ?_⟩
  · rw [List.nodup_append]
    exact ⟨hs.nodup, by simp, fun a ha b hb => by simp at hb; subst hb; rintro rfl; exact hn ha⟩
  · rw [h2 w hw, hs.count w hw, List.filter_append, List.length_append]
    simp only [Option.getD_some, (ho.observers _).mem_iff, listed, ht, List.filter_cons, List.filter_nil,
      decide_eq_true_eq]
    split <;> simp
  · simp only [List.mem_append, List.mem_singleton] at ht'
    obtain h | rfl := ht'
    · exact hs.seen _ h
    · exact ⟨v, hv, listed_iff.2 ⟨T, ht, hvT⟩⟩

theorem addTracks_spec {ord : Orders} (ho : ValidOrders ord) {k : Nat} {r : Reconstruction F P} (hi : r.Inv)
    {m : AMap ViewId X} {v : ViewId} (hv : v ∈ m.keys) (z l : List TrackId) :
    ∀ {s : List TrackId × AMap ViewId Nat}, Chosen r m s → l.Nodup → (∀ t ∈ l, t ∉ s.1) → (∀ t ∈ l, listed r v t = true) →
      (z = [] ∨ k ≤ (s.1.filter (listed r v)).length + l.length) →
      ∃ j s', j ≤ l.length ∧ addTracks ord k r m v (l ++ z) s = .ok s' ∧ s'.1 = s.1 ++ l.take j ∧ Chosen r m s' ∧
        (k ≤ (s'.1.filter (listed r v)).length ∨ j = l.length) ∧
        ∀ i < j, ((s.1 ++ l.take i).filter (listed r v)).length < k := by
  induction l with
  | nil =>
    intro s hs _ _ _ hz
    simp only [List.nil_append, List.length_nil, Nat.add_zero] at hz ⊢
    refine ⟨0, s, le_rfl, ?_, by simp, hs, .inr rfl, by simp⟩
    cases z with
    | nil => rfl
    | cons a z =>
      rw [addTracks, hs.count v hv, if_neg]
      rcases hz with h | h
      · cases h
      · simp only [Option.getD_some]; omega
  | cons t l ih =>
    intro s hs hnd hns hl hz
    rw [List.cons_append, addTracks, hs.count v hv]
    simp only [Option.getD_some]
    split
    case isTrue hlt =>
      obtain ⟨T, hT, hvT⟩ := listed_iff.1 (hl t (List.mem_cons_self ..))
      have hn := hns t (List.mem_cons_self ..)
      rw [hT]
      simp only [setInsert, if_neg hn]
      have hc := chosen_add ho hi hs hT hn hv hvT
      rw [List.nodup_cons] at hnd
      obtain ⟨j, s', hj, h1, h2, h3, h4, h5⟩ := ih hc hnd.2
        (by
          intro t' ht'
          simp only [List.mem_append, List.mem_singleton, not_or]
          exact ⟨hns t' (List.mem_cons_of_mem _ ht'), by rintro rfl; exact hnd.1 ht'⟩)
        (fun t' ht' => hl t' (List.mem_cons_of_mem _ ht'))
        (by
          refine hz.imp_right fun h => ?_
          simp only [List.filter_append, List.length_append, List.filter_cons, hl t (List.mem_cons_self ..), if_true,
            List.filter_nil, List.length_cons, List.length_nil] at h ⊢
          omega)
      refine ⟨j + 1, s', by simpa using hj, h1, by rw [h2]; simp, h3, by simpa using h4, fun i hij => ?_⟩
      cases i with
      | zero => simpa using hlt
      | succ i => simpa using h5 i (by omega)
    case isFalse hlt =>
      exact ⟨0, s, Nat.zero_le _, rfl, by simp, hs, .inl (by omega), by simp⟩

theorem mem_candidates {r : Reconstruction F P} {ex : List TrackId} (l : List TrackId) (e : TrackId × Nat) :
    e ∈ candidates r ex l ↔ e.1 ∈ l ∧ e.1 ∉ ex ∧ ∃ T, r.track e.1 = some T ∧ e.2 = T.views.length := by
  induction l with
  | nil => simp [candidates]
  | cons t l ih =>
    rw [candidates]
    split
    case h_1 h =>
      rw [ih, List.mem_cons]
      constructor
      · rintro ⟨h1, h2⟩; exact ⟨.inr h1, h2⟩
      · rintro ⟨h1 | h1, h2, T, h3, h4⟩
        · rw [h1, h] at h3; cases h3
        · exact ⟨h1, h2, T, h3, h4⟩
    case h_2 T h =>
      split
      case isTrue hx =>
        rw [ih, List.mem_cons]
        constructor
        · rintro ⟨h1, h2⟩; exact ⟨.inr h1, h2⟩
        · rintro ⟨h1 | h1, h2, h3⟩
          · rw [h1] at h2; exact absurd hx h2
          · exact ⟨h1, h2, h3⟩
      case isFalse hx =>
        rw [List.mem_cons, ih, List.mem_cons]
        constructor
        · rintro (rfl | ⟨h1, h2⟩)
          · exact ⟨.inl rfl, hx, T, h, rfl⟩
          · exact ⟨.inr h1, h2⟩
        · rintro ⟨h1 | h1, h2, T', h3, h4⟩
          · left
            obtain ⟨a, b⟩ := e
            simp only at h1 h3 h4
            subst h1
            rw [h] at h3
            cases h3
            rw [h4]
          · exact .inr ⟨h1, h2, T', h3, h4⟩

theorem candidates_nodup {r : Reconstruction F P} {ex : List TrackId} {l : List TrackId} (h : l.Nodup) :
    ((candidates r ex l).map (·.1)).Nodup := by
  induction l with
  | nil => simp [candidates]
  | cons t l ih =>
    rw [List.nodup_cons] at h
    rw [candidates]
    split
    · exact ih h.2
    · split
      · exact ih h.2
      · rw [List.map_cons, List.nodup_cons]
        refine ⟨fun hm => ?_, ih h.2⟩
        obtain ⟨e, he, h1⟩ := List.mem_map.1 hm
        have h1 : e.1 = t := h1
        exact h.1 (h1 ▸ ((mem_candidates l e).1 he).1)

/-- What one view adds. -/
structure Picked (r : Reconstruction F P) (k : Nat) (v : ViewId) (s s' : List TrackId × AMap ViewId Nat) : Prop where
  extends' : ∃ l, s'.1 = s.1 ++ l
  enough : ∀ V, r.view v = some V → k ≤ V.features.size → k ≤ (s'.1.filter (listed r v)).length
  longest : ∀ V, r.view v = some V → ∀ t T, t ∈ s'.1 → t ∉ s.1 → r.track t = some T →
    ∀ t' T', t' ∈ V.trackIds → t' ∉ s'.1 → r.track t' = some T' → T'.views.length ≤ T.views.length
  own : ∀ t ∈ s'.1, t ∉ s.1 → ∃ V, r.view v = some V ∧ t ∈ V.trackIds ∧ k ≤ V.features.size
  stop : s'.1 = s.1 ∨ ∃ l t, s'.1 = s.1 ++ (l ++ [t]) ∧ ((s.1 ++ l).filter (listed r v)).length < k

theorem length_le_of_subset {l l' : List Nat} (h : l.Nodup) (hs : ∀ a ∈ l, a ∈ l') : l.length ≤ l'.length :=
  (h.subperm hs).length_le

theorem Picked.refl {r : Reconstruction F P} {k : Nat} {v : ViewId} {s : List TrackId × AMap ViewId Nat}
    (h : ∀ V, r.view v = some V → V.features.size < k) : Picked r k v s s where
  extends' := ⟨[], by simp⟩
  enough V hV hk := absurd hk (by have := h V hV; omega)
  longest _ _ t _ h1 h2 := absurd h1 h2
  own t h1 h2 := absurd h1 h2
  stop := .inl rfl

theorem pickForView_spec {ord : Orders} (ho : ValidOrders ord) {k : Nat} {r : Reconstruction F P} (hr : r.Reachable)
    {m : AMap ViewId X} {v : ViewId} (hv : v ∈ m.keys) {s : List TrackId × AMap ViewId Nat} (hs : Chosen r m s) :
    ∃ s', pickForView ord k r m v s = .ok s' ∧ Chosen r m s' ∧ Picked r k v s s' := by
  have hi := inv_of_reachable hr
  rw [pickForView]
  cases hV : r.view v with
  | none => exact ⟨s, rfl, hs, .refl fun V h => by rw [hV] at h; cases h⟩
  | some V =>
    simp only
    split
    case isTrue hlt => exact ⟨s, rfl, hs, .refl fun W h => by rw [hV] at h; cases h; exact hlt⟩
    case isFalse hge =>
      have hndV : V.trackIds.Nodup := hi.wfFeat v V hV
      have hndF := (ho.features V.trackIds).nodup_iff.2 hndV
      rw [sortedTracks]
      generalize hc : candidates r s.1 (ord.features V.trackIds) = c
      have hmem : ∀ e : TrackId × Nat, e ∈ c ↔ e.1 ∈ V.trackIds ∧ e.1 ∉ s.1 ∧
          ∃ T, r.track e.1 = some T ∧ e.2 = T.views.length := by
        intro e
        rw [← hc, mem_candidates, (ho.features _).mem_iff]
      have hndc : (c.map (·.1)).Nodup := hc ▸ candidates_nodup hndF
      generalize hkk : min c.length k = kk
      have hkl : kk ≤ c.length := hkk ▸ Nat.min_le_left _ _
      have hperm := ho.perm kk c hkl
      generalize hp : ord.partialSort kk c = p at hperm
      have hsorted := hp ▸ ho.sorted kk c hkl
      have hlargest := hp ▸ ho.largest kk c hkl
      have hndp : (p.map (·.1)).Nodup := (hperm.map _).nodup_iff.2 hndc
      have hlist : ∀ t ∈ V.trackIds, listed r v t = true := fun t ht => listed_iff.2 ((hi.sym v t).1 ⟨V, hV, ht⟩)
      have hlen : ((p.take kk).map (·.1)).length = kk := by
        rw [List.length_map, List.length_take, hperm.length_eq]
        omega
      have htake : ∀ e ∈ p.take kk, e ∈ c := fun e he => hperm.mem_iff.1 (List.mem_of_mem_take he)
      obtain ⟨j, s', hj, h1, h2, h3, h4, h5⟩ := addTracks_spec (k := k) ho hi hv (List.replicate (c.length - kk) 0)
        ((p.take kk).map (·.1)) hs
        (by rw [List.map_take]; exact hndp.sublist (List.take_sublist _ _))
        (by
          intro t ht
          obtain ⟨e, he, rfl⟩ := List.mem_map.1 ht
          exact ((hmem e).1 (htake e he)).2.1)
        (by
          intro t ht
          obtain ⟨e, he, rfl⟩ := List.mem_map.1 ht
          exact hlist _ ((hmem e).1 (htake e he)).1)
        (by
          rw [hlen]
          by_cases hck : c.length ≤ k
          · left
            have : c.length - kk = 0 := by omega
            rw [this]; rfl
          · right; omega)
      rw [hlen] at hj h4
      have htt : ((p.take kk).map (·.1)).take j = (p.take j).map (·.1) := by
        rw [← List.map_take, List.take_take, Nat.min_eq_left hj]
      rw [htt] at h2
      refine ⟨s', h1, h3, ⟨_, h2⟩, ?_, ?_, ?_, ?_⟩
      · intro W hW hkW
        rw [hV] at hW
        cases hW
        rcases h4 with h4 | rfl
        · exact h4
        · by_cases hck : c.length ≤ k
          · refine hkW.trans ?_
            rw [AMap.size_eq_length_keys]
            refine length_le_of_subset hndV fun t ht => List.mem_filter.2 ⟨?_, hlist t ht⟩
            by_cases hts : t ∈ s.1
            · rw [h2]; exact List.mem_append_left _ hts
            · obtain ⟨T, hT, _⟩ := listed_iff.1 (hlist t ht)
              have : (t, T.views.length) ∈ c := (hmem _).2 ⟨ht, hts, T, hT, rfl⟩
              rw [h2]
              refine List.mem_append_right _ (List.mem_map.2 ⟨(t, T.views.length), ?_, rfl⟩)
              rw [List.take_of_length_le (by rw [hperm.length_eq]; omega)]
              exact hperm.mem_iff.2 this
          · rw [h2, List.filter_append, List.length_append]
            have : ((p.take j).map (·.1)).filter (listed r v) = (p.take j).map (·.1) := by
              rw [List.filter_eq_self]
              intro t ht
              obtain ⟨e, he, rfl⟩ := List.mem_map.1 ht
              exact hlist _ ((hmem e).1 (htake e he)).1
            rw [this, hlen]
            omega
      · intro W hW t T ht hts hT t' T' ht' hts' hT'
        rw [hV] at hW
        cases hW
        rw [h2] at ht hts'
        obtain ht | ht := List.mem_append.1 ht
        · exact absurd ht hts
        · obtain ⟨e, he, rfl⟩ := List.mem_map.1 ht
          rw [List.mem_append, not_or] at hts'
          have hc' : (t', T'.views.length) ∈ p := hperm.mem_iff.2 ((hmem _).2 ⟨ht', hts'.1, T', hT', rfl⟩)
          have hec : e ∈ c := htake e (by
            have : p.take j = (p.take kk).take j := by rw [List.take_take, Nat.min_eq_left hj]
            rw [this] at he
            exact List.mem_of_mem_take he)
          obtain ⟨_, _, T2, hT2, he2⟩ := (hmem e).1 hec
          rw [hT] at hT2
          cases hT2
          rw [← he2]
          have hd : (t', T'.views.length) ∈ p.drop j := by
            rw [← List.take_append_drop j p] at hc'
            rcases List.mem_append.1 hc' with h | h
            · exact absurd (List.mem_map.2 ⟨_, h, rfl⟩) hts'.2
            · exact h
          have hek : e ∈ (p.take kk).take j := by rw [List.take_take, Nat.min_eq_left hj]; exact he
          by_cases hin : (t', T'.views.length) ∈ p.drop kk
          · exact hlargest e (List.mem_of_mem_take hek) _ hin
          · have hin' : (t', T'.views.length) ∈ (p.take kk).drop j := by
              rw [List.drop_take]
              have : p.drop j = (p.drop j).take (kk - j) ++ (p.drop j).drop (kk - j) := (List.take_append_drop _ _).symm
              rw [this] at hd
              rcases List.mem_append.1 hd with h | h
              · exact h
              · rw [List.drop_drop, show j + (kk - j) = kk by omega] at h
                exact absurd h hin
            rw [← List.take_append_drop j (p.take kk), List.pairwise_append] at hsorted
            exact hsorted.2.2 e hek _ hin'
      · intro t ht hts
        rw [h2] at ht
        obtain ht | ht := List.mem_append.1 ht
        · exact absurd ht hts
        · obtain ⟨e, he, rfl⟩ := List.mem_map.1 ht
          have hek : e ∈ (p.take kk).take j := by rw [List.take_take, Nat.min_eq_left hj]; exact he
          exact ⟨V, hV, ((hmem e).1 (htake e (List.mem_of_mem_take hek))).1, by omega⟩
      · rw [h2, ← htt]
        cases j with
        | zero => left; simp
        | succ i =>
          right
          have hi' : i < ((p.take kk).map (·.1)).length := by omega
          exact ⟨_, _, by rw [List.take_add_one, List.getElem?_eq_getElem hi']; rfl, h5 i (by omega)⟩

theorem pickTracks_spec {ord : Orders} (ho : ValidOrders ord) {k : Nat} {r : Reconstruction F P} (hr : r.Reachable)
    {m : AMap ViewId X} (vs : List ViewId) : ∀ {s : List TrackId × AMap ViewId Nat}, (∀ v ∈ vs, v ∈ m.keys) → Chosen r m s →
      ∃ s', pickTracks ord k r m vs s = .ok s' ∧ Chosen r m s' ∧ (∃ l, s'.1 = s.1 ++ l) ∧
        ∀ v ∈ vs, ∀ V, r.view v = some V → k ≤ V.features.size → k ≤ (s'.1.filter (listed r v)).length := by
  induction vs with
  | nil => intro s _ hs; exact ⟨s, rfl, hs, ⟨[], by simp⟩, by simp⟩
  | cons v vs ih =>
    intro s hv hs
    obtain ⟨s1, h1, h2, h3⟩ := pickForView_spec (k := k) ho hr (hv v (List.mem_cons_self ..)) hs
    obtain ⟨s2, h4, h5, ⟨l2, h6⟩, h7⟩ := ih (fun w hw => hv w (List.mem_cons_of_mem _ hw)) h2
    obtain ⟨l1, hl1⟩ := h3.extends'
    refine ⟨s2, by rw [pickTracks, h1, Outcome.ok_bind, h4], h5, ⟨l1 ++ l2, by rw [h6, hl1, List.append_assoc]⟩, ?_⟩
    intro w hw V hV hk
    rcases List.mem_cons.1 hw with rfl | hw
    · refine (h3.enough V hV hk).trans ?_
      rw [h6, List.filter_append, List.length_append]
      omega
    · exact h7 w hw V hV hk

theorem map_entries {m : AMap ViewId Nat} (h : m.WF) : m.entries.map (·.2) = m.keys.map fun v => (m.get v).getD 0 := by
  rw [AMap.keys, List.map_map]
  refine List.map_congr_left fun e he => ?_
  simp only [Function.comp_apply]
  rw [AMap.get_of_mem_entries h (k := e.1) (v := e.2) he]
  rfl

theorem sum_swap (p : ViewId → TrackId → Bool) (l : List ViewId) (s : List TrackId) :
    (l.map fun v => (s.filter (p v)).length).sum = (s.map fun t => (l.filter fun v => p v t).length).sum := by
  induction s with
  | nil => simp
  | cons t s ih =>
    rw [List.map_cons, List.sum_cons, ← ih]
    clear ih
    induction l with
    | nil => simp
    | cons v l ih =>
      rw [List.map_cons, List.sum_cons, List.map_cons, List.sum_cons, ih, List.filter_cons, List.filter_cons]
      by_cases h : p v t = true
      · simp only [h, if_true, List.length_cons]; omega
      · simp only [h]; simp; omega

theorem findTracks_spec {ord : Orders} (ho : ValidOrders ord) {k : Nat} {r : Reconstruction F P} (hr : r.Reachable)
    {m : AMap ViewId X} (hm : m.WF) :
    ∃ sel n, findTracks ord k r m = .ok (sel, n) ∧ sel.Nodup ∧ (∀ t ∈ sel, ∃ v ∈ m.keys, listed r v t = true) ∧
      (∀ v ∈ m.keys, ∀ V, r.view v = some V → k ≤ V.features.size → k ≤ (sel.filter (listed r v)).length) ∧
      n = (sel.map fun t => (m.keys.filter fun v => listed r v t).length).sum := by
  obtain ⟨s, h1, h2, _, h3⟩ := pickTracks_spec (k := k) ho hr (ord.positions m.keys)
    (fun v hv => (ho.positions _).mem_iff.1 hv) (chosen_start r m)
  refine ⟨s.1, _, by rw [findTracks, h1, Outcome.ok_bind], h2.nodup, h2.seen,
    fun v hv => h3 v ((ho.positions _).mem_iff.2 hv), ?_⟩
  have hw : s.2.WF := by
    unfold AMap.WF
    rw [h2.keys]
    exact hm
  rw [map_entries hw, h2.keys, ← sum_swap (listed r)]
  congr 1
  refine List.map_congr_left fun v hv => ?_
  rw [h2.count v hv]
  rfl

/-! ## Constraints on points -/

/-- The constraint of an observation. -/
def observation (g : Geometry F M O D X) (r : Reconstruction F P) (camera : ViewId → O × M) (m : AMap ViewId X) (w : ℚ)
    (t : TrackId) (v : ViewId) : Option (Block D) :=
  if m.contains v then
    (r.view v).bind fun V => (V.getFeature t).map fun f => .point v t (g.ray (camera v).1 (camera v).2 f) w
  else none

theorem trackBlocks_eq {g : Geometry F M O D X} {r : Reconstruction F P} {camera : ViewId → O × M}
    {orientations : AMap ViewId O} {m : AMap ViewId X} {w : ℚ} {t : TrackId} (vs : List ViewId) :
    ∀ {bs}, trackBlocks g r camera orientations m w t vs = .ok bs → bs = vs.filterMap (observation g r camera m w t) := by
  induction vs with
  | nil => intro bs h; simp only [trackBlocks, Outcome.ok.injEq] at h; subst h; rfl
  | cons v vs ih =>
    intro bs h
    rw [trackBlocks] at h
    split at h
    case isTrue hv =>
      split at h
      · cases h
      · cases h
      · rename_i q V hq hV
        split at h
        · cases h
        · rename_i f hf
          split at h
          · cases h
          · obtain ⟨rest, hr, h⟩ := Outcome.bind_eq_ok.1 h
            simp only [Outcome.ok.injEq] at h
            subst h
            rw [ih hr, List.filterMap_cons]
            simp [observation, hv, hV, hf]
    case isFalse hv =>
      rw [ih h, List.filterMap_cons]
      simp [observation, hv]

theorem trackBlocks_ok {g : Geometry F M O D X} {r : Reconstruction F P} {camera : ViewId → O × M}
    {orientations : AMap ViewId O} {m : AMap ViewId X} {w : ℚ} (hw : 0 < w) {t : TrackId} (vs : List ViewId)
    (h : ∀ v ∈ vs, v ∈ m.keys → (∃ q, orientations.get v = some q) ∧ ∃ V f, r.view v = some V ∧ V.getFeature t = some f) :
    ∃ bs, trackBlocks g r camera orientations m w t vs = .ok bs := by
  induction vs with
  | nil => exact ⟨_, rfl⟩
  | cons v vs ih =>
    obtain ⟨bs, hb⟩ := ih fun u hu => h u (List.mem_cons_of_mem _ hu)
    rw [trackBlocks]
    split
    case isTrue hv =>
      obtain ⟨⟨q, hq⟩, V, f, hV, hf⟩ := h v (List.mem_cons_self ..) (AMap.contains_iff.1 hv)
      rw [hq, hV]
      simp only [hf, if_neg (not_le.2 hw), hb, Outcome.ok_bind]
      exact ⟨_, rfl⟩
    case isFalse hv => exact ⟨bs, hb⟩

/-- The observations of a track. -/
def observations (ord : Orders) (g : Geometry F M O D X) (r : Reconstruction F P) (camera : ViewId → O × M) (m : AMap ViewId X)
    (w : ℚ) (t : TrackId) : List (Block D) :=
  match r.track t with
  | none => []
  | some T => (ord.observers T.views).filterMap (observation g r camera m w t)

theorem pointBlocks_eq {ord : Orders} {g : Geometry F M O D X} {r : Reconstruction F P} {camera : ViewId → O × M}
    {orientations : AMap ViewId O} {m : AMap ViewId X} {w : ℚ} (ts : List TrackId) :
    ∀ {bs}, pointBlocks ord g r camera orientations m w ts = .ok bs → bs = ts.flatMap (observations ord g r camera m w) := by
  induction ts with
  | nil => intro bs h; simp only [pointBlocks, Outcome.ok.injEq] at h; subst h; rfl
  | cons t ts ih =>
    intro bs h
    rw [pointBlocks] at h
    split at h
    · cases h
    · rename_i T hT
      obtain ⟨b, hb, h⟩ := Outcome.bind_eq_ok.1 h
      obtain ⟨rest, hr, h⟩ := Outcome.bind_eq_ok.1 h
      simp only [Outcome.ok.injEq] at h
      subst h
      rw [ih hr, trackBlocks_eq _ hb, List.flatMap_cons, observations, hT]

theorem pointBlocks_ok {ord : Orders} (ho : ValidOrders ord) {g : Geometry F M O D X} {r : Reconstruction F P}
    (hr : r.Reachable) {camera : ViewId → O × M} {orientations : AMap ViewId O} {m : AMap ViewId X} {w : ℚ} (hw : 0 < w)
    (hm : ∀ v ∈ m.keys, v ∈ orientations.keys) (ts : List TrackId) (hts : ∀ t ∈ ts, ∃ T, r.track t = some T) :
    ∃ bs, pointBlocks ord g r camera orientations m w ts = .ok bs := by
  induction ts with
  | nil => exact ⟨_, rfl⟩
  | cons t ts ih =>
    obtain ⟨rest, hrest⟩ := ih fun t' h => hts t' (List.mem_cons_of_mem _ h)
    obtain ⟨T, hT⟩ := hts t (List.mem_cons_self ..)
    obtain ⟨bs, hb⟩ := trackBlocks_ok (g := g) (r := r) (camera := camera) (orientations := orientations) (m := m) hw (t := t)
      (ord.observers T.views) (by
        intro v hv hvm
        refine ⟨AMap.mem_keys_iff.1 (hm v hvm), ?_⟩
        obtain ⟨V, hV, ht⟩ := ((inv_of_reachable hr).sym v t).2 ⟨T, hT, (ho.observers _).mem_iff.1 hv⟩
        obtain ⟨f, hf⟩ := AMap.mem_keys_iff.1 ht
        exact ⟨V, f, hV, hf⟩)
    rw [pointBlocks, hT]
    simp only [hb, Outcome.ok_bind, hrest]
    exact ⟨_, rfl⟩

theorem mem_observations {ord : Orders} (ho : ValidOrders ord) {g : Geometry F M O D X} {r : Reconstruction F P}
    (hr : r.Reachable) {camera : ViewId → O × M} {m : AMap ViewId X} {w : ℚ} {t : TrackId} {b : Block D} :
    b ∈ observations ord g r camera m w t ↔ ∃ v V f, v ∈ m.keys ∧ r.view v = some V ∧ V.getFeature t = some f ∧
      b = .point v t (g.ray (camera v).1 (camera v).2 f) w := by
  have hi := inv_of_reachable hr
  unfold observations
  constructor
  · intro h
    split at h
    · cases h
    · rename_i T hT
      obtain ⟨v, hv, h⟩ := List.mem_filterMap.1 h
      unfold observation at h
      split at h
      · rename_i hc
        obtain ⟨V, hV, h⟩ := Option.bind_eq_some_iff.1 h
        obtain ⟨f, hf, h⟩ := Option.map_eq_some_iff.1 h
        exact ⟨v, V, f, AMap.contains_iff.1 hc, hV, hf, h.symm⟩
      · cases h
  · rintro ⟨v, V, f, hv, hV, hf, rfl⟩
    obtain ⟨T, hT, hvT⟩ := Builder.feature_track hr hV hf
    rw [hT]
    simp only [List.mem_filterMap]
    refine ⟨v, (ho.observers _).mem_iff.2 hvT, ?_⟩
    simp [observation, AMap.contains_iff.2 hv, hV, hf]

theorem observation_view {g : Geometry F M O D X} {r : Reconstruction F P} {camera : ViewId → O × M} {m : AMap ViewId X}
    {w : ℚ} {t : TrackId} {v : ViewId} {b : Block D} (h : observation g r camera m w t v = some b) :
    ∃ q, b = .point v t q w := by
  unfold observation at h
  split at h
  · obtain ⟨V, hV, h⟩ := Option.bind_eq_some_iff.1 h
    obtain ⟨f, hf, h⟩ := Option.map_eq_some_iff.1 h
    exact ⟨_, h.symm⟩
  · cases h

theorem observations_nodup {ord : Orders} (ho : ValidOrders ord) {g : Geometry F M O D X} {r : Reconstruction F P}
    (hr : r.Reachable) {camera : ViewId → O × M} {m : AMap ViewId X} {w : ℚ} {t : TrackId} :
    (observations ord g r camera m w t).Nodup := by
  unfold observations
  split
  · exact List.nodup_nil
  · rename_i T hT
    refine ((ho.observers _).nodup_iff.2 ((inv_of_reachable hr).ndTrack t T hT)).filterMap fun v v' b h h' => ?_
    obtain ⟨q, rfl⟩ := observation_view h
    obtain ⟨q', h⟩ := observation_view h'
    cases h
    rfl

theorem length_filterMap_eq {α β : Type} (f : α → Option β) (p : α → Bool) (l : List α) (h : ∀ a ∈ l, (f a).isSome = p a) :
    (l.filterMap f).length = (l.filter p).length := by
  induction l with
  | nil => rfl
  | cons a l ih =>
    have ha := h a (List.mem_cons_self ..)
    have ih := ih fun b hb => h b (List.mem_cons_of_mem _ hb)
    rw [List.filterMap_cons, List.filter_cons]
    cases hf : f a with
    | none => rw [hf] at ha; simp [← ha, ih]
    | some b => rw [hf] at ha; simp [← ha, ih]

theorem length_observations {ord : Orders} (ho : ValidOrders ord) {g : Geometry F M O D X} {r : Reconstruction F P}
    (hr : r.Reachable) {camera : ViewId → O × M} {m : AMap ViewId X} (hm : m.WF) {w : ℚ} {t : TrackId} :
    (observations ord g r camera m w t).length = (m.keys.filter fun v => listed r v t).length := by
  have hi := inv_of_reachable hr
  unfold observations
  cases hT : r.track t with
  | none => simp [listed, hT]
  | some T =>
    simp only
    rw [length_filterMap_eq _ fun v => m.contains v]
    · refine List.Perm.length_eq ((List.perm_ext_iff_of_nodup ?_ ?_).2 fun v => ?_)
      · exact ((ho.observers _).nodup_iff.2 (hi.ndTrack t T hT)).filter _
      · exact List.Nodup.filter _ hm
      · simp only [List.mem_filter, (ho.observers _).mem_iff, AMap.contains_iff, listed, hT, decide_eq_true_eq]
        exact and_comm
    · intro v hv
      obtain ⟨V, hV, ht⟩ := (hi.sym v t).2 ⟨T, hT, (ho.observers _).mem_iff.1 hv⟩
      obtain ⟨f, hf⟩ := AMap.mem_keys_iff.1 ht
      have hV : r.view v = some V := hV
      have hf : V.getFeature t = some f := hf
      unfold observation
      by_cases hc : m.contains v = true
      · simp [hc, hV, hf]
      · simp [hc]

theorem length_observations_view {ord : Orders} (ho : ValidOrders ord) {g : Geometry F M O D X} {r : Reconstruction F P}
    (hr : r.Reachable) {camera : ViewId → O × M} {m : AMap ViewId X} {w : ℚ} {t : TrackId} {v : ViewId}
    (hv : v ∈ m.keys) (hl : listed r v t = true) :
    1 ≤ ((observations ord g r camera m w t).filter (Block.uses v)).length := by
  obtain ⟨T, hT, hvT⟩ := listed_iff.1 hl
  obtain ⟨V, hV, ht⟩ := ((inv_of_reachable hr).sym v t).2 ⟨T, hT, hvT⟩
  obtain ⟨f, hf⟩ := AMap.mem_keys_iff.1 ht
  refine List.length_pos_of_mem (a := .point v t (g.ray (camera v).1 (camera v).2 f) w) (List.mem_filter.2 ⟨?_, ?_⟩)
  · exact (mem_observations ho hr).2 ⟨v, V, f, hv, hV, hf, rfl⟩
  · simp [Block.uses]

theorem length_flatMap_view {ord : Orders} (ho : ValidOrders ord) {g : Geometry F M O D X} {r : Reconstruction F P}
    (hr : r.Reachable) {camera : ViewId → O × M} {m : AMap ViewId X} {w : ℚ} {v : ViewId} (hv : v ∈ m.keys)
    (ts : List TrackId) :
    (ts.filter (listed r v)).length ≤ ((ts.flatMap (observations ord g r camera m w)).filter (Block.uses v)).length := by
  induction ts with
  | nil => simp
  | cons t ts ih =>
    rw [List.flatMap_cons, List.filter_append, List.length_append, List.filter_cons]
    split
    · rename_i hl
      have := length_observations_view (g := g) (camera := camera) (w := w) ho hr hv hl
      simp only [List.length_cons]
      omega
    · omega

theorem flatMap_nodup {ord : Orders} (ho : ValidOrders ord) {g : Geometry F M O D X} {r : Reconstruction F P}
    (hr : r.Reachable) {camera : ViewId → O × M} {m : AMap ViewId X} {w : ℚ} {ts : List TrackId} (h : ts.Nodup) :
    (ts.flatMap (observations ord g r camera m w)).Nodup := by
  induction ts with
  | nil => simp
  | cons t ts ih =>
    rw [List.nodup_cons] at h
    rw [List.flatMap_cons, List.nodup_append]
    refine ⟨observations_nodup ho hr, ih h.2, fun a ha b hb => ?_⟩
    rintro rfl
    obtain ⟨t', ht', hb⟩ := List.mem_flatMap.1 hb
    obtain ⟨v, V, f, _, _, _, rfl⟩ := (mem_observations ho hr).1 ha
    obtain ⟨v', V', f', _, _, _, he⟩ := (mem_observations ho hr).1 hb
    simp only [Block.point.injEq] at he
    exact h.1 (he.2.1 ▸ ht')

/-- The constraints on points that a run adds. -/
structure Added (ord : Orders) (g : Geometry F M O D X) (o : Options) (r : Reconstruction F P) (camera : ViewId → O × M)
    (m : AMap ViewId X) (n : Nat) (sel : List TrackId) (w : ℚ) (ps : List (Block D)) : Prop where
  nodup : sel.Nodup
  seen : ∀ t ∈ sel, ∃ v ∈ m.keys, listed r v t = true
  eq : ps = sel.flatMap (observations ord g r camera m w)
  enough : ∀ v ∈ m.keys, ∀ V, r.view v = some V → o.minPoints.toNat ≤ V.features.size →
    o.minPoints.toNat ≤ (ps.filter (Block.uses v)).length
  pos : 0 < ps.length
  weight : w * ps.length = o.pointWeight * n

theorem addPoints_spec {ord : Orders} (ho : ValidOrders ord) {g : Geometry F M O D X} {o : Options} {r : Reconstruction F P}
    (hr : r.Reachable) {camera : ViewId → O × M} {orientations : AMap ViewId O} {m : AMap ViewId X} (hm : m.WF) {n : Nat}
    {ps : List (Block D)} (h : addPoints ord g o r camera orientations m n = .ok ps) :
    ∃ sel w, Added ord g o r camera m n sel w ps := by
  obtain ⟨sel, c, h1, h2, h3, h4, h5⟩ := findTracks_spec (k := o.minPoints.toNat) ho hr hm
  rw [addPoints, h1, Outcome.ok_bind] at h
  simp only at h
  split at h
  · cases h
  · rename_i hc
    have he := pointBlocks_eq _ h
    have hlen : ps.length = c := by
      rw [he, List.length_flatMap, h5]
      rw [← ((ho.chosen sel).map _).sum_eq]
      congr 1
      exact List.map_congr_left fun t _ => length_observations ho hr hm
    refine ⟨ord.chosen sel, _, (ho.chosen _).nodup_iff.2 h2, fun t ht => h3 t ((ho.chosen _).mem_iff.1 ht), he, ?_, by omega, ?_⟩
    · intro v hv V hV hk
      refine (h4 v hv V hV hk).trans ?_
      rw [← ((ho.chosen sel).filter _).length_eq, he]
      exact length_flatMap_view ho hr hv _
    · rw [hlen]
      have : (c : ℚ) ≠ 0 := by exact_mod_cast hc
      exact div_mul_cancel₀ _ this

theorem addPoints_ok {ord : Orders} (ho : ValidOrders ord) {g : Geometry F M O D X} {o : Options} {r : Reconstruction F P}
    (hr : r.Reachable) {camera : ViewId → O × M} {orientations : AMap ViewId O} {m : AMap ViewId X} (hm : m.WF)
    (hmo : ∀ v ∈ m.keys, v ∈ orientations.keys) {n : Nat} (hn : 0 < n) (hw : 0 < o.pointWeight) (hp : 0 < o.minPoints)
    (hv : ∃ v ∈ m.keys, ∃ V, r.view v = some V ∧ o.minPoints ≤ V.features.size) :
    ∃ ps, addPoints ord g o r camera orientations m n = .ok ps := by
  obtain ⟨sel, c, h1, h2, h3, h4, h5⟩ := findTracks_spec (k := o.minPoints.toNat) ho hr hm
  obtain ⟨v, hv, V, hV, hk⟩ := hv
  have h6 := h4 v hv V hV (by omega)
  have hc : 0 < c := by
    obtain ⟨t, ht⟩ := List.exists_mem_of_length_pos (show 0 < (sel.filter (listed r v)).length by omega)
    rw [List.mem_filter] at ht
    rw [h5]
    have h7 : (m.keys.filter fun v => listed r v t).length ∈ sel.map fun t => (m.keys.filter fun v => listed r v t).length :=
      List.mem_map.2 ⟨t, ht.1, rfl⟩
    have h8 : 0 < (m.keys.filter fun v => listed r v t).length := List.length_pos_of_mem (List.mem_filter.2 ⟨hv, ht.2⟩)
    exact lt_of_lt_of_le h8 (List.le_sum_of_mem h7)
  rw [addPoints, h1, Outcome.ok_bind]
  simp only
  rw [if_neg (by omega)]
  refine pointBlocks_ok ho hr ?_ hmo _ ?_
  · have h9 : (0 : ℚ) < c := by exact_mod_cast hc
    have h10 : (0 : ℚ) < n := by exact_mod_cast hn
    positivity
  · intro t ht
    obtain ⟨u, _, hl⟩ := h3 t ((ho.chosen _).mem_iff.1 ht)
    obtain ⟨T, hT, _⟩ := listed_iff.1 hl
    exact ⟨T, hT⟩

/-! ## The whole -/

theorem checkOptions_ok {o : Options} : checkOptions o = .ok () ↔
    0 < o.numThreads ∧ 0 ≤ o.minPoints ∧ 0 < o.pointWeight ∧ 0 < o.robustLossWidth := by
  unfold checkOptions
  constructor
  · intro h
    split at h
    · cases h
    · split at h
      · cases h
      · split at h
        · cases h
        · split at h
          · cases h
          · refine ⟨by omega, by omega, ?_, ?_⟩ <;> apply lt_of_not_ge <;> assumption
  · rintro ⟨h1, h2, h3, h4⟩
    rw [if_neg (by omega), if_neg (by omega), if_neg (not_le.2 h3), if_neg (not_le.2 h4)]

theorem solveProblem_eq {ord : Orders} {g : Geometry F M O D X}
    {solve : List (Block D) → ViewId → AMap ViewId X → Bool × (ViewId → X)} {blocks : List (Block D)} {m : AMap ViewId X}
    {run : Run D X} (h : solveProblem ord g solve blocks m = .ok run) :
    ∃ v0 rest, ord.positions m.keys = v0 :: rest ∧ blocks.any (Block.uses v0) = true ∧ run.blocks = blocks ∧
      run.fixed = some v0 ∧ run.usable = (solve blocks v0 (m.insert v0 g.origin)).1 ∧
      run.positions = (m.insert v0 g.origin).mapVals fun v x =>
        if v ≠ v0 ∧ blocks.any (Block.uses v) then (solve blocks v0 (m.insert v0 g.origin)).2 v else x := by
  unfold solveProblem at h
  split at h
  · cases h
  · rename_i v0 rest hv
    split at h
    · rename_i hu
      simp only [Outcome.ok.injEq] at h
      subst h
      exact ⟨v0, rest, hv, hu, rfl, rfl, rfl, rfl⟩
    · cases h

theorem estimate_eq {ord : Orders} {g : Geometry F M O D X}
    {solve : List (Block D) → ViewId → AMap ViewId X → Bool × (ViewId → X)} {o : Options} {r : Reconstruction F P}
    {camera : ViewId → O × M} {pairs : List ((ViewId × ViewId) × D)} {orientations : AMap ViewId O} {m0 : AMap ViewId X}
    {run : Run D X} (h : estimate ord g solve o r camera pairs orientations m0 = .ok run) :
    (0 < o.numThreads ∧ 0 ≤ o.minPoints ∧ 0 < o.pointWeight ∧ 0 < o.robustLossWidth) ∧
    ((pairs = [] ∨ orientations.entries = []) ∧ run = ⟨false, m0, [], none⟩ ∨
      (pairs ≠ [] ∧ orientations.entries ≠ []) ∧
      ∃ cs ps, cameraBlocks g orientations (initialPositions g (constrained pairs) orientations.entries 0 m0).1 pairs = .ok cs ∧
        (if 0 < o.minPoints then addPoints ord g o r camera orientations
          (initialPositions g (constrained pairs) orientations.entries 0 m0).1 cs.length = .ok ps else ps = []) ∧
        solveProblem ord g solve (cs ++ ps) (initialPositions g (constrained pairs) orientations.entries 0 m0).1 = .ok run) := by
  unfold estimate at h
  obtain ⟨u, hu, h⟩ := Outcome.bind_eq_ok.1 h
  refine ⟨checkOptions_ok.1 hu, ?_⟩
  split at h
  · rename_i he
    simp only [Outcome.ok.injEq] at h
    exact .inl ⟨he, h.symm⟩
  · rename_i he
    rw [not_or] at he
    right
    refine ⟨he, ?_⟩
    simp only at h
    obtain ⟨cs, hc, h⟩ := Outcome.bind_eq_ok.1 h
    split at h
    · rename_i hp
      obtain ⟨ps, hps, h⟩ := Outcome.bind_eq_ok.1 h
      exact ⟨cs, ps, hc, by rw [if_pos hp]; exact hps, h⟩
    · rename_i hp
      exact ⟨cs, [], hc, by rw [if_neg hp], by rw [List.append_nil]; exact h⟩

end NonlinearPosition
end Theia
