import Verif.Proof.Bundler
import Verif.Spec.Bundler
import Verif.Proof.TrackBuilder
import Mathlib.Data.List.Nodup
import Mathlib.Tactic.Linarith

/-!
# Lemmas on loading Bundler files
-/

namespace Theia
namespace Bundler

open Spec Reconstruction

variable {K : Type}

theorem reachable_addView {F P : Type} {r r' : Reconstruction F P} (h : r.Reachable) {n : String} {o : Option ViewId}
    (he : r.addView n = .ok (o, r')) : r'.Reachable :=
  reachable_step h (op := .addView n) (a := .viewId o) (by simp [step, he, Outcome.bind])

/-- A reconstruction with the given names and no features or tracks. -/
structure Fresh {F P : Type} (r : Reconstruction F P) (ns : List String) : Prop where
  reach : r.Reachable
  next : r.nextViewId = ns.length
  nextT : r.nextTrackId = 0
  keys : r.viewIds = List.range ns.length
  tracks : ∀ t, r.track t = none
  view : ∀ (i : Nat) n, ns[i]? = some n → ∃ V, r.view i = some V ∧ V.name = n ∧ V.features = .empty

theorem Fresh.snoc {F P : Type} {r : Reconstruction F P} {ns : List String} (h : Fresh r ns) {n : String} (hn : n ∉ ns)
    (hne : n ≠ "") : ∃ r', r.addView n = .ok (some ns.length, r') ∧ Fresh r' (ns ++ [n]) := by
  have hi := inv_of_reachable h.reach
  have h1 : n ∉ r.names.keys := by
    intro hc
    obtain ⟨v, hv⟩ := AMap.mem_keys_iff.1 hc
    obtain ⟨V, hV, hname⟩ := (hi.name n v).1 hv
    have hvk : v ∈ r.viewIds := AMap.mem_keys_iff.2 ⟨V, hV⟩
    rw [h.keys, List.mem_range] at hvk
    obtain ⟨V', hV', hname', -⟩ := h.view v ns[v] (List.getElem?_eq_getElem hvk)
    have : V' = V := Option.some.inj (hV'.symm.trans hV)
    subst this
    rw [hname] at hname'
    exact hn (hname' ▸ List.getElem_mem hvk)
  obtain ⟨intr, -, -, he⟩ := addViewToGroup_spec hi (g := r.nextGroupId) h1 hne
  rw [h.next] at he
  have he' : r.addView n = .ok (some ns.length, { r with
      views := r.views.insert ns.length ⟨n, false, intr, .empty⟩
      names := r.names.insert n ns.length
      viewGroup := r.viewGroup.insert ns.length r.nextGroupId
      groups := r.groups.insert r.nextGroupId (r.viewsInGroup r.nextGroupId ++ [ns.length])
      nextViewId := ns.length + 1
      nextGroupId := r.nextGroupId + 1
      nextIntrinsics := r.nextIntrinsics + 1 }) := by
    unfold addView
    rw [he]
  refine ⟨_, he', reachable_addView h.reach he', ?_, h.nextT, ?_, h.tracks, ?_⟩
  · simp
  · show (r.views.insert ns.length _).keys = _
    have hk : r.views.keys = List.range ns.length := h.keys
    rw [AMap.keys_insert, hk, if_neg (by simp)]
    simp [List.range_succ]
  · intro i m hm
    show ∃ V, (r.views.insert ns.length _).get i = some V ∧ _
    by_cases hi' : i = ns.length
    · subst hi'
      rw [AMap.get_insert_self]
      simp only [List.getElem?_concat_length, Option.some.injEq] at hm
      subst hm
      exact ⟨_, rfl, rfl, rfl⟩
    · rw [AMap.get_insert_ne _ _ hi']
      have hlt : i < ns.length := by
        have := (List.getElem?_eq_some_iff.1 hm).1
        simp at this; omega
      rw [List.getElem?_append_left hlt] at hm
      exact h.view i m hm

section load
variable [Field K] [LinearOrder K] [FloorRing K]

omit [FloorRing K] in
theorem addViews_spec (base : String → String) (es : List (Entry K)) : ∀ (s : Loaded K) (ns : List String), Fresh s.recon ns →
    (∀ e ∈ es, base e.name ≠ "") → (ns ++ es.map fun e => base e.name).Nodup → (∀ i, ns.length ≤ i → s.priors.get i = none) →
    ∃ s', addViews base es s = .ok s' ∧ Fresh s'.recon (ns ++ es.map fun e => base e.name) ∧ s'.cams = s.cams ∧
      (∀ i, i < ns.length → s'.priors.get i = s.priors.get i) ∧
      ∀ (i : Nat) f, s'.priors.get (ns.length + i) = some f ↔ ∃ e, es[i]? = some e ∧ e.focal = some f ∧ 0 < f := by
  induction es with
  | nil =>
    intro s ns h _ _ hp
    refine ⟨s, rfl, by simpa using h, rfl, fun _ _ => rfl, fun i f => ?_⟩
    rw [hp _ (by omega)]
    simp
  | cons e es ih =>
    intro s ns h hne hnd hp
    have hn : base e.name ∉ ns := by
      rw [List.nodup_append] at hnd
      intro hc
      exact hnd.2.2 _ hc _ (by simp) rfl
    obtain ⟨r', he, hf⟩ := h.snoc hn (hne e List.mem_cons_self)
    let priors' : AMap ViewId K := match e.focal with
      | some f => if 0 < f then s.priors.insert ns.length f else s.priors
      | none => s.priors
    have hpr : ∀ i : Nat, i ≠ ns.length → priors'.get i = s.priors.get i := by
      intro i hi
      show AMap.get (match e.focal with
        | some f => if 0 < f then s.priors.insert ns.length f else s.priors
        | none => s.priors) i = _
      cases e.focal with
      | none => rfl
      | some f =>
        simp only
        split
        · exact AMap.get_insert_ne _ _ hi
        · rfl
    have hpr0 : ∀ f, priors'.get ns.length = some f ↔ e.focal = some f ∧ 0 < f := by
      intro f
      show AMap.get (match e.focal with
        | some f => if 0 < f then s.priors.insert ns.length f else s.priors
        | none => s.priors) ns.length = _ ↔ _
      have h0 := hp ns.length le_rfl
      cases e.focal with
      | none => simp [h0]
      | some g =>
        simp only
        split
        · rename_i hg
          rw [AMap.get_insert_self]
          constructor
          · intro h; cases h; exact ⟨rfl, hg⟩
          · rintro ⟨h, -⟩; exact h
        · rename_i hg
          rw [h0]
          constructor
          · intro h; cases h
          · rintro ⟨h, hf⟩; cases h; exact absurd hf hg
    obtain ⟨s', he', hf', hc, hp1, hp2⟩ := ih { s with recon := r', priors := priors' } (ns ++ [base e.name]) hf
      (fun x hx => hne x (List.mem_cons_of_mem _ hx)) (by simpa using hnd) (by
        intro i hi
        simp only [List.length_append, List.length_cons, List.length_nil] at hi
        show priors'.get i = none
        rw [hpr i (by omega), hp i (by omega)])
    refine ⟨s', ?_, by simpa using hf', hc, ?_, ?_⟩
    · unfold addViews
      rw [if_neg (hne e List.mem_cons_self), he]
      exact he'
    · intro i hi
      rw [hp1 i (by simp; omega)]
      exact hpr i (by omega)
    · intro i f
      cases i with
      | zero =>
        rw [Nat.add_zero, hp1 _ (by simp), hpr0]
        simp
      | succ i =>
        have := hp2 i f
        simp only [List.length_append, List.length_cons, List.length_nil] at this
        rw [show ns.length + (i + 1) = ns.length + (0 + 1) + i by omega, this]
        simp

omit [FloorRing K] in
theorem addCameras_spec (default : Cam K) (bs : List (BCam K)) : ∀ (i : Nat) (s : Loaded K), s.recon.Reachable →
    (∀ j, i ≤ j → j < i + bs.length → ∃ V, s.recon.view j = some V) →
    ∃ rm s', addCameras default bs i s = .ok (rm, s') ∧ s'.recon.Reachable ∧ s'.priors = s.priors ∧
      (∀ w : Nat, s'.recon.view w = (s.recon.view w).map fun V =>
        { V with estimated := if i ≤ w ∧ w < i + bs.length then true else V.estimated }) ∧
      (∀ t, s'.recon.track t = s.recon.track t) ∧ s'.recon.nextTrackId = s.recon.nextTrackId ∧
      (∀ w : Nat, s'.cams.get w = if i ≤ w ∧ w < i + bs.length then (bs[w - i]?).map (loadCamera default) else s.cams.get w) ∧
      rm.Nodup ∧ (∀ w : Nat, w ∈ rm ↔ i ≤ w ∧ ∃ b, bs[w - i]? = some b ∧ b.focal ≤ 0) := by
  induction bs with
  | nil =>
    intro i s h _
    refine ⟨[], s, rfl, h, rfl, ?_, fun _ => rfl, rfl, ?_, List.nodup_nil, by simp⟩
    · intro w
      have : ¬ (i ≤ w ∧ w < i + ([] : List (BCam K)).length) := by simp
      simp only [if_neg this]
      cases s.recon.view w <;> rfl
    · intro w
      have : ¬ (i ≤ w ∧ w < i + ([] : List (BCam K)).length) := by simp
      rw [if_neg this]
  | cons b bs ih =>
    intro i s h hv
    obtain ⟨V, hV⟩ := hv i le_rfl (by simp)
    have hset : s.recon.setViewEstimated i true = .ok { s.recon with views := s.recon.views.insert i { V with estimated := true } } := by
      unfold setViewEstimated
      rw [show s.recon.views.get i = some V from hV]
    have hvw : ∀ w : Nat, ({ s.recon with views := s.recon.views.insert i { V with estimated := true } } : Reconstruction _ _).view w =
        if w = i then some { V with estimated := true } else s.recon.view w := by
      intro w
      show (s.recon.views.insert i _).get w = _
      rw [AMap.get_insert]
      rfl
    obtain ⟨rm, s', he, hr, hp, hview, ht, hnt, hc, hnd, hrm⟩ := ih (i + 1)
      { s with recon := { s.recon with views := s.recon.views.insert i { V with estimated := true } },
               cams := s.cams.insert i (loadCamera default b) } (reachable_setViewEstimated h hset) (by
        intro j h1 h2
        rw [hvw]
        split
        · exact ⟨_, rfl⟩
        · exact hv j (by omega) (by simp only [List.length_cons]; omega))
    have hnotin : i ∉ rm := fun hc => by have := (hrm i).1 hc; omega
    refine ⟨if b.focal ≤ 0 then i :: rm else rm, s', ?_, hr, hp, ?_, ht, hnt, ?_, ?_, ?_⟩
    · unfold addCameras
      rw [hset]
      simp only [Outcome.ok_bind]
      rw [he]
      simp
    · intro w
      rw [hview, hvw]
      by_cases hw : w = i
      · subst hw
        simp [hV]
      · simp only [if_neg hw]
        congr 1
        funext V
        have : (i + 1 ≤ w ∧ w < i + 1 + bs.length) ↔ (i ≤ w ∧ w < i + (b :: bs).length) := by
          simp only [List.length_cons]; omega
        simp only [this]
    · intro w
      rw [hc]
      by_cases hw : w = i
      · subst hw
        simp [AMap.get_insert_self]
      · have : (i + 1 ≤ w ∧ w < i + 1 + bs.length) ↔ (i ≤ w ∧ w < i + (b :: bs).length) := by
          simp only [List.length_cons]; omega
        simp only [this]
        split
        · rename_i h1
          have : w - i = w - (i + 1) + 1 := by omega
          rw [this, List.getElem?_cons_succ]
        · exact AMap.get_insert_ne _ _ hw
    · split
      · rw [List.nodup_cons]; exact ⟨hnotin, hnd⟩
      · exact hnd
    · intro w
      have hrest : w ≠ i → (w ∈ rm ↔ i ≤ w ∧ ∃ b', (b :: bs)[w - i]? = some b' ∧ b'.focal ≤ 0) := by
        intro hw
        rw [hrm]
        constructor
        · rintro ⟨h1, b', hb', hf⟩
          refine ⟨by omega, b', ?_, hf⟩
          rw [show w - i = w - (i + 1) + 1 by omega, List.getElem?_cons_succ, hb']
        · rintro ⟨h1, b', hb', hf⟩
          refine ⟨by omega, b', ?_, hf⟩
          rwa [show w - i = w - (i + 1) + 1 by omega, List.getElem?_cons_succ] at hb'
      by_cases hw : w = i
      · subst hw
        split <;> rename_i hb
        · simp [hb]
        · simp [hb, hnotin]
      · split
        · rw [List.mem_cons]
          simp only [hw, false_or]
          exact hrest hw
        · exact hrest hw

/-- The tracks of `r` are the given ones, and the rest is as in `r0`. -/
structure HasTracks {F P : Type} (r0 r : Reconstruction F P) (A : List (List (ViewId × F) × P)) : Prop where
  reach : r.Reachable
  next : r.nextTrackId = A.length
  track : ∀ t : Nat, r.track t = (A[t]?).map fun a => ⟨true, a.2, a.1.map (·.1)⟩
  viewNone : ∀ v, r0.view v = none → r.view v = none
  view : ∀ v V0, r0.view v = some V0 → ∃ V, r.view v = some V ∧ V.name = V0.name ∧ V.estimated = V0.estimated ∧
    ∀ (t : Nat) f, V.getFeature t = some f ↔ ∃ a, A[t]? = some a ∧ (v, f) ∈ a.1

theorem HasTracks.snoc {F P : Type} {r0 r : Reconstruction F P} {A : List (List (ViewId × F) × P)} (h : HasTracks r0 r A) (p0 p : P)
    (obs : List (ViewId × F)) (h2 : 2 ≤ obs.length) (hnd : (obs.map (·.1)).Nodup) (hk : ∀ o ∈ obs, ∃ V, r0.view o.1 = some V) :
    ∃ r1 r2, r.addTrack p0 obs = .ok (some A.length, r1) ∧ r1.setTrackEstimated A.length true p = .ok r2 ∧
      HasTracks r0 r2 (A ++ [(obs, p)]) := by
  have hi := inv_of_reachable h.reach
  obtain ⟨X, he, hXk, hXg⟩ := addTrack_spec hi p0 obs h2 hnd (by
    intro o ho
    obtain ⟨V0, hV0⟩ := hk o ho
    obtain ⟨V, hV, -⟩ := h.view _ _ hV0
    exact AMap.mem_keys_iff.2 ⟨V, hV⟩)
  rw [h.next] at he hXg
  have hs : ({ r with views := X, tracks := r.tracks.insert A.length ⟨false, p0, obs.map (·.1)⟩, nextTrackId := A.length + 1 } :
      Reconstruction F P).setTrackEstimated A.length true p =
      .ok { r with
        views := X
        tracks := (r.tracks.insert A.length ⟨false, p0, obs.map (·.1)⟩).insert A.length ⟨true, p, obs.map (·.1)⟩
        nextTrackId := A.length + 1 } := by
    unfold setTrackEstimated
    simp only [AMap.get_insert_self]
  refine ⟨_, _, he, hs, reachable_setTrackEstimated (TrackBuilder.reachable_addTrack h.reach he) hs, by simp, ?_, ?_, ?_⟩
  · intro t
    show ((r.tracks.insert A.length _).insert A.length _).get t = _
    by_cases ht : t = A.length
    · subst ht
      rw [AMap.get_insert_self]
      simp
    · rw [AMap.get_insert_ne _ _ ht, AMap.get_insert_ne _ _ ht]
      have := h.track t
      unfold Reconstruction.track at this
      rw [this]
      by_cases hlt : t < A.length
      · rw [List.getElem?_append_left hlt]
      · rw [List.getElem?_eq_none (by omega), List.getElem?_eq_none (by simp; omega)]
  · intro v hv
    have h0 := h.viewNone v hv
    have : v ∉ r.views.keys := AMap.get_eq_none_iff.1 h0
    rw [← hXk] at this
    exact AMap.get_eq_none_iff.2 this
  · intro v V0 hV0
    obtain ⟨V, hV, a1, a2, a3⟩ := h.view v V0 hV0
    have hXv := hXg v
    rw [show r.views.get v = some V from hV] at hXv
    have hold : ∀ (t : Nat) f, t ≠ A.length → ((∃ a, (A ++ [(obs, p)])[t]? = some a ∧ (v, f) ∈ a.1) ↔ ∃ a, A[t]? = some a ∧ (v, f) ∈ a.1) := by
      intro t f ht
      by_cases hlt : t < A.length
      · rw [List.getElem?_append_left hlt]
      · rw [List.getElem?_eq_none (l := A) (by omega),
          List.getElem?_eq_none (l := A ++ [(obs, p)]) (by simp only [List.length_append, List.length_singleton]; omega)]
    have hnew : ∀ f, V.getFeature A.length = some f → False := by
      intro f hf
      obtain ⟨a, ha, -⟩ := (a3 _ f).1 hf
      simp at ha
    cases hfind : obs.find? (fun o => decide (o.1 = v)) with
    | none =>
      rw [hfind] at hXv
      refine ⟨V, hXv, a1, a2, fun t f => ?_⟩
      by_cases ht : t = A.length
      · subst ht
        constructor
        · intro hf; exact (hnew f hf).elim
        · rintro ⟨a, ha, hm⟩
          simp only [List.getElem?_concat_length, Option.some.injEq] at ha
          subst ha
          have := List.find?_eq_none.1 hfind (v, f) hm
          simp at this
      · rw [hold t f ht, a3]
    | some o =>
      rw [hfind] at hXv
      have ho1 : o.1 = v := by simpa using List.find?_some hfind
      have hom : o ∈ obs := List.mem_of_find?_eq_some hfind
      refine ⟨V.addFeature A.length o.2, hXv, a1, a2, fun t f => ?_⟩
      by_cases ht : t = A.length
      · subst ht
        show (V.features.insert A.length o.2).get A.length = some f ↔ _
        rw [AMap.get_insert_self]
        constructor
        · intro hf
          cases hf
          exact ⟨(obs, p), by simp, by rw [← ho1]; exact hom⟩
        · rintro ⟨a, ha, hm⟩
          simp only [List.getElem?_concat_length, Option.some.injEq] at ha
          subst ha
          have := List.inj_on_of_nodup_map hnd hom hm (by simp [ho1])
          rw [this]
      · show (V.features.insert A.length o.2).get t = some f ↔ _
        rw [AMap.get_insert_ne _ _ ht, hold t f ht]
        exact a3 t f

/-- The record of a point is used. -/
def goodPoint (rm : List ViewId) (p : BPoint K) : Bool :=
  !decide ((pointObs rm p.views : List (ViewId × (K × K))).length < 2 ∨ p.pos.dot p.pos = 0)

/-- The track added for a point. -/
def newTrack (rm : List ViewId) (p : BPoint K) : List (ViewId × (K × K)) × Point K :=
  (pointObs rm p.views, ⟨p.pos, 1, ((trunc p.color.x).toNat, (trunc p.color.y).toNat, (trunc p.color.z).toNat)⟩)

theorem addTracks_spec (rm : List ViewId) (r0 : Reconstruction (K × K) (Point K)) (ps : List (BPoint K)) :
    ∀ (s : Loaded K) A, HasTracks r0 s.recon A →
    (∀ p ∈ ps, ((pointObs rm p.views : List (ViewId × (K × K))).map (·.1)).Nodup ∧
      (∀ o ∈ (pointObs rm p.views : List (ViewId × (K × K))), ∃ V, r0.view o.1 = some V) ∧
      ∀ c ∈ [p.color.x, p.color.y, p.color.z], 0 ≤ trunc c ∧ trunc c < 256) →
    ∃ s', addTracks rm ps s = .ok (0, s') ∧ s'.cams = s.cams ∧ s'.priors = s.priors ∧
      HasTracks r0 s'.recon (A ++ (ps.filter (goodPoint rm)).map (newTrack rm)) := by
  induction ps with
  | nil =>
    intro s A h _
    exact ⟨s, rfl, rfl, rfl, by simpa using h⟩
  | cons p ps ih =>
    intro s A h hps
    unfold addTracks
    have hrest : ∀ q ∈ ps, _ := fun q hq => hps q (List.mem_cons_of_mem _ hq)
    by_cases hg : (pointObs rm p.views : List (ViewId × (K × K))).length < 2 ∨ p.pos.dot p.pos = 0
    · rw [if_pos hg]
      obtain ⟨s', he, h1, h2, h3⟩ := ih s A h hrest
      refine ⟨s', he, h1, h2, ?_⟩
      have : goodPoint rm p = false := by unfold goodPoint; simp only [hg, decide_true, Bool.not_true]
      simpa [List.filter_cons, this] using h3
    · rw [if_neg hg]
      obtain ⟨hnd, hk, hcol⟩ := hps p List.mem_cons_self
      have hb : ∀ c ∈ [p.color.x, p.color.y, p.color.z], toByte c = .ok (trunc c).toNat := fun c hc => if_pos (hcol c hc)
      obtain ⟨r1, r2, he1, he2, h2⟩ := h.snoc ⟨⟨0, 0, 0⟩, 1, (0, 0, 0)⟩ (newTrack rm p).2 (pointObs rm p.views)
        (by push Not at hg; exact hg.1) hnd hk
      obtain ⟨s', he, h1, h2', h3⟩ := ih { s with recon := r2 } _ h2 hrest
      refine ⟨s', ?_, h1, h2', ?_⟩
      · rw [he1]
        simp only [Outcome.ok_bind]
        rw [hb _ (by simp), hb _ (by simp), hb _ (by simp)]
        simp only [Outcome.ok_bind]
        have he2' : r1.setTrackEstimated A.length true ⟨p.pos, 1, ((trunc p.color.x).toNat, (trunc p.color.y).toNat,
          (trunc p.color.z).toNat)⟩ = .ok r2 := he2
        rw [he2']
        exact he
      · have : goodPoint rm p = true := by unfold goodPoint; simp only [hg, decide_false, Bool.not_false]
        simpa [List.filter_cons, this, newTrack] using h3

omit [Field K] [LinearOrder K] [FloorRing K] in
theorem removeViews_spec (rm : List ViewId) : ∀ (s : Loaded K), s.recon.Reachable → rm.Nodup →
    (∀ v ∈ rm, ∃ V, s.recon.view v = some V) → (∀ t T, s.recon.track t = some T → 1 ≤ T.views.length ∧ ∀ v ∈ T.views, v ∉ rm) →
    ∃ s', removeViews rm s = .ok s' ∧ s'.recon.Reachable ∧ s'.cams = s.cams ∧ s'.priors = s.priors ∧
      (∀ w, s'.recon.view w = if w ∈ rm then none else s.recon.view w) ∧ ∀ t, s'.recon.track t = s.recon.track t := by
  induction rm with
  | nil =>
    intro s h _ _ _
    exact ⟨s, rfl, h, rfl, rfl, by simp, fun _ => rfl⟩
  | cons v rm ih =>
    intro s h hnd hv ht
    rw [List.nodup_cons] at hnd
    obtain ⟨V, hV⟩ := hv v List.mem_cons_self
    obtain ⟨r', he, hr⟩ := EstimatedPart.restricts_removeView h hV
    have htr : ∀ t, r'.track t = s.recon.track t := by
      intro t
      have hfil : ∀ T, s.recon.track t = some T → T.views.filter (fun w => decide (w ≠ v)) = T.views := by
        intro T hT
        rw [List.filter_eq_self]
        intro w hw
        simp only [decide_eq_true_eq]
        rintro rfl
        exact (ht t T hT).2 w hw List.mem_cons_self
      cases h' : r'.track t with
      | some T' =>
        obtain ⟨T, hT, rfl⟩ := hr.trackSome t T' h'
        rw [hT, hfil T hT]
      | none =>
        cases hT : s.recon.track t with
        | none => rfl
        | some T =>
          have h1 := hr.trackNone t T hT h'
          rw [hfil T hT] at h1
          have := (ht t T hT).1
          rw [h1] at this
          simp at this
    obtain ⟨s', he', h1, h2, h3, h4, h5⟩ := ih { s with recon := r' } hr.reach hnd.2
      (by
        intro w hw
        rw [hr.view]
        have : w ≠ v := by rintro rfl; exact hnd.1 hw
        simp only [this, ne_eq, not_false_eq_true, decide_true, if_true]
        exact hv w (List.mem_cons_of_mem _ hw))
      (by
        intro t T hT
        rw [htr] at hT
        exact ⟨(ht t T hT).1, fun w hw hc => (ht t T hT).2 w hw (List.mem_cons_of_mem _ hc)⟩)
    refine ⟨s', ?_, h1, h2, h3, ?_, fun t => (h5 t).trans (htr t)⟩
    · unfold removeViews
      rw [he]
      exact he'
    · intro w
      rw [h4, hr.view]
      by_cases hw : w = v
      · subst hw; simp
      · simp [hw]

end load

end Bundler
end Theia
