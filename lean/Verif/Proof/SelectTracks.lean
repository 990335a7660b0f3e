import Verif.Model.SelectTracks
import Verif.Spec.SelectTracks
import Verif.Proof.Reconstruction

namespace Theia

open Spec

namespace SelectTracks

variable {F P C : Type}

theorem est_iff {r : Reconstruction F P} {t : TrackId} :
    isEstimatedTrack r t = true ↔ ∃ T, r.track t = some T ∧ T.estimated = true := by
  unfold isEstimatedTrack
  split
  · next T h => simp [h]
  · next h => simp [h]

theorem sumErrors_ok {r : Reconstruction F P} (hr : r.Inv) (err : ViewId → TrackId → ℚ) {t : TrackId}
    {T : Track P} (hT : r.track t = some T) (vs : List ViewId) : ∀ acc, (∀ v ∈ vs, v ∈ T.views) →
    sumErrors r err t vs acc = .ok
      (acc.1 + ((vs.filter fun v => match r.view v with
        | some V => V.estimated
        | none => false).map fun v => err v t).sum,
       acc.2 + (vs.filter fun v => match r.view v with
        | some V => V.estimated
        | none => false).length) := by
  induction vs with
  | nil => intro acc _; simp [sumErrors]
  | cons v vs ih =>
    intro acc hv
    have hvs : ∀ w ∈ vs, w ∈ T.views := fun w hw => hv w (List.mem_cons_of_mem _ hw)
    rw [sumErrors]
    cases hV : r.view v with
    | none =>
      rw [List.filter_cons_of_neg (by rw [hV]; simp)]
      exact ih acc hvs
    | some V =>
      simp only
      split
      · next he =>
        obtain ⟨V', hV', hf⟩ := (hr.sym v t).2 ⟨T, hT, hv v List.mem_cons_self⟩
        have : V' = V := by
          have : r.views.get v = some V := hV
          rw [hV'] at this
          exact Option.some.inj this
        subst this
        obtain ⟨f, hf⟩ := AMap.mem_keys_iff.1 hf
        have hgf : V'.getFeature t = some f := hf
        rw [hgf, List.filter_cons_of_pos (by rw [hV]; exact he)]
        simp only
        rw [ih _ hvs, List.map_cons, List.sum_cons, List.length_cons]
        congr 2
        · rw [add_assoc]
        · omega
      · next hne =>
        rw [List.filter_cons_of_neg (by rw [hV]; exact hne)]
        exact ih acc hvs

theorem statisticsForTrack_ok {r : Reconstruction F P} (hr : r.Inv) (err : ViewId → TrackId → ℚ)
    (longTrack : Nat) {t : TrackId} {T : Track P} (hT' : r.track t = some T) (hpos : 0 < (estimatedObservers r T).length) :
    statisticsForTrack r err longTrack t = .ok (cappedLength r longTrack t, meanError r err t) := by
  rw [statisticsForTrack, hT']
  simp only [sumErrors_ok hr err hT' T.views (0, 0) (fun _ h => h)]
  change (if 0 + (estimatedObservers r T).length = 0 then Outcome.ub else
    .ok (min (0 + (estimatedObservers r T).length) longTrack,
      (0 + ((estimatedObservers r T).map fun v => err v t).sum) /
        ((0 + (estimatedObservers r T).length : Nat) : ℚ))) = _
  rw [zero_add, zero_add, if_neg (by omega)]
  unfold cappedLength meanError
  rw [hT']

/-- The statistics computed so far are right. -/
def StatsOk (r : Reconstruction F P) (err : ViewId → TrackId → ℚ) (longTrack : Nat)
    (m : AMap TrackId Stats) : Prop :=
  ∀ t s, m.get t = some s → s = (cappedLength r longTrack t, meanError r err t)

theorem statisticsInView_ok {r : Reconstruction F P} (hr : r.Inv) (err : ViewId → TrackId → ℚ)
    (longTrack : Nat) (ts : List TrackId) : ∀ m, (∀ t ∈ ts, ∀ T, r.track t = some T → T.estimated = true →
      0 < (estimatedObservers r T).length) → StatsOk r err longTrack m →
    ∃ m', statisticsInView r err longTrack ts m = .ok m' ∧ (∀ t ∈ m.keys, t ∈ m'.keys) ∧
      (∀ t ∈ ts, isEstimatedTrack r t = true → t ∈ m'.keys) ∧ StatsOk r err longTrack m' := by
  induction ts with
  | nil => intro m _ hm; exact ⟨m, rfl, fun _ h => h, by simp, hm⟩
  | cons t ts ih =>
    intro m hts hm
    have hts' := fun x hx => hts x (List.mem_cons_of_mem _ hx)
    rw [statisticsInView]
    split
    · next hc =>
      obtain ⟨m', h1, h2, h3, h4⟩ := ih m hts' hm
      refine ⟨m', h1, h2, ?_, h4⟩
      intro x hx hxe
      rcases List.mem_cons.1 hx with rfl | hx
      · exact h2 x (AMap.contains_iff.1 hc)
      · exact h3 x hx hxe
    · cases hT : r.track t with
      | none =>
        obtain ⟨m', h1, h2, h3, h4⟩ := ih m hts' hm
        refine ⟨m', h1, h2, ?_, h4⟩
        intro x hx hxe
        rcases List.mem_cons.1 hx with rfl | hx
        · obtain ⟨T, hT', _⟩ := est_iff.1 hxe
          rw [hT] at hT'; cases hT'
        · exact h3 x hx hxe
      | some T =>
        simp only
        split
        · next hTe =>
          rw [statisticsForTrack_ok hr err longTrack hT (hts t List.mem_cons_self T hT hTe)]
          obtain ⟨m', h1, h2, h3, h4⟩ := ih (m.emplace t (cappedLength r longTrack t, meanError r err t)) hts' (by
            intro x s hx
            rw [AMap.get_emplace] at hx
            split at hx
            · next hxt =>
              obtain ⟨rfl, _⟩ := hxt
              exact (Option.some.inj hx).symm
            · exact hm x s hx)
          refine ⟨m', h1, fun x hx => h2 x (AMap.mem_keys_emplace.2 (Or.inr hx)), ?_, h4⟩
          intro x hx hxe
          rcases List.mem_cons.1 hx with rfl | hx
          · exact h2 x (AMap.mem_keys_emplace.2 (Or.inl rfl))
          · exact h3 x hx hxe
        · next hne =>
          obtain ⟨m', h1, h2, h3, h4⟩ := ih m hts' hm
          refine ⟨m', h1, h2, ?_, h4⟩
          intro x hx hxe
          rcases List.mem_cons.1 hx with rfl | hx
          · obtain ⟨T', hT', he'⟩ := est_iff.1 hxe
            rw [hT] at hT'; cases hT'; exact absurd he' hne
          · exact h3 x hx hxe

theorem trackStatistics_ok {r : Reconstruction F P} (hr : r.Inv) (err : ViewId → TrackId → ℚ)
    (longTrack : Nat) (vs : List ViewId) : ∀ m,
    (∀ v ∈ vs, ∃ V, r.view v = some V ∧ ∀ t ∈ V.trackIds, ∀ T, r.track t = some T → T.estimated = true →
      0 < (estimatedObservers r T).length) → StatsOk r err longTrack m →
    ∃ m', trackStatistics r err longTrack vs m = .ok m' ∧ (∀ t ∈ m.keys, t ∈ m'.keys) ∧
      (∀ v ∈ vs, ∀ V, r.view v = some V → ∀ t ∈ V.trackIds, isEstimatedTrack r t = true → t ∈ m'.keys) ∧
      StatsOk r err longTrack m' := by
  induction vs with
  | nil => intro m _ hm; exact ⟨m, rfl, fun _ h => h, by simp, hm⟩
  | cons v vs ih =>
    intro m hvs hm
    obtain ⟨V, hV, he⟩ := hvs v List.mem_cons_self
    obtain ⟨m1, h1, h2, h3, h4⟩ := statisticsInView_ok hr err longTrack V.trackIds m he hm
    obtain ⟨m2, g1, g2, g3, g4⟩ := ih m1 (fun w hw => hvs w (List.mem_cons_of_mem _ hw)) h4
    refine ⟨m2, ?_, fun t ht => g2 t (h2 t ht), ?_, g4⟩
    · rw [trackStatistics, hV]
      simp only [h1]
      exact g1
    · intro w hw W hW t ht hte
      rcases List.mem_cons.1 hw with rfl | hw
      · rw [hV] at hW; cases hW
        exact g2 t (h3 t ht hte)
      · exact g3 w hw W hW t ht hte

/-- What a grid contains: for every cell a nonempty list of estimated tracks with their feature there. -/
def GridOk [DecidableEq C] (r : Reconstruction F P) (V : View F) (cell : F → C)
    (stats : AMap TrackId Stats) (g : AMap C (List Element)) : Prop :=
  g.WF ∧ ∀ c es, g.get c = some es → es ≠ [] ∧ ∀ e ∈ es, e.1 ∈ V.trackIds ∧
    isEstimatedTrack r e.1 = true ∧ stats.get e.1 = some e.2 ∧ ∃ f, V.getFeature e.1 = some f ∧ cell f = c

/-- The track is in the cell's list. -/
def InCell (g : AMap C (List Element)) [DecidableEq C] (c : C) (t : TrackId) : Prop :=
  ∃ es, g.get c = some es ∧ ∃ e ∈ es, e.1 = t

theorem fillGrid_ok [DecidableEq C] {r : Reconstruction F P} {V : View F} (cell : F → C)
    {stats : AMap TrackId Stats} (hs : ∀ t ∈ V.trackIds, isEstimatedTrack r t = true → t ∈ stats.keys)
    (ts : List TrackId) : ∀ g, (∀ t ∈ ts, t ∈ V.trackIds) → GridOk r V cell stats g →
    ∃ g', fillGrid r V cell stats ts g = .ok g' ∧ GridOk r V cell stats g' ∧
      (∀ c t, InCell g c t → InCell g' c t) ∧
      ∀ t ∈ ts, isEstimatedTrack r t = true → ∀ f, V.getFeature t = some f → InCell g' (cell f) t := by
  induction ts with
  | nil => intro g _ hg; exact ⟨g, rfl, hg, fun _ _ h => h, by simp⟩
  | cons t ts ih =>
    intro g hts hg
    have hts' : ∀ x ∈ ts, x ∈ V.trackIds := fun x hx => hts x (List.mem_cons_of_mem _ hx)
    have hskip : isEstimatedTrack r t ≠ true →
        ∃ g', fillGrid r V cell stats ts g = .ok g' ∧ GridOk r V cell stats g' ∧
        (∀ c t, InCell g c t → InCell g' c t) ∧
        ∀ x ∈ t :: ts, isEstimatedTrack r x = true → ∀ f, V.getFeature x = some f → InCell g' (cell f) x := by
      intro hne
      obtain ⟨g', h1, h2, h3, h4⟩ := ih g hts' hg
      refine ⟨g', h1, h2, h3, ?_⟩
      intro x hx hxe f hf
      rcases List.mem_cons.1 hx with rfl | hx
      · exact absurd hxe hne
      · exact h4 x hx hxe f hf
    rw [fillGrid]
    cases hT : r.track t with
    | none => exact hskip (fun h => by obtain ⟨T, hT', _⟩ := est_iff.1 h; rw [hT] at hT'; cases hT')
    | some T =>
      simp only
      split
      · next he =>
        have hest : isEstimatedTrack r t = true := est_iff.2 ⟨T, hT, he⟩
        have htV := hts t List.mem_cons_self
        obtain ⟨f, hf⟩ := AMap.mem_keys_iff.1 htV
        have hgf : V.getFeature t = some f := hf
        obtain ⟨s, hs'⟩ := AMap.mem_keys_iff.1 (hs t htV hest)
        rw [hgf]
        simp only [hs']
        have hg' : GridOk r V cell stats (g.insert (cell f) ((g.get (cell f)).getD [] ++ [(t, s)])) := by
          refine ⟨AMap.wf_insert hg.1 _ _, ?_⟩
          intro c es hc
          by_cases hcc : c = cell f
          · subst hcc
            rw [AMap.get_insert_self] at hc
            cases hc
            refine ⟨by simp, ?_⟩
            intro e he'
            rcases List.mem_append.1 he' with h | h
            · cases hold : g.get (cell f) with
              | none => rw [hold] at h; simp at h
              | some old =>
                rw [hold] at h
                exact (hg.2 _ _ hold).2 e h
            · rw [List.mem_singleton] at h
              subst h
              exact ⟨htV, hest, hs', f, hgf, rfl⟩
          · rw [AMap.get_insert_ne _ _ hcc] at hc
            exact hg.2 c es hc
        have hin : ∀ c x, InCell g c x →
            InCell (g.insert (cell f) ((g.get (cell f)).getD [] ++ [(t, s)])) c x := by
          rintro c x ⟨es, hes, e, he', hx⟩
          by_cases hcc : c = cell f
          · subst hcc
            exact ⟨_, AMap.get_insert_self _ _ _, e, by rw [hes]; simp [he'], hx⟩
          · exact ⟨es, by rw [AMap.get_insert_ne _ _ hcc]; exact hes, e, he', hx⟩
        obtain ⟨g', h1, h2, h3, h4⟩ := ih _ hts' hg'
        refine ⟨g', h1, h2, fun c x hc => h3 c x (hin c x hc), ?_⟩
        intro x hx hxe f' hf'
        rcases List.mem_cons.1 hx with rfl | hx
        · rw [hgf] at hf'
          cases hf'
          exact h3 _ _ ⟨_, AMap.get_insert_self _ _ _, (x, s), by simp, rfl⟩
        · exact h4 x hx hxe f' hf'
      · next hne =>
        exact hskip (fun h => by
          obtain ⟨T', hT', he'⟩ := est_iff.1 h
          rw [hT] at hT'; cases hT'; exact hne he')

theorem mem_setInsert {s : List TrackId} {t x : TrackId} : x ∈ setInsert s t ↔ x ∈ s ∨ x = t := by
  unfold setInsert
  split
  · next h =>
    constructor
    · exact Or.inl
    · rintro (h' | rfl)
      · exact h'
      · exact h
  · simp

theorem minElement_mem (es : List Element) : ∀ e, minElement e es ∈ e :: es := by
  induction es with
  | nil => intro e; simp [minElement]
  | cons a es ih =>
    intro e
    rw [minElement]
    have := ih (if compareElements a e then a else e)
    rcases List.mem_cons.1 this with h | h
    · rw [h]
      split <;> simp
    · exact List.mem_cons_of_mem _ (List.mem_cons_of_mem _ h)

/-- `a` is not after `b` in the order of the statistics. -/
def StatsLE (a b : Stats) : Prop := a.1 < b.1 ∨ (a.1 = b.1 ∧ a.2 ≤ b.2)

theorem statsLE_refl (a : Stats) : StatsLE a a := Or.inr ⟨rfl, le_refl _⟩

theorem statsLE_trans {a b c : Stats} (h : StatsLE a b) (h' : StatsLE b c) : StatsLE a c := by
  rcases h with h | ⟨h, h2⟩ <;> rcases h' with h' | ⟨h', h2'⟩
  · exact Or.inl (by omega)
  · exact Or.inl (by omega)
  · exact Or.inl (by omega)
  · exact Or.inr ⟨by omega, h2.trans h2'⟩

theorem statsLT_le {a b : Stats} (h : statsLT a b = true) : StatsLE a b := by
  simp only [statsLT, Bool.or_eq_true, Bool.and_eq_true, Bool.not_eq_true', decide_eq_true_eq,
    decide_eq_false_iff_not] at h
  rcases h with h | ⟨h1, h2⟩
  · exact Or.inl h
  · by_cases hlt : a.1 < b.1
    · exact Or.inl hlt
    · exact Or.inr ⟨by omega, le_of_lt h2⟩

theorem not_statsLT_le {a b : Stats} (h : ¬ statsLT a b = true) : StatsLE b a := by
  simp only [statsLT, Bool.or_eq_true, Bool.and_eq_true, Bool.not_eq_true', decide_eq_true_eq,
    decide_eq_false_iff_not, not_or, not_and, not_lt] at h
  by_cases hlt : b.1 < a.1
  · exact Or.inl hlt
  · exact Or.inr ⟨by omega, h.2 (by omega)⟩

theorem minElement_le (es : List Element) : ∀ e, ∀ x ∈ e :: es, StatsLE (minElement e es).2 x.2 := by
  induction es with
  | nil => intro e x hx; rw [List.mem_singleton] at hx; subst hx; exact statsLE_refl _
  | cons a es ih =>
    intro e x hx
    rw [minElement]
    have hbest : StatsLE (minElement (if compareElements a e then a else e) es).2
        (if compareElements a e then a else e).2 := ih _ _ List.mem_cons_self
    rcases List.mem_cons.1 hx with rfl | hx
    · refine statsLE_trans hbest ?_
      split
      · next h => exact statsLT_le h
      · exact statsLE_refl _
    · rcases List.mem_cons.1 hx with rfl | hx
      · refine statsLE_trans hbest ?_
        split
        · exact statsLE_refl _
        · next h => exact not_statsLT_le h
      · exact ih _ x (List.mem_cons_of_mem _ hx)

theorem pickCells_ok (cells : List (C × List Element)) : ∀ sel, (∀ q ∈ cells, q.2 ≠ []) →
    ∃ sel', pickCells cells sel = .ok sel' ∧ (∀ t ∈ sel, t ∈ sel') ∧
      (∀ t ∈ sel', t ∈ sel ∨ ∃ q ∈ cells, ∃ e ∈ q.2, e.1 = t) ∧
      ∀ q ∈ cells, ∃ e ∈ q.2, e.1 ∈ sel' ∧ ∀ x ∈ q.2, StatsLE e.2 x.2 := by
  induction cells with
  | nil => intro sel _; exact ⟨sel, rfl, fun _ h => h, fun _ h => Or.inl h, by simp⟩
  | cons q cells ih =>
    intro sel hne
    obtain ⟨c, es⟩ := q
    cases es with
    | nil => exact absurd rfl (hne (c, []) List.mem_cons_self)
    | cons e es =>
      obtain ⟨sel', h1, h2, h3, h4⟩ := ih (setInsert sel (minElement e es).1)
        (fun q hq => hne q (List.mem_cons_of_mem _ hq))
      refine ⟨sel', h1, fun t ht => h2 t (mem_setInsert.2 (Or.inl ht)), ?_, ?_⟩
      · intro t ht
        rcases h3 t ht with h | ⟨q, hq, e', he', h⟩
        · rcases mem_setInsert.1 h with h | h
          · exact Or.inl h
          · exact Or.inr ⟨(c, e :: es), List.mem_cons_self, _, minElement_mem es e, h.symm⟩
        · exact Or.inr ⟨q, List.mem_cons_of_mem _ hq, e', he', h⟩
      · intro q hq
        rcases List.mem_cons.1 hq with rfl | hq
        · exact ⟨_, minElement_mem es e, h2 _ (mem_setInsert.2 (Or.inr rfl)), minElement_le es e⟩
        · exact h4 q hq

/-- Every cell with an estimated track has a selected one that is first in the order. -/
def Covered (r : Reconstruction F P) (err : ViewId → TrackId → ℚ) (longTrack : Nat) (cell : F → C)
    (V : View F) (sel : List TrackId) : Prop :=
  ∀ t f, V.getFeature t = some f → isEstimatedTrack r t = true →
    ∃ t' f', V.getFeature t' = some f' ∧ isEstimatedTrack r t' = true ∧ t' ∈ sel ∧ cell f' = cell f ∧
      ShorterOrBetter r err longTrack t' t

theorem bestInCells_ok [DecidableEq C] {r : Reconstruction F P} {err : ViewId → TrackId → ℚ} {longTrack : Nat}
    {V : View F} (cell : F → C)
    {stats : AMap TrackId Stats} (hs : ∀ t ∈ V.trackIds, isEstimatedTrack r t = true → t ∈ stats.keys)
    (hstats : StatsOk r err longTrack stats)
    (sel : List TrackId) : ∃ sel', bestInCells r V cell stats sel = .ok sel' ∧ (∀ t ∈ sel, t ∈ sel') ∧
      (∀ t ∈ sel', t ∈ sel ∨ (t ∈ V.trackIds ∧ isEstimatedTrack r t = true)) ∧
      Covered r err longTrack cell V sel' := by
  obtain ⟨g, h1, h2, h3, h4⟩ := fillGrid_ok cell hs V.trackIds .empty (fun _ h => h)
    ⟨AMap.wf_empty, by simp⟩
  have hget : ∀ q ∈ g.entries, g.get q.1 = some q.2 := fun q hq => AMap.get_of_mem_entries h2.1 hq
  obtain ⟨sel', g1, g2, g3, g4⟩ := pickCells_ok g.entries sel (fun q hq => (h2.2 _ _ (hget q hq)).1)
  refine ⟨sel', by rw [bestInCells, h1]; exact g1, g2, ?_, ?_⟩
  · intro t ht
    rcases g3 t ht with h | ⟨q, hq, e, he, rfl⟩
    · exact Or.inl h
    · obtain ⟨a, b, _⟩ := (h2.2 _ _ (hget q hq)).2 e he
      exact Or.inr ⟨a, b⟩
  · intro t f hf hte
    have htV : t ∈ V.trackIds := AMap.mem_keys_iff.2 ⟨f, hf⟩
    obtain ⟨es, hes, x, hx, hxt⟩ := h4 t htV hte f hf
    obtain ⟨e, he, hsel, hmin⟩ := g4 (cell f, es) (AMap.mem_entries_of_get hes)
    obtain ⟨_, b, hst, f', hf', hc⟩ := (h2.2 _ _ hes).2 e he
    obtain ⟨_, _, hxs, _⟩ := (h2.2 _ _ hes).2 x hx
    refine ⟨e.1, f', hf', b, hsel, hc, ?_⟩
    have := hmin x hx
    rw [hstats _ _ hst, hstats _ _ hxs, hxt] at this
    exact this

theorem scan_ok {r : Reconstruction F P} {stats : AMap TrackId Stats} (minTracks : Int) (sel : List TrackId)
    (ts : List TrackId) (hs : ∀ t ∈ ts, isEstimatedTrack r t = true → t ∈ stats.keys) : ∀ (o e : Nat) (cs : List Element),
    (o = 0 ∨ (o : Int) < minTracks) →
    (∃ n, scan r stats minTracks sel ts o e cs = .ok .enough ∧ minTracks ≤ ((o + n : Nat) : Int) ∧
      n ≤ ((ts.filter (isEstimatedTrack r)).filter fun t => decide (t ∈ sel)).length) ∨
    ∃ o' e' cs', scan r stats minTracks sel ts o e cs = .ok (.more o' e' (cs ++ cs')) ∧
      o' = o + ((ts.filter (isEstimatedTrack r)).filter fun t => decide (t ∈ sel)).length ∧
      e' = e + (ts.filter (isEstimatedTrack r)).length ∧
      cs'.map (·.1) = (ts.filter (isEstimatedTrack r)).filter (fun t => decide (t ∉ sel)) ∧
      (o' = 0 ∨ (o' : Int) < minTracks) := by
  induction ts with
  | nil => intro o e cs ho; right; exact ⟨o, e, [], by simp [scan], by simp, by simp, by simp, ho⟩
  | cons t ts ih =>
    intro o e cs ho
    have hs' : ∀ x ∈ ts, isEstimatedTrack r x = true → x ∈ stats.keys :=
      fun x hx => hs x (List.mem_cons_of_mem _ hx)
    have hskip : isEstimatedTrack r t ≠ true → (t :: ts).filter (isEstimatedTrack r) =
        ts.filter (isEstimatedTrack r) := fun h => List.filter_cons_of_neg h
    rw [scan]
    cases hT : r.track t with
    | none =>
      rw [hskip (fun h => by obtain ⟨T, hT', _⟩ := est_iff.1 h; rw [hT] at hT'; cases hT')]
      exact ih hs' o e cs ho
    | some T =>
      simp only
      split
      · next he =>
        have hest : isEstimatedTrack r t = true := est_iff.2 ⟨T, hT, he⟩
        rw [List.filter_cons_of_pos hest]
        split
        · next hm =>
          rw [List.filter_cons_of_pos (by simpa using hm), List.filter_cons_of_neg (by simpa using hm)]
          split
          · next hge =>
            left
            exact ⟨1, rfl, hge, by simp⟩
          · next hlt =>
            rcases ih hs' (o + 1) (e + 1) cs (Or.inr (by omega)) with ⟨n, h1, h2, h3⟩ | ⟨o', e', cs', h1, h2, h3, h4, h5⟩
            · left
              exact ⟨n + 1, h1, by omega, by rw [List.length_cons]; omega⟩
            · right
              exact ⟨o', e', cs', h1, by rw [List.length_cons]; omega, by rw [List.length_cons]; omega, h4, h5⟩
        · next hm =>
          rw [List.filter_cons_of_neg (by simpa using hm), List.filter_cons_of_pos (by simpa using hm)]
          obtain ⟨s, hs1⟩ := AMap.mem_keys_iff.1 (hs t List.mem_cons_self hest)
          rw [hs1]
          simp only
          rcases ih hs' o (e + 1) (cs ++ [(t, s)]) ho with ⟨n, h1, h2, h3⟩ | ⟨o', e', cs', h1, h2, h3, h4, h5⟩
          · left; exact ⟨n, h1, h2, h3⟩
          · right
            refine ⟨o', e', (t, s) :: cs', by simpa using h1, h2, by rw [List.length_cons]; omega, ?_, h5⟩
            rw [List.map_cons, h4]
      · next hne =>
        rw [hskip (fun h => by
          obtain ⟨T', hT', he'⟩ := est_iff.1 h
          rw [hT] at hT'; cases hT'; exact hne he')]
        exact ih hs' o e cs ho

theorem addFirst_ok (n : Nat) : ∀ (cs : List Element) (sel : List TrackId), n ≤ cs.length →
    ∃ sel', addFirst n cs sel = .ok sel' ∧ ∀ t, t ∈ sel' ↔ t ∈ sel ∨ t ∈ (cs.take n).map (·.1) := by
  induction n with
  | zero => intro cs sel _; exact ⟨sel, rfl, by simp⟩
  | succ n ih =>
    intro cs sel h
    cases cs with
    | nil => simp at h
    | cons c cs =>
      obtain ⟨sel', h1, h2⟩ := ih cs (setInsert sel c.1) (by simpa using h)
      refine ⟨sel', h1, fun t => ?_⟩
      rw [h2, mem_setInsert, List.take_succ_cons, List.map_cons, List.mem_cons, or_assoc]

theorem topRanked_ok {r : Reconstruction F P} {V : View F} (hwf : V.features.WF)
    {stats : AMap TrackId Stats} (hs : ∀ t ∈ V.trackIds, isEstimatedTrack r t = true → t ∈ stats.keys)
    (minTracks : Int) (sel : List TrackId)
    (hcov : estimatedTracksIn r V ≠ [] → selectedTracksIn r V sel ≠ 0) :
    ∃ sel', topRanked r stats V minTracks sel = .ok sel' ∧ (∀ t ∈ sel, t ∈ sel') ∧
      (∀ t ∈ sel', t ∈ sel ∨ (t ∈ V.trackIds ∧ isEstimatedTrack r t = true)) ∧
      min minTracks (estimatedTracksIn r V).length ≤ selectedTracksIn r V sel' := by
  rcases scan_ok minTracks sel V.trackIds hs 0 0 [] (Or.inl rfl) with
    ⟨n, h1, h2, h3⟩ | ⟨o, e, cs, h1, h2, h3, h4, h5⟩
  · refine ⟨sel, by rw [topRanked, h1], fun _ h => h, fun _ h => Or.inl h, ?_⟩
    unfold selectedTracksIn estimatedTracksIn
    omega
  · have hlen : cs.length = ((V.trackIds.filter (isEstimatedTrack r)).filter fun t => decide (t ∉ sel)).length := by
      rw [← h4, List.length_map]
    have hsplit : (V.trackIds.filter (isEstimatedTrack r)).length =
        ((V.trackIds.filter (isEstimatedTrack r)).filter fun t => decide (t ∈ sel)).length + cs.length := by
      rw [hlen, List.length_eq_length_filter_add (fun t => decide (t ∈ sel))]
      congr 2
      apply List.filter_congr
      intro x _
      simp
    rw [List.nil_append] at h1
    rw [Nat.zero_add] at h2 h3
    rw [topRanked, h1]
    simp only
    by_cases hoe : o = e
    · rw [if_neg (by simpa using hoe)]
      refine ⟨sel, rfl, fun _ h => h, fun _ h => Or.inl h, ?_⟩
      unfold selectedTracksIn estimatedTracksIn
      omega
    · have hmin : 0 ≤ minTracks := by
        by_contra hneg
        apply hoe
        rcases h5 with h5 | h5
        · by_cases he : estimatedTracksIn r V = []
          · unfold estimatedTracksIn at he
            rw [he] at h3
            simp at h3
            omega
          · exact absurd (h2.symm.trans h5) (hcov he)
        · omega
      rw [if_pos hoe, if_neg (by omega)]
      have hperm : (partialSort cs).Perm cs := List.perm_insertionSort _ _
      obtain ⟨sel', g1, g2⟩ := addFirst_ok (min (minTracks - o) ((e : Int) - o)).toNat (partialSort cs) sel
        (by rw [hperm.length_eq]; omega)
      have hcand : ∀ t ∈ ((partialSort cs).take (min (minTracks - o) ((e : Int) - o)).toNat).map (·.1),
          t ∈ V.trackIds ∧ isEstimatedTrack r t = true ∧ t ∉ sel := by
        intro t ht
        obtain ⟨c, hc, rfl⟩ := List.mem_map.1 ht
        have : c.1 ∈ cs.map (·.1) := List.mem_map.2 ⟨c, hperm.mem_iff.1 (List.mem_of_mem_take hc), rfl⟩
        rw [h4] at this
        simp only [List.mem_filter, decide_eq_true_eq] at this
        exact ⟨this.1.1, this.1.2, this.2⟩
      refine ⟨sel', g1, fun t ht => (g2 t).2 (Or.inl ht), ?_, ?_⟩
      · intro t ht
        rcases (g2 t).1 ht with h | h
        · exact Or.inl h
        · exact Or.inr ⟨(hcand t h).1, (hcand t h).2.1⟩
      · unfold selectedTracksIn estimatedTracksIn
        have hnd : V.trackIds.Nodup := hwf
        have hnd2 : (((partialSort cs).take (min (minTracks - o) ((e : Int) - o)).toNat).map (·.1)).Nodup := by
          have : (cs.map (·.1)).Nodup := by rw [h4]; exact (hnd.filter _).filter _
          have hp : ((partialSort cs).map (·.1)).Nodup := (hperm.map (·.1)).nodup_iff.2 this
          exact hp.sublist ((List.take_sublist _ _).map _)
        -- the tracks selected before and the candidates added are different tracks of the view
        have hsub : ((V.trackIds.filter (isEstimatedTrack r)).filter (fun t => decide (t ∈ sel)) ++
            ((partialSort cs).take (min (minTracks - o) ((e : Int) - o)).toNat).map (·.1)).Subperm
            ((V.trackIds.filter (isEstimatedTrack r)).filter fun t => decide (t ∈ sel')) := by
          apply List.subperm_of_subset
          · rw [List.nodup_append']
            refine ⟨(hnd.filter _).filter _, hnd2, ?_⟩
            intro t h1 h2
            simp only [List.mem_filter, decide_eq_true_eq] at h1
            exact (hcand t h2).2.2 h1.2
          · intro t ht
            simp only [List.mem_filter, decide_eq_true_eq]
            rcases List.mem_append.1 ht with ht | ht
            · simp only [List.mem_filter, decide_eq_true_eq] at ht
              exact ⟨ht.1, (g2 t).2 (Or.inl ht.2)⟩
            · exact ⟨⟨(hcand t ht).1, (hcand t ht).2.1⟩, (g2 t).2 (Or.inr ht)⟩
        have := hsub.length_le
        rw [List.length_append, List.length_map, List.length_take, hperm.length_eq] at this
        omega

theorem forViews_ok {r : Reconstruction F P} {f : View F → List TrackId → Outcome (List TrackId)}
    {R : View F → List TrackId → Prop} (hmono : ∀ V s s', (∀ t ∈ s, t ∈ s') → R V s → R V s')
    (vs : List ViewId) : ∀ sel, (∀ v ∈ vs, ∃ V, r.view v = some V ∧ ∀ s, (∀ t ∈ sel, t ∈ s) →
      ∃ sel', f V s = .ok sel' ∧ (∀ t ∈ s, t ∈ sel') ∧ (∀ t ∈ sel', t ∈ s ∨ (t ∈ V.trackIds ∧ isEstimatedTrack r t = true)) ∧
      R V sel') →
    ∃ sel', forViews r f vs sel = .ok sel' ∧ (∀ t ∈ sel, t ∈ sel') ∧
      (∀ t ∈ sel', t ∈ sel ∨ (isEstimatedTrack r t = true ∧ ∃ v ∈ vs, Observes r v t)) ∧
      ∀ v ∈ vs, ∀ V, r.view v = some V → R V sel' := by
  induction vs with
  | nil => intro sel _; exact ⟨sel, rfl, fun _ h => h, fun _ h => Or.inl h, by simp⟩
  | cons v vs ih =>
    intro sel h
    obtain ⟨V, hV, hf⟩ := h v List.mem_cons_self
    obtain ⟨s1, h1, h2, h3, h4⟩ := hf sel (fun _ h => h)
    obtain ⟨s2, g1, g2, g3, g4⟩ := ih s1 (fun w hw => by
      obtain ⟨W, hW, hfW⟩ := h w (List.mem_cons_of_mem _ hw)
      exact ⟨W, hW, fun s hs => hfW s (fun t ht => hs t (h2 t ht))⟩)
    refine ⟨s2, ?_, fun t ht => g2 t (h2 t ht), ?_, ?_⟩
    · rw [forViews, hV]
      simp only [h1]
      exact g1
    · intro t ht
      rcases g3 t ht with h | ⟨h, w, hw, ho⟩
      · rcases h3 t h with h | ⟨h, he⟩
        · exact Or.inl h
        · obtain ⟨f', hf'⟩ := AMap.mem_keys_iff.1 h
          exact Or.inr ⟨he, v, List.mem_cons_self, V, f', hV, hf'⟩
      · exact Or.inr ⟨h, w, List.mem_cons_of_mem _ hw, ho⟩
    · intro w hw W hW
      rcases List.mem_cons.1 hw with rfl | hw
      · rw [hV] at hW
        cases hW
        exact hmono _ _ _ g2 h4
      · exact g4 w hw W hW

theorem selectedTracksIn_mono {r : Reconstruction F P} {V : View F} {s s' : List TrackId}
    (h : ∀ t ∈ s, t ∈ s') : selectedTracksIn r V s ≤ selectedTracksIn r V s' := by
  unfold selectedTracksIn
  rw [← List.countP_eq_length_filter, ← List.countP_eq_length_filter]
  apply List.countP_mono_left
  intro t _ ht
  exact decide_eq_true (h t (of_decide_eq_true ht))

theorem selected_of_covered {r : Reconstruction F P} {err : ViewId → TrackId → ℚ} {longTrack : Nat}
    {cell : F → C} {V : View F} {sel : List TrackId} (h : Covered r err longTrack cell V sel)
    (hne : estimatedTracksIn r V ≠ []) : selectedTracksIn r V sel ≠ 0 := by
  obtain ⟨t, ht⟩ := List.exists_mem_of_ne_nil _ hne
  unfold estimatedTracksIn at ht
  rw [List.mem_filter] at ht
  obtain ⟨f, hf⟩ := AMap.mem_keys_iff.1 ht.1
  obtain ⟨t', f', h1, h2, h3, _⟩ := h t f hf ht.2
  unfold selectedTracksIn
  rw [ne_eq, List.length_eq_zero_iff]
  apply List.ne_nil_of_mem (a := t')
  unfold estimatedTracksIn
  rw [List.mem_filter, List.mem_filter]
  exact ⟨⟨AMap.mem_keys_iff.2 ⟨f', h1⟩, h2⟩, decide_eq_true h3⟩

end SelectTracks
end Theia
