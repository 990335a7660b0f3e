import Verif.Proof.OneDSfMTracks

/-!
# Reading a 1DSfM dataset: the whole
-/

namespace Theia
namespace OneDSfM

open Spec Spec.OneD Reconstruction

open Classical

variable {base : String → Option String} {ofM : M3 ℝ → V3 ℝ} {d : Files}

theorem mem_readCC {indices : List Int} (hcc : d.cc = some indices) (v : Nat) :
    (v : Int) ∈ readCC indices d.staleIndex ↔ InComponent d v := by
  unfold readCC InComponent
  rw [List.mem_append, hcc]
  simp

/-- The steps of a reading that got past the list. -/
theorem read_steps {s s' : State} {b : Bool} {indices : List Int} {entries : List Entry} (hcc : d.cc = some indices)
    (hl : d.list = some entries) (h : read base ofM d s = .ok (b, s')) :
    ∃ s1, readLists base (readCC indices d.staleIndex) entries s = .ok s1 ∧
      ((d.coords = none ∧ b = false ∧ s' = s1) ∨
      ∃ blocks, d.coords = some blocks ∧
        ((d.tracks = none ∧ b = false ∧ s' = (readCoords blocks s1 .empty).1) ∨
        ∃ tracks s3, d.tracks = some tracks ∧
          readTracks (readCoords blocks s1 .empty).2 tracks (readCoords blocks s1 .empty).1 = .ok s3 ∧
          ((d.egs = none ∧ b = false ∧ s' = s3) ∨
          ∃ records, d.egs = some records ∧ b = true ∧
            readEGs ofM (records ++ d.staleRecord.toList) s3 = .ok s'))) := by
  unfold read at h
  simp only [hcc, hl] at h
  obtain ⟨s1, h1, h⟩ := Outcome.bind_eq_ok.1 h
  refine ⟨s1, h1, ?_⟩
  cases hc : d.coords with
  | none => simp only [hc] at h; cases h; exact Or.inl ⟨rfl, rfl, rfl⟩
  | some blocks =>
    refine Or.inr ⟨blocks, rfl, ?_⟩
    simp only [hc] at h
    cases ht : d.tracks with
    | none => simp only [ht] at h; cases h; exact Or.inl ⟨rfl, rfl, rfl⟩
    | some tracks =>
      simp only [ht] at h
      obtain ⟨s3, h3, h⟩ := Outcome.bind_eq_ok.1 h
      refine Or.inr ⟨tracks, s3, rfl, h3, ?_⟩
      cases he : d.egs with
      | none => simp only [he] at h; cases h; exact Or.inl ⟨rfl, rfl, rfl⟩
      | some records =>
        simp only [he] at h
        obtain ⟨s4, h4, h⟩ := Outcome.bind_eq_ok.1 h
        cases h
        exact Or.inr ⟨records, rfl, rfl, h4⟩

/-- The facts about a completed reading into an empty reconstruction. -/
structure Done (base : String → Option String) (ofM : M3 ℝ → V3 ℝ) (d : Files) (entries : List Entry)
    (blocks : List Block) (tracks : List (List (ViewId × Nat))) (records : List Record) (s3 s' : State) : Prop where
  inv : s3.recon.Inv
  names : ∀ v, nameOf s3 v = if v < entries.length ∧ InComponent d v then (entries[v]?).bind (fun e => base e.path) else none
  prior : ∀ v e, InComponent d v → entries[v]? = some e → v ∈ s3.recon.views.keys →
    s3.prior v = coordsPrior blocks v (listPrior e)
  number : s3.recon.nextTrackId = tracks.length
  others : ∀ i, tracks.length ≤ i → s3.recon.tracks.get i = none
  track : ∀ i t, tracks[i]? = some t → (t.map (·.1)).Nodup ∧ 2 ≤ t.length ∧
    (∀ o ∈ t, ∃ key, (keysOf blocks o.1)[o.2]? = some key) ∧
    ∃ cs, t.map (fun o => ((keysOf blocks o.1)[o.2]?).map (·.colour)) = cs.map some ∧
      s3.recon.tracks.get i = some ⟨false, meanColour cs, t.map (·.1)⟩
  feature : ∀ v i t p, tracks[i]? = some t → (featureOf s3.recon v i = some p ↔
    ∃ k key, (v, k) ∈ t ∧ (keysOf blocks v)[k]? = some key ∧ key.point = p)
  graph : s3.graph = .empty
  pairs : readEGs ofM (records ++ d.staleRecord.toList) s3 = .ok s'

theorem views_iff_name (s : State) (v : Nat) : v ∈ s.recon.views.keys ↔ ∃ n, nameOf s v = some n := by
  rw [AMap.mem_keys_iff]
  unfold nameOf
  cases s.recon.views.get v with
  | none => simp
  | some V => simp

theorem names_list {indices : List Int} {entries : List Entry} {s1 : State} (hcc : d.cc = some indices)
    (h : readLists base (readCC indices d.staleIndex) entries start = .ok s1) (v : Nat) :
    nameOf s1 v = if v < entries.length ∧ InComponent d v then (entries[v]?).bind (fun e => base e.path) else none := by
  obtain ⟨_, _, _, h4, _, _⟩ := readLists_spec base _ entries start s1 listed_start h
  have h0 : start.recon.nextViewId = 0 := rfl
  rw [h4 v, h0, if_neg (Nat.not_lt_zero _), Nat.sub_zero]
  by_cases hv : InComponent d v
  · rw [if_pos ((mem_readCC hcc v).2 hv)]
    by_cases hlt : v < entries.length
    · rw [if_pos ⟨hlt, hv⟩]
    · rw [if_neg (fun h => hlt h.1), List.getElem?_eq_none (Nat.not_lt.1 hlt)]
      rfl
  · rw [if_neg (fun h => hv ((mem_readCC hcc v).1 h)), if_neg (fun h => hv h.2)]

theorem keyAt_keys {blocks : List Block} {s1 : State} {v k : Nat} {key : Key}
    (h : keyAt (readCoords blocks s1 .empty).2 (v, k) = some key) : (keysOf blocks v)[k]? = some key := by
  obtain ⟨_, _, _, h4⟩ := readCoords_spec blocks s1 .empty
  unfold keyAt at h
  rw [h4 v] at h
  split at h
  · simpa using h
  · simp at h

theorem keyAt_iff {blocks : List Block} {s1 : State} {v k : Nat} {key : Key} (hv : v ∈ s1.recon.views.keys) :
    keyAt (readCoords blocks s1 .empty).2 (v, k) = some key ↔ (keysOf blocks v)[k]? = some key := by
  refine ⟨keyAt_keys, fun h => ?_⟩
  obtain ⟨_, _, _, h4⟩ := readCoords_spec blocks s1 .empty
  unfold keyAt
  rw [h4 v, if_pos]
  · simpa using h
  · refine ⟨hv, ?_⟩
    by_contra hno
    have : keysOf blocks v = [] := by
      unfold keysOf
      rw [List.filter_eq_nil_iff.2]
      · rfl
      · intro c hc hd
        exact hno ⟨c, hc, by simpa using hd⟩
    rw [this] at h
    simp at h

theorem read_done {s' : State} {indices : List Int} {entries : List Entry} {blocks : List Block}
    {tracks : List (List (ViewId × Nat))} {records : List Record} (hcc : d.cc = some indices) (hl : d.list = some entries)
    (hc : d.coords = some blocks) (ht : d.tracks = some tracks) (he : d.egs = some records) {b : Bool}
    (h : read base ofM d start = .ok (b, s')) :
    b = true ∧ ∃ s3, Done base ofM d entries blocks tracks records s3 s' := by
  obtain ⟨s1, h1, hh⟩ := read_steps hcc hl h
  rcases hh with ⟨h0, _⟩ | ⟨blocks', hb', hh⟩
  · rw [hc] at h0; cases h0
  rw [hc] at hb'; cases hb'
  rcases hh with ⟨h0, _⟩ | ⟨tracks', s3, ht', h3, hh⟩
  · rw [ht] at h0; cases h0
  rw [ht] at ht'; cases ht'
  rcases hh with ⟨h0, _⟩ | ⟨records', hr', rfl, h4⟩
  · rw [he] at h0; cases h0
  rw [he] at hr'; cases hr'
  refine ⟨rfl, s3, ?_⟩
  obtain ⟨l1, l2, l3, _, _, l6⟩ := readLists_spec base _ entries start s1 listed_start h1
  obtain ⟨c1, c2, c3, c4⟩ := readCoords_spec blocks s1 .empty
  obtain ⟨t1, t2, t3, t4, t5, t6, t7, t8, t9, t10, t11⟩ := readTracks_spec _ tracks _ s3 (by rw [c1]; exact l1.inv) h3
  have hz : (readCoords blocks s1 .empty).1.recon.nextTrackId = 0 := by rw [c1]; exact l1.first
  simp only [hz, Nat.zero_add] at t2 t8 t9 t11
  have hkeys : s3.recon.views.keys = s1.recon.views.keys := by rw [t5, c1]
  refine ⟨t1, ?_, ?_, t2, t8, ?_, ?_, ?_, h4⟩
  · intro v
    rw [t6 v, ← names_list hcc h1 v]
    unfold nameOf
    rw [c1]
  · intro v e hv hve hvk
    have hp : s3.prior v = (readCoords blocks s1 .empty).1.prior v := by simp only [State.prior, t4]
    rw [hp, c3 v (by rw [← hkeys]; exact hvk), l6 v e (Nat.zero_le _) ((mem_readCC hcc v).2 hv) hve]
  · intro i t hit
    obtain ⟨n1, n2, obs, hobs, htr⟩ := t9 i t hit
    have hspec := observe_spec _ _ _ hobs
    have hall : ∀ o ∈ t, ∃ key, keyAt (readCoords blocks s1 .empty).2 o = some key := by
      intro o ho
      have hm : (o.1, keyAt (readCoords blocks s1 .empty).2 o) ∈ t.map (fun o => (o.1, keyAt (readCoords blocks s1 .empty).2 o)) :=
        List.mem_map.2 ⟨o, ho, rfl⟩
      rw [hspec] at hm
      obtain ⟨o', _, he'⟩ := List.mem_map.1 hm
      simp only [Prod.mk.injEq] at he'
      exact ⟨o'.2, he'.2.symm⟩
    refine ⟨n1, n2, ?_, obs.map (·.2.colour), ?_, htr⟩
    · intro o ho
      obtain ⟨key, hkey⟩ := hall o ho
      exact ⟨key, keyAt_keys hkey⟩
    · have := congrArg (List.map fun x : ViewId × Option Key => x.2.map (·.colour)) hspec
      rw [List.map_map, List.map_map] at this
      rw [List.map_map]
      refine Eq.trans ?_ (this.trans ?_)
      · apply List.map_congr_left
        intro o ho
        obtain ⟨key, hkey⟩ := hall o ho
        simp only [Function.comp, hkey, keyAt_keys (k := o.2) (v := o.1) hkey]
      · rfl
  · intro v i t p hit
    rw [t11 v i t p hit]
    constructor
    · rintro ⟨k, key, hm, hkey, hp⟩
      exact ⟨k, key, hm, keyAt_keys hkey, hp⟩
    · rintro ⟨k, key, hm, hkey, hp⟩
      obtain ⟨_, _, obs, hobs, _⟩ := t9 i t hit
      have hspec := observe_spec _ _ _ hobs
      have hm' : (v, keyAt (readCoords blocks s1 .empty).2 (v, k)) ∈ t.map (fun o => (o.1, keyAt (readCoords blocks s1 .empty).2 o)) :=
        List.mem_map.2 ⟨(v, k), hm, rfl⟩
      rw [hspec] at hm'
      obtain ⟨o', _, he'⟩ := List.mem_map.1 hm'
      simp only [Prod.mk.injEq] at he'
      have h2 := keyAt_keys he'.2.symm
      rw [hkey] at h2
      cases h2
      exact ⟨k, o'.2, hm, he'.2.symm, hp⟩
  · rw [t3, c2, l3]
    rfl

theorem read_ok {entries : List Entry} {blocks : List Block} {tracks : List (List (ViewId × Nat))} {records : List Record}
    (hw : WellFormed base d entries blocks tracks records) : ∃ s, read base ofM d start = .ok (true, s) := by
  obtain ⟨indices, hcc⟩ := hw.ccFile
  obtain ⟨s1, h1⟩ := readLists_ok base (readCC indices d.staleIndex) entries start listed_start hw.named
    (by intro w n h; simp [nameOf, start, Reconstruction.empty] at h) (by
      intro i j a b hij hv
      have h0 : start.recon.nextViewId = 0 := rfl
      rw [h0, Nat.zero_add] at hv
      exact hw.distinct i j a b hij ((mem_readCC hcc i).1 hv))
  have hview : ∀ v, v < entries.length → InComponent d v → v ∈ s1.recon.views.keys := by
    intro v hlt hv
    rw [views_iff_name, names_list hcc h1 v, if_pos ⟨hlt, hv⟩]
    obtain ⟨n, hn, _⟩ := hw.named entries[v] (List.getElem_mem hlt)
    exact ⟨n, by rw [List.getElem?_eq_getElem hlt]; exact hn⟩
  obtain ⟨l1, _, _, _, _, _⟩ := readLists_spec base _ entries start s1 listed_start h1
  obtain ⟨c1, _, _, _⟩ := readCoords_spec blocks s1 .empty
  obtain ⟨s3, h3⟩ := readTracks_ok (readCoords blocks s1 .empty).2 tracks (readCoords blocks s1 .empty).1
    (by rw [c1]; exact l1.inv) hw.two (by
      intro t ht o ho
      obtain ⟨g1, g2, g3⟩ := hw.refers t ht o ho
      have hv := hview o.1 g1 g2
      exact ⟨by rw [c1]; exact hv, _, (keyAt_iff hv).2 (List.getElem?_eq_getElem g3)⟩)
  obtain ⟨_, _, _, _, t5, _⟩ := readTracks_spec _ tracks _ s3 (by rw [c1]; exact l1.inv) h3
  obtain ⟨s4, h4⟩ := readEGs_ok ofM (records ++ d.staleRecord.toList) s3 (by
    intro r hr
    obtain ⟨⟨a1, a2⟩, b1, b2⟩ := hw.pairs r hr
    rw [t5, c1]
    exact ⟨hview _ a1 a2, hview _ b1 b2⟩)
  refine ⟨s4, ?_⟩
  unfold read
  simp only [hcc, hw.listFile, h1, Outcome.ok_bind, hw.coordsFile, hw.tracksFile, h3, hw.egsFile, h4]

/-- How many tracks two views share. -/
theorem common_count {entries : List Entry} {blocks : List Block}
    {tracks : List (List (ViewId × Nat))} {records : List Record} {s3 s' : State}
    (hd : Done base ofM d entries blocks tracks records s3 s') {a b : Nat} {V1 V2 : View (ℝ × ℝ)}
    (h1 : s3.recon.view a = some V1) (h2 : s3.recon.view b = some V2) :
    (commonTracks V1 V2).length = sharedTracks tracks a b := by
  have hmem : ∀ (v : Nat) (V : View (ℝ × ℝ)), s3.recon.view v = some V → ∀ i, i ∈ V.features.keys ↔
      ∃ t ∈ tracks[i]?, ∃ k ∈ t, k.1 = v := by
    intro v V hV i
    constructor
    · intro hi
      obtain ⟨p, hp⟩ := AMap.mem_keys_iff.1 hi
      obtain ⟨T, hT, _⟩ := (hd.inv.sym v i).1 ⟨V, hV, hi⟩
      have hlt : i < tracks.length := by
        by_contra hge
        rw [hd.others i (Nat.not_lt.1 hge)] at hT
        cases hT
      have hf : featureOf s3.recon v i = some p := by
        unfold Reconstruction.view at hV
        simp only [featureOf, hV, Option.bind_some]
        exact hp
      obtain ⟨k, key, hm, _⟩ := (hd.feature v i _ p (List.getElem?_eq_getElem hlt)).1 hf
      exact ⟨_, by rw [List.getElem?_eq_getElem hlt]; rfl, (v, k), hm, rfl⟩
    · rintro ⟨t, ht, ⟨w, k⟩, hm, rfl⟩
      obtain ⟨_, _, hall, _⟩ := hd.track i t ht
      obtain ⟨key, hkey⟩ := hall _ hm
      have hf := (hd.feature w i t key.point ht).2 ⟨k, key, hm, hkey, rfl⟩
      unfold Reconstruction.view at hV
      simp only [featureOf, hV, Option.bind_some] at hf
      exact AMap.mem_keys_iff.2 ⟨_, hf⟩
  have hp : (commonTracks V1 V2).Perm ((List.range tracks.length).filter fun i =>
      ∃ t ∈ tracks[i]?, (∃ k ∈ t, k.1 = a) ∧ (∃ k ∈ t, k.1 = b)) := by
    rw [List.perm_ext_iff_of_nodup (nodup_commonTracks V2 (hd.inv.wfFeat a V1 h1)) (List.nodup_range.filter _)]
    intro i
    rw [mem_commonTracks, hmem a V1 h1, hmem b V2 h2, List.mem_filter, List.mem_range]
    simp only [decide_eq_true_eq]
    constructor
    · rintro ⟨⟨t, ht, hka⟩, t', ht', hkb⟩
      have : t = t' := Option.mem_unique ht ht'
      subst this
      refine ⟨?_, t, ht, hka, hkb⟩
      by_contra hge
      rw [List.getElem?_eq_none (Nat.not_lt.1 hge)] at ht
      cases ht
    · rintro ⟨_, t, ht, hka, hkb⟩
      exact ⟨⟨t, ht, hka⟩, t, ht, hkb⟩
  exact hp.length_eq

theorem focalOf_prior (e : Entry) (blocks : List Block) (v : Nat) :
    focalOf (coordsPrior blocks v (listPrior e)) = focalFor e blocks v := by
  unfold coordsPrior listPrior focalFor
  by_cases he : e.focal ≠ 0
  · simp only [if_pos he]
    cases (blocks.filter fun b => decide (b.index = v)).getLast? <;> rfl
  · simp only [if_neg he]
    cases (blocks.filter fun b => decide (b.index = v)).getLast? with
    | none => simp [focalOf, Prior.unset]
    | some b => simp [focalOf, header, Prior.unset]

end OneDSfM
end Theia
