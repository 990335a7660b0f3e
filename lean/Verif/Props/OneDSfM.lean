import Verif.Proof.OneDSfMRead

/-!
# C104: reading a 1DSfM dataset
-/

namespace Theia

open Spec Spec.OneD OneDSfM

/-- **C104.** Whenever the reader returns, after cc.txt and list.txt have been read into an empty reconstruction, the views
are the images of the component, each under its position in the list and with its file name. -/
theorem C104_views (base : String → Option String) (ofM : M3 ℝ → V3 ℝ) (d : Files) (indices : List Int)
    (entries : List Entry) (b : Bool) (s : State) (hcc : d.cc = some indices) (hl : d.list = some entries)
    (h : read base ofM d start = .ok (b, s)) (v : Nat) (name : String) :
    (∃ V, s.recon.view v = some V ∧ V.name = name) ↔
      InComponent d v ∧ ∃ e, entries[v]? = some e ∧ base e.path = some name := by
  classical
  have key : nameOf s v = if v < entries.length ∧ InComponent d v then (entries[v]?).bind (fun e => base e.path)
      else none := by
    obtain ⟨s1, h1, hh⟩ := read_steps hcc hl h
    rw [← names_list hcc h1 v]
    obtain ⟨l1, _⟩ := readLists_spec base _ entries start s1 listed_start h1
    rcases hh with ⟨_, _, rfl⟩ | ⟨blocks, _, hh⟩
    · rfl
    obtain ⟨c1, _⟩ := readCoords_spec blocks s1 .empty
    have hc : nameOf (readCoords blocks s1 .empty).1 v = nameOf s1 v := by unfold nameOf; rw [c1]
    rcases hh with ⟨_, _, rfl⟩ | ⟨tracks, s3, _, h3, hh⟩
    · exact hc
    obtain ⟨_, _, _, _, _, t6, _⟩ := readTracks_spec _ tracks _ s3 (by rw [c1]; exact l1.inv) h3
    rcases hh with ⟨_, _, rfl⟩ | ⟨records, _, _, h4⟩
    · rw [t6 v, hc]
    · obtain ⟨g1, _⟩ := readEGs_spec ofM _ _ _ h4
      rw [← hc, ← t6 v]
      unfold nameOf
      rw [g1]
  have hleft : (∃ V, s.recon.view v = some V ∧ V.name = name) ↔ nameOf s v = some name := by
    unfold nameOf Reconstruction.view
    cases s.recon.views.get v <;> simp
  rw [hleft, key]
  constructor
  · intro hv
    split at hv
    · rename_i hc
      obtain ⟨e, he, hb⟩ := Option.bind_eq_some_iff.1 hv
      exact ⟨hc.2, e, he, hb⟩
    · cases hv
  · rintro ⟨hc, e, he, hb⟩
    rw [if_pos ⟨(List.getElem?_eq_some_iff.1 he).1, hc⟩, he]
    exact hb

/-- **C104.** When everything has been read, every view has the calibration of the files: the focal length of the list
unless that is 0 or missing, and the principal point and image size of the last block of the view in coords.txt. -/
theorem C104_calibration (base : String → Option String) (ofM : M3 ℝ → V3 ℝ) (d : Files) (indices : List Int)
    (entries : List Entry) (blocks : List Block) (tracks : List (List (ViewId × Nat))) (records : List Record) (b : Bool)
    (s : State) (hcc : d.cc = some indices) (hl : d.list = some entries) (hc : d.coords = some blocks)
    (ht : d.tracks = some tracks) (he : d.egs = some records) (h : read base ofM d start = .ok (b, s)) (v : Nat)
    (V : View (ℝ × ℝ)) (hV : s.recon.view v = some V) :
    ∃ e, entries[v]? = some e ∧
      (∀ f, (s.prior v).focal = some f ↔ f = e.focal ∧ e.focal ≠ 0) ∧
      (∀ (k : Nat) (k' : Block), blocks[k]? = some k' → k'.index = v → (∀ (j : Nat) (c : Block), k < j → blocks[j]? = some c → c.index ≠ v) →
        (s.prior v).principal = some (k'.px, k'.py) ∧ (s.prior v).width = trunc (2 * k'.px) ∧
        (s.prior v).height = trunc (2 * k'.py)) ∧
      ((∀ c ∈ blocks, c.index ≠ v) → (s.prior v).principal = none ∧ (s.prior v).width = 0 ∧ (s.prior v).height = 0) := by
  obtain ⟨_, s3, hd⟩ := read_done hcc hl hc ht he h
  obtain ⟨g1, g2, _⟩ := readEGs_spec ofM _ _ _ hd.pairs
  obtain ⟨hcomp, e, hve, _⟩ := (C104_views base ofM d indices entries b s hcc hl h v V.name).1 ⟨V, hV, rfl⟩
  have hp : s.prior v = coordsPrior blocks v (listPrior e) := by
    rw [← hd.prior v e hcomp hve (by rw [← g1]; exact AMap.mem_keys_iff.2 ⟨V, hV⟩)]
    simp only [State.prior, g2]
  refine ⟨e, hve, ?_, ?_, ?_⟩
  · intro f
    rw [hp]
    have : (coordsPrior blocks v (listPrior e)).focal = (listPrior e).focal := by
      unfold coordsPrior
      cases (blocks.filter fun b => decide (b.index = v)).getLast? <;> rfl
    rw [this]
    unfold listPrior
    by_cases h0 : e.focal ≠ 0
    · rw [if_pos h0]
      simp [h0, eq_comm]
    · rw [if_neg h0]
      simp [Prior.unset, h0]
  · intro k k' hk hkv hlast
    have hlt := (List.getElem?_eq_some_iff.1 hk).1
    have hlast' : (blocks.filter fun b => decide (b.index = v)).getLast? = some k' := by
      have hsplit : blocks = blocks.take k ++ k' :: blocks.drop (k + 1) := by
        rw [← (List.getElem?_eq_some_iff.1 hk).2, List.getElem_cons_drop, List.take_append_drop]
      have hnil : (blocks.drop (k + 1)).filter (fun b => decide (b.index = v)) = [] := by
        rw [List.filter_eq_nil_iff]
        intro c hcm hcv
        obtain ⟨j, hj⟩ := List.mem_iff_getElem?.1 hcm
        rw [List.getElem?_drop] at hj
        exact hlast (k + 1 + j) c (by omega) hj (by simpa using hcv)
      rw [hsplit, List.filter_append, List.filter_cons_of_pos (by simpa using hkv), hnil, List.getLast?_append]
      rfl
    rw [hp]
    unfold coordsPrior
    rw [hlast']
    exact ⟨rfl, by simp only [header]; rw [mul_comm], by simp only [header]; rw [mul_comm]⟩
  · intro hno
    rw [hp]
    unfold coordsPrior
    rw [List.filter_eq_nil_iff.2 (by intro c hcm hcv; exact hno c hcm (by simpa using hcv))]
    simp only [List.getLast?_nil, listPrior]
    split <;> exact ⟨rfl, rfl, rfl⟩

/-- **C104.** When everything has been read, track `i` is the `i`-th line of tracks.txt and there are no other tracks. A view
has a feature for it exactly if the line names the view, and the feature is the point of the key the line refers to. The
colour is the mean of the colours of the keys, rounded down. -/
theorem C104_tracks (base : String → Option String) (ofM : M3 ℝ → V3 ℝ) (d : Files) (indices : List Int)
    (entries : List Entry) (blocks : List Block) (tracks : List (List (ViewId × Nat))) (records : List Record) (b : Bool)
    (s : State) (hcc : d.cc = some indices) (hl : d.list = some entries) (hc : d.coords = some blocks)
    (ht : d.tracks = some tracks) (he : d.egs = some records) (h : read base ofM d start = .ok (b, s)) :
    (∀ i, (∃ T, s.recon.track i = some T) ↔ i < tracks.length) ∧
    (∀ i t, tracks[i]? = some t →
      (∃ T, s.recon.track i = some T ∧ T.views = t.map (·.1) ∧ T.views.Nodup ∧ 2 ≤ T.views.length ∧ T.estimated = false ∧
        ∃ cs : List Colour, t.map (fun o => ((keysOf blocks o.1)[o.2]?).map (·.colour)) = cs.map some ∧
          T.payload = ((cs.map (·.1)).sum / cs.length, (cs.map (·.2.1)).sum / cs.length, (cs.map (·.2.2)).sum / cs.length)) ∧
      (∀ v p, (∃ V, s.recon.view v = some V ∧ V.getFeature i = some p) ↔
        ∃ k key, (v, k) ∈ t ∧ (keysOf blocks v)[k]? = some key ∧ key.point = p)) := by
  obtain ⟨_, s3, hd⟩ := read_done hcc hl hc ht he h
  obtain ⟨g1, _⟩ := readEGs_spec ofM _ _ _ hd.pairs
  constructor
  · intro i
    rw [g1]
    constructor
    · rintro ⟨T, hT⟩
      by_contra hge
      have := hd.others i (Nat.not_lt.1 hge)
      unfold Reconstruction.track at hT
      rw [this] at hT
      cases hT
    · intro hlt
      obtain ⟨_, _, _, cs, _, hT⟩ := hd.track i _ (List.getElem?_eq_getElem hlt)
      exact ⟨_, hT⟩
  · intro i t hit
    rw [g1]
    obtain ⟨n1, n2, _, cs, hcs, hT⟩ := hd.track i t hit
    refine ⟨⟨_, hT, rfl, n1, by simpa using n2, rfl, cs, hcs, ?_⟩, ?_⟩
    · simp [meanColour, mean]
    · intro v p
      rw [← hd.feature v i t p hit]
      unfold featureOf Reconstruction.view
      rw [Option.bind_eq_some_iff]

/-- **C104.** When everything has been read, two views are joined exactly if a record names both, all records name images of
the component, and the last record of a pair decides: the relative rotation and position describe the same two cameras as
the record, the focal lengths are those of the images, and the number of matches and the visibility score are the number of
tracks of both. This includes the record made of what was left in the unassigned variables. -/
theorem C104_pairs (base : String → Option String) (ofM : M3 ℝ → V3 ℝ) (hlog : AngleAxis.IsLog ofM) (d : Files)
    (indices : List Int) (entries : List Entry) (blocks : List Block) (tracks : List (List (ViewId × Nat)))
    (records : List Record) (b : Bool) (s : State) (hcc : d.cc = some indices) (hl : d.list = some entries)
    (hc : d.coords = some blocks) (ht : d.tracks = some tracks) (he : d.egs = some records)
    (h : read base ofM d start = .ok (b, s)) :
    (∀ r ∈ records ++ d.staleRecord.toList, InComponent d r.view1 ∧ InComponent d r.view2) ∧
    (∀ x y, (∃ info, s.graph.getEdge x y = some info) ↔
      ∃ r ∈ records ++ d.staleRecord.toList, r.view1 ≠ r.view2 ∧ SamePair x y r.view1 r.view2) ∧
    (∀ pre r post, records ++ d.staleRecord.toList = pre ++ r :: post → r.view1 ≠ r.view2 →
      (∀ q ∈ post, ¬ SamePair r.view1 r.view2 q.view1 q.view2) →
      ∃ info e1 e2, s.graph.getEdge r.view1 r.view2 = some info ∧ entries[r.view1]? = some e1 ∧ entries[r.view2]? = some e2 ∧
        (r.rotation.IsRotation → SameCameras r.rotation r.position (AngleAxis.toM info.rotation) info.position) ∧
        info.focal1 = focalFor e1 blocks r.view1 ∧ info.focal2 = focalFor e2 blocks r.view2 ∧
        info.verified = sharedTracks tracks r.view1 r.view2 ∧ info.visibility = sharedTracks tracks r.view1 r.view2) := by
  obtain ⟨_, s3, hd⟩ := read_done hcc hl hc ht he h
  obtain ⟨g1, _, g3, g4⟩ := readEGs_spec ofM _ _ _ hd.pairs
  have hin : ∀ v V, s3.recon.view v = some V → InComponent d v ∧ ∃ e, entries[v]? = some e ∧
      focalOf (s3.prior v) = focalFor e blocks v := by
    intro v V hV
    rw [← g1] at hV
    obtain ⟨hcomp, e, hve, _⟩ := (C104_views base ofM d indices entries b s hcc hl h v V.name).1 ⟨V, hV, rfl⟩
    refine ⟨hcomp, e, hve, ?_⟩
    rw [hd.prior v e hcomp hve (by rw [← g1]; exact AMap.mem_keys_iff.2 ⟨V, hV⟩), focalOf_prior]
  have hlast : ∀ pre r post, records ++ d.staleRecord.toList = pre ++ r :: post → r.view1 ≠ r.view2 →
      (∀ q ∈ post, ¬ SamePair r.view1 r.view2 q.view1 q.view2) →
      ∃ V1 V2, s3.recon.view r.view1 = some V1 ∧ s3.recon.view r.view2 = some V2 ∧
      s.graph.getEdge r.view1 r.view2 = some (infoOf ofM s3 r V1 V2) := by
    intro pre r post hsplit hne hl'
    have hp := hd.pairs
    rw [hsplit] at hp
    exact readEGs_last ofM hp hne hl'
  refine ⟨?_, ?_, ?_⟩
  · intro r hr
    obtain ⟨V1, V2, h1, h2⟩ := g4 r hr
    exact ⟨(hin _ _ h1).1, (hin _ _ h2).1⟩
  · intro x y
    constructor
    · rintro ⟨info, hinfo⟩
      by_contra hno
      have := g3 x y (by
        intro r hr hc'
        exact hno ⟨r, hr, hc'⟩)
      rw [this, hd.graph] at hinfo
      cases hinfo
    · rintro ⟨r, hr, hne, hs⟩
      obtain ⟨pre, q, post, hsplit, hq, hpost⟩ : ∃ pre q post, records ++ d.staleRecord.toList = pre ++ q :: post ∧
          SamePair x y q.view1 q.view2 ∧ ∀ p ∈ post, ¬ SamePair x y p.view1 p.view2 := by
        have : ∀ l : List Record, r ∈ l → ∃ pre q post, l = pre ++ q :: post ∧
            SamePair x y q.view1 q.view2 ∧ ∀ p ∈ post, ¬ SamePair x y p.view1 p.view2 := by
          intro l
          induction l with
          | nil => intro hm; cases hm
          | cons a l ih =>
            intro hm
            by_cases hex : ∃ p ∈ l, SamePair x y p.view1 p.view2
            · have : ∃ pre q post, l = pre ++ q :: post ∧
                  SamePair x y q.view1 q.view2 ∧ ∀ p ∈ post, ¬ SamePair x y p.view1 p.view2 := by
                clear ih hm
                induction l with
                | nil => obtain ⟨p, hp, _⟩ := hex; cases hp
                | cons c l ih =>
                  by_cases hex' : ∃ p ∈ l, SamePair x y p.view1 p.view2
                  · obtain ⟨pre, q, post, e1, e2, e3⟩ := ih hex'
                    exact ⟨c :: pre, q, post, by rw [e1]; rfl, e2, e3⟩
                  · obtain ⟨p, hp, hps⟩ := hex
                    rcases List.mem_cons.1 hp with rfl | hp
                    · exact ⟨[], p, l, rfl, hps, fun c hc hs => hex' ⟨c, hc, hs⟩⟩
                    · exact absurd ⟨p, hp, hps⟩ hex'
              obtain ⟨pre, q, post, e1, e2, e3⟩ := this
              exact ⟨a :: pre, q, post, by rw [e1]; rfl, e2, e3⟩
            · rcases List.mem_cons.1 hm with rfl | hm
              · exact ⟨[], r, l, rfl, hs, fun c hc hs => hex ⟨c, hc, hs⟩⟩
              · exact absurd ⟨r, hm, hs⟩ hex
        exact this _ hr
      have hne' : q.view1 ≠ q.view2 := by
        intro hq'
        apply hne
        rw [hq'] at hq
        rcases hs with ⟨rfl, rfl⟩ | ⟨rfl, rfl⟩ <;> rcases hq with ⟨a1, a2⟩ | ⟨a1, a2⟩ <;> rw [a1, a2]
      have hsame : ∀ p : Record, SamePair q.view1 q.view2 p.view1 p.view2 → SamePair x y p.view1 p.view2 := by
        intro p hp
        rcases hq with ⟨rfl, rfl⟩ | ⟨rfl, rfl⟩
        · exact hp
        · exact hp.elim (fun a => Or.inr ⟨a.2, a.1⟩) (fun a => Or.inl ⟨a.2, a.1⟩)
      obtain ⟨V1, V2, _, _, hedge⟩ := hlast pre q post hsplit hne' fun p hp hsp => hpost p hp (hsame p hsp)
      refine ⟨infoOf ofM s3 q V1 V2, ?_⟩
      rw [← hedge]
      unfold ViewGraph.getEdge
      rw [ordPair_eq_iff.2 hq]
  · intro pre r post hsplit hne hl'
    obtain ⟨V1, V2, h1, h2, hedge⟩ := hlast pre r post hsplit hne hl'
    obtain ⟨_, e1, he1, hf1⟩ := hin _ _ h1
    obtain ⟨_, e2, he2, hf2⟩ := hin _ _ h2
    refine ⟨_, e1, e2, hedge, he1, he2, ?_, hf1, hf2, ?_, ?_⟩
    · intro hR
      simp only [infoOf]
      rw [(hlog _ ((isRotation_flip.mul hR.transpose).mul isRotation_flip)).1]
      exact sameCameras hR r.position
    · simp only [infoOf]; rw [common_count hd h1 h2]
    · simp only [infoOf]; rw [common_count hd h1 h2]

/-- **C104.** A well-formed dataset is read completely into an empty reconstruction. -/
theorem C104_succeeds_partial (base : String → Option String) (ofM : M3 ℝ → V3 ℝ) (d : Files) (entries : List Entry)
    (blocks : List Block) (tracks : List (List (ViewId × Nat))) (records : List Record)
    (h : WellFormed base d entries blocks tracks records) : ∃ s, read base ofM d start = .ok (true, s) :=
  read_ok h

/-- **C104.** Whatever it is given, if the reader returns then it returns false exactly if one of the five files cannot be
opened. -/
theorem C104_false (base : String → Option String) (ofM : M3 ℝ → V3 ℝ) (d : Files) (s0 s : State) (b : Bool)
    (h : read base ofM d s0 = .ok (b, s)) :
    b = false ↔ d.cc = none ∨ d.list = none ∨ d.coords = none ∨ d.tracks = none ∨ d.egs = none := by
  cases hcc : d.cc with
  | none =>
    simp only [OneDSfM.read, hcc] at h
    cases h
    simp
  | some indices =>
    cases hl : d.list with
    | none =>
      simp only [OneDSfM.read, hcc, hl] at h
      cases h
      simp
    | some entries =>
      obtain ⟨s1, _, hh⟩ := read_steps hcc hl h
      rcases hh with ⟨h0, rfl, _⟩ | ⟨blocks, hb, hh⟩
      · simp [h0]
      rcases hh with ⟨h0, rfl, _⟩ | ⟨tracks, s3, ht, _, hh⟩
      · simp [h0]
      rcases hh with ⟨h0, rfl, _⟩ | ⟨records, hr, rfl, _⟩
      · simp [h0]
      · simp [hb, ht, hr]

/-! ## A dataset -/

/-- A dataset of three images, the second outside the component. -/
noncomputable def exFiles (records : List Record) (stale : Option Record) : Files where
  cc := some [2, 0]
  staleIndex := none
  list := some [⟨"x.jpg", 0⟩, ⟨"y.jpg", 0⟩, ⟨"z.jpg", 700⟩]
  coords := some [⟨0, 300, 200, [⟨(10, 20), (9, 0, 0)⟩, ⟨(30, 40), (100, 0, 7)⟩]⟩, ⟨1, 300, 200, [⟨(1, 1), (0, 0, 0)⟩]⟩,
    ⟨2, 320, 240, [⟨(50, 60), (201, 0, 8)⟩]⟩]
  tracks := some [[(0, 1), (2, 0)]]
  egs := some records
  staleRecord := stale

theorem exFiles_wellFormed (records : List Record) (stale : Option Record)
    (h : ∀ r ∈ records ++ stale.toList, (r.view1 = 0 ∨ r.view1 = 2) ∧ (r.view2 = 0 ∨ r.view2 = 2)) :
    WellFormed some (exFiles records stale) [⟨"x.jpg", 0⟩, ⟨"y.jpg", 0⟩, ⟨"z.jpg", 700⟩]
      [⟨0, 300, 200, [⟨(10, 20), (9, 0, 0)⟩, ⟨(30, 40), (100, 0, 7)⟩]⟩, ⟨1, 300, 200, [⟨(1, 1), (0, 0, 0)⟩]⟩,
        ⟨2, 320, 240, [⟨(50, 60), (201, 0, 8)⟩]⟩] [[(0, 1), (2, 0)]] records := by
  have h0 : InComponent (exFiles records stale) 0 := Or.inl ⟨_, rfl, by simp⟩
  have h2 : InComponent (exFiles records stale) 2 := Or.inl ⟨_, rfl, by simp⟩
  constructor
  · exact ⟨_, rfl⟩
  · rfl
  · rfl
  · rfl
  · rfl
  · intro e he
    simp only [List.mem_cons, List.not_mem_nil, or_false] at he
    rcases he with rfl | rfl | rfl <;> exact ⟨_, rfl, by decide⟩
  · intro i j a b hij _ ha hb
    have hj : j < 3 := (List.getElem?_eq_some_iff.1 hb).1
    interval_cases j <;> interval_cases i <;> simp at ha hb <;> subst ha <;> subst hb <;> decide
  · intro t ht
    simp only [List.mem_cons, List.not_mem_nil, or_false] at ht
    subst ht
    decide
  · intro t ht o ho
    simp only [List.mem_cons, List.not_mem_nil, or_false] at ht
    subst ht
    simp only [List.mem_cons, List.not_mem_nil, or_false] at ho
    rcases ho with rfl | rfl
    · exact ⟨by decide, h0, by simp [keysOf]⟩
    · exact ⟨by decide, h2, by simp [keysOf]⟩
  · intro r hr
    obtain ⟨a, b⟩ := h r hr
    constructor
    · rcases a with a | a <;> rw [a]
      · exact ⟨by decide, h0⟩
      · exact ⟨by decide, h2⟩
    · rcases b with b | b <;> rw [b]
      · exact ⟨by decide, h0⟩
      · exact ⟨by decide, h2⟩

theorem exists_ofM : ∃ ofM : M3 ℝ → V3 ℝ, AngleAxis.IsLog ofM := by
  classical
  refine ⟨fun m => if h : m.IsRotation then (AngleAxis.exists_log h).choose else V3.zero, fun m hm => ?_⟩
  simp only [dif_pos hm]
  exact (AngleAxis.exists_log hm).choose_spec

/-- The dataset is read: the third image keeps its position 2, the second has no view, the track has both keys, and the pair
has the focal lengths 360 (guessed) and 700 and one match. -/
example (ofM : M3 ℝ → V3 ℝ) (hlog : AngleAxis.IsLog ofM) :
    ∃ s, OneDSfM.read some ofM (exFiles [⟨0, 2, M3.one, ⟨1, 2, 3⟩⟩] none) start = .ok (true, s) ∧
      (∃ V, s.recon.view 2 = some V ∧ V.name = "z.jpg" ∧ V.getFeature 0 = some (50, 60)) ∧
      (¬ ∃ V, s.recon.view 1 = some V) ∧
      ∃ info, s.graph.getEdge 0 2 = some info ∧ info.focal1 = 360 ∧ info.focal2 = 700 ∧ info.verified = 1 ∧
        SameCameras M3.one ⟨1, 2, 3⟩ (AngleAxis.toM info.rotation) info.position := by
  obtain ⟨s, hs⟩ := C104_succeeds_partial some ofM _ _ _ _ _ (exFiles_wellFormed [⟨0, 2, M3.one, ⟨1, 2, 3⟩⟩] none (by simp))
  have hv := C104_views some ofM _ _ _ _ _ rfl rfl hs
  obtain ⟨_, ht⟩ := C104_tracks some ofM _ _ _ _ _ _ _ _ rfl rfl rfl rfl rfl hs
  obtain ⟨_, _, hp⟩ := C104_pairs some ofM hlog _ _ _ _ _ _ _ _ rfl rfl rfl rfl rfl hs
  refine ⟨s, hs, ?_, ?_, ?_⟩
  · obtain ⟨V, hV, hn⟩ := (hv 2 "z.jpg").2 ⟨Or.inl ⟨_, rfl, by simp⟩, _, rfl, rfl⟩
    obtain ⟨V', hV', hf⟩ := ((ht 0 _ rfl).2 2 (50, 60)).2 ⟨0, ⟨(50, 60), (201, 0, 8)⟩, by simp, by simp [keysOf], rfl⟩
    rw [hV] at hV'
    cases hV'
    exact ⟨V, hV, hn, hf⟩
  · rintro ⟨V, hV⟩
    obtain ⟨hc, _⟩ := (hv 1 V.name).1 ⟨V, hV, rfl⟩
    rcases hc with ⟨i, hi, hm⟩ | hc
    · cases hi
      simp at hm
    · cases hc
  · obtain ⟨info, e1, e2, h1, h2, h3, h4, h5, h6, h7, _⟩ := hp [] _ [] rfl (by decide) (by simp)
    simp only [List.getElem?_cons_zero, Option.some.injEq] at h2
    simp only [List.getElem?_cons_succ, List.getElem?_cons_zero, Option.some.injEq] at h3
    subst h2; subst h3
    refine ⟨info, h1, ?_, ?_, ?_, h4 ?_⟩
    · rw [h5]; norm_num [focalFor]
    · rw [h6]; norm_num [focalFor]
    · rw [h7]; simp [sharedTracks, List.range, List.range.loop]
    · refine ⟨?_, ?_, ?_⟩
      · apply M3.ext <;> apply V3.ext <;> norm_num [M3.one, M3.mul, M3.mulVec, M3.transpose, V3.dot]
      · apply M3.ext <;> apply V3.ext <;> norm_num [M3.one, M3.mul, M3.mulVec, M3.transpose, V3.dot]
      · norm_num [M3.one, M3.det, V3.dot, V3.cross]

/-! ## What the reader does not do -/

/-- **C104, counterexample.** A record that names an image outside the component makes the reader dereference a null
pointer, although it compares that pointer to null a few lines later. -/
theorem C104_outside (ofM : M3 ℝ → V3 ℝ) :
    OneDSfM.read some ofM (exFiles [⟨0, 1, M3.one, ⟨1, 2, 3⟩⟩] none) start = .ub := by
  cases h : OneDSfM.read some ofM (exFiles [⟨0, 1, M3.one, ⟨1, 2, 3⟩⟩] none) start with
  | ub => rfl
  | ok res =>
    exfalso
    obtain ⟨_, s3, hd⟩ := read_done rfl rfl rfl rfl rfl h
    obtain ⟨g1, _, _, g4⟩ := readEGs_spec ofM _ _ _ hd.pairs
    obtain ⟨V1, V2, _, h2⟩ := g4 ⟨0, 1, M3.one, ⟨1, 2, 3⟩⟩ (by simp)
    rw [← g1] at h2
    obtain ⟨hc, _⟩ := (C104_views some ofM _ _ _ _ _ rfl rfl h 1 V2.name).1 ⟨V2, h2, rfl⟩
    rcases hc with ⟨i, hi, hm⟩ | hc
    · cases hi
      simp at hm
    · cases hc
  | abort =>
    exfalso
    obtain ⟨s, hs⟩ := C104_succeeds_partial some ofM _ _ _ _ _ (exFiles_wellFormed [] none (by simp))
    have hsteps := read_steps (d := exFiles [] none) rfl rfl hs
    obtain ⟨s1, h1, hh⟩ := hsteps
    rcases hh with ⟨h0, _⟩ | ⟨blocks, hb, hh⟩
    · cases h0
    rcases hh with ⟨h0, _⟩ | ⟨tracks, s3, ht, h3, _⟩
    · cases h0
    cases hb
    cases ht
    unfold OneDSfM.read at h
    simp only [exFiles] at h h1 h3
    simp only [h1, Outcome.ok_bind, h3] at h
    simp only [Option.toList, List.append_nil] at h
    rw [readEGs] at h
    split at h
    · rw [readEGs] at h
      cases h
    · cases h

/-- **C104, counterexample.** If EGs.txt ends in a newline, what is left in the variables is read as one more record. If these
are the ids of the last pair, that pair gets a wrong geometry: here the position becomes 0. -/
theorem C104_stale (ofM : M3 ℝ → V3 ℝ) (hlog : AngleAxis.IsLog ofM) :
    ∃ s info, OneDSfM.read some ofM (exFiles [⟨0, 2, M3.one, ⟨1, 2, 3⟩⟩] (some ⟨0, 2, M3.one, V3.zero⟩)) start = .ok (true, s) ∧
      s.graph.getEdge 0 2 = some info ∧
      ¬ SameCameras M3.one ⟨1, 2, 3⟩ (AngleAxis.toM info.rotation) info.position := by
  obtain ⟨s, hs⟩ := C104_succeeds_partial some ofM _ _ _ _ _ (exFiles_wellFormed [⟨0, 2, M3.one, ⟨1, 2, 3⟩⟩]
    (some ⟨0, 2, M3.one, V3.zero⟩) (by simp))
  obtain ⟨_, _, hp⟩ := C104_pairs some ofM hlog _ _ _ _ _ _ _ _ rfl rfl rfl rfl rfl hs
  obtain ⟨info, _, _, h1, _, _, h4, _⟩ := hp [⟨0, 2, M3.one, ⟨1, 2, 3⟩⟩] ⟨0, 2, M3.one, V3.zero⟩ [] rfl (by decide) (by simp)
  refine ⟨s, info, hs, h1, ?_⟩
  have hone : (M3.one : M3 ℝ).IsRotation := by
    refine ⟨?_, ?_, ?_⟩
    · apply M3.ext <;> apply V3.ext <;> norm_num [M3.one, M3.mul, M3.mulVec, M3.transpose, V3.dot]
    · apply M3.ext <;> apply V3.ext <;> norm_num [M3.one, M3.mul, M3.mulVec, M3.transpose, V3.dot]
    · norm_num [M3.one, M3.det, V3.dot, V3.cross]
  intro hc
  have h0 := (hc ⟨1, 2, 3⟩ V3.zero).1 (by apply V3.ext <;> norm_num [M3.one, M3.mulVec, V3.add, V3.dot, V3.zero])
  have h5 := (h4 hone ⟨1, 2, 3⟩ V3.zero).2 h0
  norm_num [M3.one, M3.mulVec, V3.add, V3.dot, V3.zero] at h5

/-- **C104, counterexample.** A record that names the larger id first is stored as it is. Elsewhere the geometry of a pair
leads from the smaller id to the larger one; here the first focal length is that of image 2. -/
theorem C104_reversed (ofM : M3 ℝ → V3 ℝ) (hlog : AngleAxis.IsLog ofM) :
    ∃ s info, OneDSfM.read some ofM (exFiles [⟨2, 0, M3.one, ⟨1, 2, 3⟩⟩] none) start = .ok (true, s) ∧
      s.graph.getEdge 0 2 = some info ∧ info.focal1 = 700 ∧ info.focal2 = 360 := by
  obtain ⟨s, hs⟩ := C104_succeeds_partial some ofM _ _ _ _ _ (exFiles_wellFormed [⟨2, 0, M3.one, ⟨1, 2, 3⟩⟩] none (by simp))
  obtain ⟨_, _, hp⟩ := C104_pairs some ofM hlog _ _ _ _ _ _ _ _ rfl rfl rfl rfl rfl hs
  obtain ⟨info, e1, e2, h1, h2, h3, _, h5, h6, _⟩ := hp [] _ [] rfl (by decide) (by simp)
  simp only [List.getElem?_cons_zero, Option.some.injEq] at h3
  simp only [List.getElem?_cons_succ, List.getElem?_cons_zero, Option.some.injEq] at h2
  subst h2; subst h3
  refine ⟨s, info, hs, ?_, ?_, ?_⟩
  · rw [← h1]
    unfold ViewGraph.getEdge
    rw [ordPair_comm]
  · rw [h5]; norm_num [focalFor]
  · rw [h6]; norm_num [focalFor]

/-- **C104, counterexample.** Two images with the same file name in different directories end the program, if the first is in
the component. -/
theorem C104_same_name (ofM : M3 ℝ → V3 ℝ) (d : Files) (hcc : d.cc = some [0])
    (hl : d.list = some [⟨"a/x.jpg", 0⟩, ⟨"b/x.jpg", 0⟩]) :
    OneDSfM.read (fun _ => some "x.jpg") ofM d start = .abort := by
  have hab : readLists (fun _ => some "x.jpg") (readCC [0] d.staleIndex) [⟨"a/x.jpg", 0⟩, ⟨"b/x.jpg", 0⟩] start = .abort := by
    obtain ⟨v, r, ha⟩ := addView_ok (n := "x.jpg") listed_start.inv (by simp [start, Reconstruction.empty]) (by decide)
    obtain ⟨hlisted, hn, hv, hname, _⟩ := kept_step listed_start ha (listPrior ⟨"a/x.jpg", 0⟩)
    have hv0 : v = 0 := hv
    rw [readLists_cons (base := fun _ => some "x.jpg") (n := "x.jpg") rfl ha, if_pos (by subst hv0; simp [readCC])]
    have hbad := Reconstruction.addViewToGroup_fail (r := r) (n := "x.jpg") (g := r.nextGroupId) (Or.inl (by
      have h1 := hname v
      rw [if_pos rfl] at h1
      obtain ⟨V, hV, hVn⟩ := Option.map_eq_some_iff.1 h1
      exact AMap.mem_keys_iff.2 ⟨v, (hlisted.inv.name _ _).2 ⟨V, hV, hVn⟩⟩))
    rw [readLists]
    simp only [Reconstruction.addView, hbad, Outcome.ok_bind]
  unfold OneDSfM.read
  simp only [hcc, hl, hab]
  rfl

/-- **C104, counterexample.** The positions in the files are compared to the ids the reconstruction hands out. If it has
handed out ids before, the first image of the list is not image 0, and it is dropped although cc.txt lists it. -/
theorem C104_second_dataset (ofM : M3 ℝ → V3 ℝ) (d : Files) (hcc : d.cc = some [0]) (hst : d.staleIndex = none)
    (hl : d.list = some [⟨"x.jpg", 0⟩]) (hc : d.coords = none) (s0 : State) (hs : Listed s0)
    (hn : s0.recon.nextViewId = 1) (hx : "x.jpg" ∉ s0.recon.names.keys) :
    ∃ s, OneDSfM.read some ofM d s0 = .ok (false, s) ∧ ∀ v V, s.recon.view v = some V → V.name ≠ "x.jpg" := by
  obtain ⟨s1, h1⟩ := readLists_ok some (readCC [0] none) [⟨"x.jpg", 0⟩] s0 hs (by simp) (by
    intro w n hw e he hne
    simp only [List.mem_cons, List.not_mem_nil, or_false] at he
    subst he
    cases hne
    obtain ⟨V, hV, hVn⟩ := Option.map_eq_some_iff.1 hw
    exact hx (AMap.mem_keys_iff.2 ⟨w, (hs.inv.name _ _).2 ⟨V, hV, hVn⟩⟩)) (by
    intro i j a b hij _ _ hb
    cases j with
    | zero => omega
    | succ j => simp at hb)
  obtain ⟨_, _, _, h4, _⟩ := readLists_spec some _ _ s0 s1 hs h1
  refine ⟨s1, ?_, ?_⟩
  · unfold OneDSfM.read
    simp only [hcc, hl, hst, h1, Outcome.ok_bind, hc]
  · intro v V hV hVn
    have hname : nameOf s1 v = some "x.jpg" := by
      unfold Reconstruction.view at hV
      simp [nameOf, hV, hVn]
    rw [h4 v, hn] at hname
    split at hname
    · obtain ⟨W, hW, hWn⟩ := Option.map_eq_some_iff.1 hname
      exact hx (AMap.mem_keys_iff.2 ⟨v, (hs.inv.name _ _).2 ⟨W, hW, hWn⟩⟩)
    · rename_i hge
      split at hname
      · rename_i hm
        simp [readCC] at hm
        exact hge (by rw [hm]; exact Nat.one_pos)
      · cases hname

example : ∃ s0 : State, Listed s0 ∧ s0.recon.nextViewId = 1 ∧ "x.jpg" ∉ s0.recon.names.keys := by
  obtain ⟨v, r, ha⟩ := addView_ok (n := "old.jpg") listed_start.inv (by simp [start, Reconstruction.empty]) (by decide)
  obtain ⟨h1, h2, hv, h3, _⟩ := kept_step listed_start ha .unset
  refine ⟨_, h1, h2, ?_⟩
  intro hx
  obtain ⟨w, hw⟩ := AMap.mem_keys_iff.1 hx
  obtain ⟨V, hV, hVn⟩ := (h1.inv.name _ _).1 hw
  have h4 := h3 w
  simp only [nameOf] at h4
  rw [hV] at h4
  simp only [Option.map_some, hVn] at h4
  split at h4
  · simp at h4
  · simp [start, Reconstruction.empty] at h4

end Theia
