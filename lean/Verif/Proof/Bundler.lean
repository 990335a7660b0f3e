import Verif.Model.Bundler
import Verif.Proof.EstimatedPart

/-!
# Lemmas on the Bundler files
-/

namespace Theia
namespace Bundler

variable {K : Type}

/-! ## Parsing what was written -/

section parse
variable [Field K]

theorem readVec_toks (v : V3 K) (rest : List (Tok K)) : readVec (vecToks v ++ rest) = .ok v rest := rfl

/-- The record of a camera. -/
def camRecord (c : Cam K) : BCam K := ⟨c.focal, c.k1, c.k2, flipM c.rot, flip (c.rot.mulVec c.pos).neg⟩

theorem readCamera_toks (c : Cam K) (rest : List (Tok K)) : readCamera (cameraToks c ++ rest) = .ok (camRecord c) rest := rfl

omit [Field K] in
theorem readMany_toks {α β : Type} {p : Reader K β} {toks : α → List (Tok K)} {g : α → β} (l : List α) (rest : List (Tok K))
    (h : ∀ a ∈ l, ∀ rest, p (toks a ++ rest) = .ok (g a) rest) :
    readMany p l.length ((l.map toks).flatten ++ rest) = .ok (l.map g) rest := by
  induction l with
  | nil => rfl
  | cons a l ih =>
    simp only [List.length_cons, List.map_cons, List.flatten_cons, List.append_assoc]
    unfold readMany
    show Reader.andThen p (fun a => Reader.andThen (readMany p l.length) fun rest => Reader.ret (a :: rest)) _ = _
    unfold Reader.andThen
    rw [h a List.mem_cons_self]
    simp only
    rw [ih fun b hb => h b (List.mem_cons_of_mem _ hb)]
    rfl

end parse

/-- The name of a view. -/
def nameOf (r : Reconstruction (K × K) (Point K)) (v : ViewId) : String :=
  match r.view v with
  | some V => V.name
  | none => ""

/-- The feature of a view in a track. -/
def featOf [Zero K] (r : Reconstruction (K × K) (Point K)) (v : ViewId) (t : TrackId) : K × K :=
  match r.view v with
  | some V => (V.getFeature t).getD (0, 0)
  | none => (0, 0)

section write
variable [Field K]

theorem writeViews_ok (s : Scene K) (vs : List ViewId) (h : ∀ v ∈ vs, (∃ V, s.recon.view v = some V) ∧ (s.cam v).pinhole = true) :
    writeViews s vs = .ok (vs.map fun v => ⟨nameOf s.recon v, s.prior v⟩, (vs.map fun v => cameraToks (s.cam v)).flatten) := by
  induction vs with
  | nil => rfl
  | cons v vs ih =>
    obtain ⟨⟨V, hV⟩, hp⟩ := h v List.mem_cons_self
    unfold writeViews
    rw [hV]
    simp only [hp, if_true]
    rw [ih fun w hw => h w (List.mem_cons_of_mem _ hw)]
    simp [nameOf, hV]

theorem viewIndex_get (vs : List ViewId) : ∀ (i : Nat) (m : AMap ViewId Nat), vs.Nodup →
    ∀ v, (viewIndex vs i m).get v = if v ∈ vs then some (i + vs.idxOf v) else m.get v := by
  induction vs with
  | nil => intro i m _ v; simp [viewIndex]
  | cons w vs ih =>
    intro i m hnd v
    rw [List.nodup_cons] at hnd
    unfold viewIndex
    rw [ih _ _ hnd.2]
    by_cases hv : v = w
    · subst hv
      simp [hnd.1, AMap.get_insert_self]
    · by_cases hm : v ∈ vs
      · simp only [hm, if_true, List.mem_cons, or_true]
        rw [List.idxOf_cons_ne _ (Ne.symm hv)]
        congr 1
        omega
      · simp [hm, hv, AMap.get_insert_ne _ _ hv]

/-- The tokens of an observation. -/
def obsToks (s : Scene K) (idx : ViewId → Nat) (t : TrackId) (v : ViewId) : List (Tok K) :=
  [.int (idx v), .int 0, .num ((featOf s.recon v t).1 - (s.cam v).px), .num (-((featOf s.recon v t).2 - (s.cam v).py))]

theorem writeObs_ok (s : Scene K) (index : AMap ViewId Nat) (idx : ViewId → Nat) (t : TrackId) (vs : List ViewId)
    (h : ∀ v ∈ vs, index.get v = some (idx v) ∧ ∃ V f, s.recon.view v = some V ∧ V.getFeature t = some f) :
    writeObs s index t vs = .ok ((vs.map (obsToks s idx t)).flatten) := by
  induction vs with
  | nil => rfl
  | cons v vs ih =>
    obtain ⟨hi, V, f, hV, hf⟩ := h v List.mem_cons_self
    unfold writeObs
    simp only [hi, hV, hf]
    rw [ih fun w hw => h w (List.mem_cons_of_mem _ hw)]
    simp [obsToks, featOf, hV, hf]

variable [LinearOrder K] [FloorRing K]

/-- The position of a track. -/
def posOf (T : Track (Point K)) : V3 K :=
  ⟨T.payload.point.x / T.payload.w, T.payload.point.y / T.payload.w, T.payload.point.z / T.payload.w⟩

/-- The tokens of a track. -/
def trackToks (s : Scene K) (o : Orders) (idx : ViewId → Nat) (t : TrackId) : List (Tok K) :=
  match s.recon.track t with
  | some T => vecToks (posOf T) ++ vecToks ⟨(T.payload.color.1 : K), (T.payload.color.2.1 : K), (T.payload.color.2.2 : K)⟩ ++
      [.int T.views.length] ++ ((o.obs t T.views).map (obsToks s idx t)).flatten
  | none => []

omit [FloorRing K] in
theorem writeTracks_ok (s : Scene K) (o : Orders) (index : AMap ViewId Nat) (idx : ViewId → Nat) (ts : List TrackId)
    (h : ∀ t ∈ ts, ∃ T, s.recon.track t = some T ∧ T.payload.w ≠ 0 ∧
      ∀ v ∈ o.obs t T.views, index.get v = some (idx v) ∧ ∃ V f, s.recon.view v = some V ∧ V.getFeature t = some f) :
    writeTracks s o index ts = .ok ((ts.map (trackToks s o idx)).flatten) := by
  induction ts with
  | nil => rfl
  | cons t ts ih =>
    obtain ⟨T, hT, hw, hobs⟩ := h t List.mem_cons_self
    unfold writeTracks
    simp only [hT, hnormalized, if_neg hw]
    rw [writeObs_ok s index idx t _ hobs, ih fun w hw => h w (List.mem_cons_of_mem _ hw)]
    simp [trackToks, hT, posOf, vecToks]

/-- The record of a point. -/
def pointRecord (s : Scene K) (o : Orders) (idx : ViewId → Nat) (t : TrackId) : BPoint K :=
  match s.recon.track t with
  | some T => ⟨posOf T, ⟨(T.payload.color.1 : K), (T.payload.color.2.1 : K), (T.payload.color.2.2 : K)⟩,
      (o.obs t T.views).map fun v => ⟨(idx v : Int), 0, trunc ((featOf s.recon v t).1 - (s.cam v).px),
        trunc (-((featOf s.recon v t).2 - (s.cam v).py))⟩⟩
  | none => ⟨⟨0, 0, 0⟩, ⟨0, 0, 0⟩, []⟩

variable [IsStrictOrderedRing K]

theorem trunc_intCast (n : Int) : trunc ((n : Int) : K) = n := by
  unfold trunc
  split <;> simp

theorem trunc_natCast (n : Nat) : trunc ((n : Nat) : K) = n := by
  have := trunc_intCast (K := K) (n : Int)
  simpa using this

theorem readPoint_toks (s : Scene K) (o : Orders) (hobs : ∀ t l, (o.obs t l).Perm l) (idx : ViewId → Nat) (t : TrackId)
    {T : Track (Point K)} (hT : s.recon.track t = some T) (rest : List (Tok K)) :
    readPoint (trackToks s o idx t ++ rest) = .ok (pointRecord s o idx t) rest := by
  have hl : T.views.length = (o.obs t T.views).length := (hobs t T.views).length_eq.symm
  unfold trackToks pointRecord
  simp only [hT]
  have hb : (readPoint : Reader K (BPoint K)) = Reader.andThen readVec (fun p => Reader.andThen readVec fun c =>
      Reader.andThen readViewList fun l => Reader.ret (BPoint.mk p c l)) := rfl
  rw [hb]
  simp only [List.append_assoc]
  unfold Reader.andThen
  rw [readVec_toks]
  simp only
  rw [readVec_toks]
  simp only [List.cons_append, List.nil_append]
  have : ∀ rest : List (Tok K), readViewList (.int T.views.length :: rest) = readMany readEntry T.views.length rest := by
    intro rest
    unfold readViewList readInt
    simp only
    rw [if_neg (by omega)]
    simp
  rw [this, hl]
  rw [readMany_toks (g := fun v => ⟨(idx v : Int), 0, trunc ((featOf s.recon v t).1 - (s.cam v).px),
        trunc (-((featOf s.recon v t).2 - (s.cam v).py))⟩)]
  · rfl
  · intro v _ rest
    show Read.ok (BEntry.mk (trunc (((idx v : Nat) : Int) : K)) (trunc ((0 : Int) : K)) _ _) _ = _
    rw [trunc_intCast, trunc_intCast]
    rfl

/-- Parsing the written bundle file gives the records. -/
theorem parse_write (s : Scene K) (o : Orders) (hV : ∀ l, (o.views l).Perm l) (hT : ∀ l, (o.tracks l).Perm l)
    (hobs : ∀ t l, (o.obs t l).Perm l) (hr : s.recon.Reachable) (hp : ∀ v V, s.recon.view v = some V → (s.cam v).pinhole = true)
    (hw : ∀ t T, s.recon.track t = some T → T.payload.w ≠ 0) (hv0 : s.recon.viewIds ≠ []) (ht0 : s.recon.trackIds ≠ []) :
    ∃ f, writeBundle s o = .ok f ∧ f.comment = true ∧
      f.lists = (o.views s.recon.viewIds).map (fun v => ⟨nameOf s.recon v, s.prior v⟩) ∧
      parseBundle f = .ok ((o.views s.recon.viewIds).map (fun v => camRecord (s.cam v)),
        (o.tracks s.recon.trackIds).map (pointRecord s o fun v => (o.views s.recon.viewIds).idxOf v)) [] := by
  have hi := Reconstruction.inv_of_reachable hr
  have hview : ∀ v ∈ o.views s.recon.viewIds, (∃ V, s.recon.view v = some V) ∧ (s.cam v).pinhole = true := by
    intro v hv
    rw [(hV _).mem_iff] at hv
    obtain ⟨V, h⟩ := AMap.mem_keys_iff.1 hv
    exact ⟨⟨V, h⟩, hp v V h⟩
  have hnd : (o.views s.recon.viewIds).Nodup := (hV _).nodup_iff.2 hi.wfViews
  have htrack : ∀ t ∈ o.tracks s.recon.trackIds, ∃ T, s.recon.track t = some T ∧ T.payload.w ≠ 0 ∧
      ∀ v ∈ o.obs t T.views, (viewIndex (o.views s.recon.viewIds) 0 .empty).get v =
        some ((o.views s.recon.viewIds).idxOf v) ∧ ∃ V f, s.recon.view v = some V ∧ V.getFeature t = some f := by
    intro t ht
    rw [(hT _).mem_iff] at ht
    obtain ⟨T, h⟩ := AMap.mem_keys_iff.1 ht
    refine ⟨T, h, hw t T h, fun v hv => ?_⟩
    rw [(hobs t _).mem_iff] at hv
    obtain ⟨V, hV', hf⟩ := (hi.sym v t).2 ⟨T, h, hv⟩
    obtain ⟨f, hf⟩ := AMap.mem_keys_iff.1 hf
    refine ⟨?_, V, f, hV', hf⟩
    have hin : v ∈ o.views s.recon.viewIds := (hV _).mem_iff.2 (AMap.mem_keys_iff.2 ⟨V, hV'⟩)
    rw [viewIndex_get _ _ _ hnd, if_pos hin, Nat.zero_add]
  refine ⟨⟨(o.views s.recon.viewIds).map (fun v => ⟨nameOf s.recon v, s.prior v⟩), true,
      [.int s.recon.numViews, .int s.recon.numTracks] ++ ((o.views s.recon.viewIds).map fun v => cameraToks (s.cam v)).flatten ++
      ((o.tracks s.recon.trackIds).map (trackToks s o fun v => (o.views s.recon.viewIds).idxOf v)).flatten⟩, ?_, rfl, rfl, ?_⟩
  · unfold writeBundle
    rw [writeViews_ok s _ hview, writeTracks_ok s o _ _ _ htrack]
    rfl
  · have hnv : s.recon.numViews = (o.views s.recon.viewIds).length := by
      rw [(hV _).length_eq]; exact AMap.size_eq_length_keys _
    have hnt : s.recon.numTracks = (o.tracks s.recon.trackIds).length := by
      rw [(hT _).length_eq]; exact AMap.size_eq_length_keys _
    have hv1 : 1 ≤ s.recon.numViews := by
      rw [hnv, (hV _).length_eq]; exact List.length_pos_iff.2 hv0
    have ht1 : 1 ≤ s.recon.numTracks := by
      rw [hnt, (hT _).length_eq]; exact List.length_pos_iff.2 ht0
    unfold parseBundle
    simp only [Bool.true_eq_false, if_false]
    show Reader.andThen readHeader (fun h => Reader.andThen (readMany readCamera h.1) fun cams =>
      Reader.andThen (readMany readPoint h.2) fun points => Reader.ret (cams, points)) _ = _
    unfold Reader.andThen
    have hh : ∀ rest : List (Tok K), readHeader (.int s.recon.numViews :: .int s.recon.numTracks :: rest) =
        .ok (s.recon.numViews, s.recon.numTracks) rest := by
      intro rest
      show (if ((s.recon.numViews : Nat) : Int) < 1 ∨ ((s.recon.numTracks : Nat) : Int) < 1 then (fun _ => Read.fail)
        else Reader.ret (((s.recon.numViews : Nat) : Int).toNat, ((s.recon.numTracks : Nat) : Int).toNat)) rest = _
      rw [if_neg (by omega)]
      simp [Reader.ret]
    simp only [List.cons_append, List.nil_append]
    rw [hh]
    simp only
    rw [hnv, readMany_toks _ _ fun v _ rest => readCamera_toks (s.cam v) rest]
    simp only
    rw [hnt]
    have := readMany_toks (p := readPoint) (toks := trackToks s o fun v => (o.views s.recon.viewIds).idxOf v)
      (g := pointRecord s o fun v => (o.views s.recon.viewIds).idxOf v) (o.tracks s.recon.trackIds) [] (by
        intro t ht rest
        obtain ⟨T, hT', -⟩ := htrack t ht
        exact readPoint_toks s o hobs _ t hT' rest)
    rw [List.append_nil] at this
    rw [this]
    rfl

end write

end Bundler
end Theia
