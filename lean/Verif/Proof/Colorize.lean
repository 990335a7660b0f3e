import Verif.Model.Colorize
import Verif.Proof.Reconstruction
import Mathlib.Data.List.Perm.Subperm
import Mathlib.Algebra.BigOperators.Group.List.Basic
import Mathlib.Data.List.Nodup
import Mathlib.Tactic.FinCases

/-! # Colouring a reconstruction: lemmas -/

namespace Theia.Colorize

open Reconstruction

/-! ## Interleavings -/

theorem flatten_set_perm {α : Type} : ∀ {ps : List (List α)} {i : Nat} {a : α} {as : List α},
    ps[i]? = some (a :: as) → ps.flatten.Perm (a :: (ps.set i as).flatten)
  | [], i, a, as, h => by simp at h
  | p :: ps, 0, a, as, h => by
    simp only [List.getElem?_cons_zero, Option.some.injEq] at h
    subst h
    exact .refl _
  | p :: ps, i + 1, a, as, h => by
    simp only [List.getElem?_cons_succ] at h
    have ih := flatten_set_perm h
    simp only [List.set_cons_succ, List.flatten_cons]
    exact (ih.append_left p).trans List.perm_middle

theorem interleave_perm {α : Type} : ∀ {schedule : List Nat} {ps : List (List α)} {l : List α},
    interleave schedule ps = some l → ps.flatten.Perm l
  | [], ps, l, h => by
    rw [interleave] at h
    split_ifs at h with hp
    cases h
    have : ps.flatten = [] := by
      rw [List.flatten_eq_nil_iff]
      intro x hx
      have := List.all_eq_true.1 hp x hx
      simpa using this
    rw [this]
  | i :: schedule, ps, l, h => by
    rw [interleave] at h
    split at h
    · next a as ha =>
      obtain ⟨l', hl', rfl⟩ := Option.map_eq_some_iff.1 h
      exact (flatten_set_perm ha).trans ((interleave_perm hl').cons a)
    · cases h

/-! ## Sums -/

/-- What is added to one track. -/
def picks (t : TrackId) (l : List (TrackId × Rgb ℚ)) : List (Rgb ℚ) :=
  (l.filter fun a => decide (a.1 = t)).map Prod.snd

/-- One addition. -/
def plus (m : Machine) (s c : Rgb ℚ) : Rgb ℚ := fun i => m.fl (s i + c i)

theorem accumulate_ok (m : Machine) : ∀ (l : List (TrackId × Rgb ℚ)) (colors : AMap TrackId (Rgb ℚ)),
    (∀ a ∈ l, a.1 ∈ colors.keys) →
    ∃ colors', accumulate m l colors = .ok colors' ∧
      ∀ t, colors'.get t = (colors.get t).map fun s => (picks t l).foldl (plus m) s
  | [], colors, _ => ⟨colors, rfl, fun t => by simp [picks]⟩
  | (t, c) :: l, colors, h => by
    obtain ⟨old, ho⟩ := AMap.mem_keys_iff.1 (h (t, c) (by simp))
    rw [accumulate, ho]
    simp only
    obtain ⟨colors', h1, h2⟩ := accumulate_ok m l (colors.insert t fun i => m.fl (old i + c i))
      fun a ha => AMap.mem_keys_insert.2 (.inr (h a (by simp [ha])))
    refine ⟨colors', h1, fun u => ?_⟩
    rw [h2 u, AMap.get_insert]
    by_cases hu : u = t
    · subst hu
      rw [if_pos rfl, ho]
      simp only [picks, List.filter_cons, decide_true, if_true, List.map_cons, List.foldl_cons,
        Option.map_some]
      rfl
    · rw [if_neg hu]
      have : picks u ((t, c) :: l) = picks u l := by
        unfold picks
        rw [List.filter_cons, if_neg (by simpa using Ne.symm hu)]
      rw [this]

theorem zeros_get : ∀ (ts : List TrackId) (t : TrackId),
    (zeros ts).get t = if t ∈ ts then some (fun _ => 0) else none
  | [], t => by simp [zeros]
  | u :: ts, t => by
    rw [zeros, AMap.get_insert, zeros_get ts]
    by_cases h : t = u
    · simp [h]
    · simp [h]

/-- Sums that are computed without rounding do not depend on the order. -/
theorem foldl_plus (m : Machine) (all : List (Rgb ℚ))
    (hfix : ∀ (i : Fin 3) (l : List (Rgb ℚ)), l.Subperm all →
      m.fl ((l.map fun c => c i).sum) = (l.map fun c => c i).sum) :
    ∀ (cs pre : List (Rgb ℚ)), (pre ++ cs).Subperm all →
      cs.foldl (plus m) (fun i => (pre.map fun c => c i).sum) =
        fun i => ((pre ++ cs).map fun c => c i).sum
  | [], pre, _ => by simp
  | c :: cs, pre, h => by
    have h' : ((pre ++ [c]) ++ cs).Subperm all := by simpa using h
    have hp : plus m (fun i => (pre.map fun c => c i).sum) c =
        fun i => ((pre ++ [c]).map fun c => c i).sum := by
      funext i
      unfold plus
      have hs : (pre ++ [c]).Subperm all :=
        (List.sublist_append_left (pre ++ [c]) cs).subperm.trans h'
      have := hfix i _ hs
      simp only [List.map_append, List.map_cons, List.map_nil, List.sum_append, List.sum_cons,
        List.sum_nil, add_zero] at this ⊢
      exact this
    rw [List.foldl_cons, hp, foldl_plus m all hfix cs (pre ++ [c]) h']
    simp

theorem picks_perm {t : TrackId} {l l' : List (TrackId × Rgb ℚ)} (h : l.Perm l') :
    (picks t l).Perm (picks t l') := (h.filter _).map _

theorem picks_append (t : TrackId) (l l' : List (TrackId × Rgb ℚ)) :
    picks t (l ++ l') = picks t l ++ picks t l' := by simp [picks]

theorem picks_map {t : TrackId} {col : TrackId → Rgb ℚ} : ∀ {ts : List TrackId}, ts.Nodup →
    picks t (ts.map fun u => (u, col u)) = if t ∈ ts then [col t] else []
  | [], _ => rfl
  | u :: ts, h => by
    rw [List.nodup_cons] at h
    have ih := picks_map (t := t) (col := col) h.2
    rw [List.map_cons]
    have hc : picks t ((u, col u) :: ts.map fun u => (u, col u)) =
        (if u = t then [col u] else []) ++ picks t (ts.map fun u => (u, col u)) := by
      unfold picks
      rw [List.filter_cons]
      by_cases hu : u = t <;> simp [hu]
    rw [hc, ih]
    by_cases hu : u = t
    · subst hu
      simp [h.1]
    · simp [hu, Ne.symm hu]

/-! ## The additions of the views -/

variable {P : Type}

/-- The tracks of a view. -/
def tracksOf (r : Reconstruction (ℚ × ℚ) P) (v : ViewId) : List TrackId :=
  ((r.view v).map View.trackIds).getD []

theorem viewColors_ok (m : Machine) (image : Image) (V : View (ℚ × ℚ)) (col : TrackId → Rgb ℚ) :
    ∀ ts : List TrackId,
      (∀ t ∈ ts, ∃ f, V.getFeature t = some f ∧ featureColor m image f = .ok (col t)) →
      viewColors m image V ts = .ok (ts.map fun t => (t, col t))
  | [], _ => rfl
  | t :: ts, h => by
    obtain ⟨f, hf, hc⟩ := h t (by simp)
    rw [viewColors, hf]
    simp only [hc, Outcome.ok_bind]
    rw [viewColors_ok m image V col ts fun u hu => h u (by simp [hu])]
    rfl

theorem tasks_ok (m : Machine) (files : String → Option Image) (directory : String)
    (r : Reconstruction (ℚ × ℚ) P) (col : ViewId → TrackId → Rgb ℚ) :
    ∀ vs : List ViewId,
      (∀ v ∈ vs, ∃ V image, r.view v = some V ∧ files (directory ++ V.name) = some image ∧
        image.channels = 3 ∧
        ∀ t f, V.getFeature t = some f → featureColor m image f = .ok (col v t)) →
      tasks m files directory r vs =
        .ok (vs.map fun v => (tracksOf r v).map fun t => (t, col v t))
  | [], _ => rfl
  | v :: vs, h => by
    obtain ⟨V, image, hV, hi, hc, hcol⟩ := h v (by simp)
    rw [tasks, hV]
    simp only [hi]
    have he : extractColors m image V = .ok (V.trackIds.map fun t => (t, col v t)) := by
      unfold extractColors
      rw [if_pos (.inl hc)]
      refine viewColors_ok m image V (col v) _ fun t ht => ?_
      obtain ⟨f, hf⟩ := AMap.mem_keys_iff.1 ht
      exact ⟨f, hf, hcol t f hf⟩
    rw [he, Outcome.ok_bind, tasks_ok m files directory r col vs fun w hw => h w (by simp [hw])]
    simp only [Outcome.ok_bind, Outcome.pure_eq, List.map_cons, tracksOf, hV, Option.map_some,
      Option.getD_some]

theorem picks_flatten (r : Reconstruction (ℚ × ℚ) P) (col : ViewId → TrackId → Rgb ℚ)
    (hnd : ∀ v, (tracksOf r v).Nodup) (t : TrackId) : ∀ vs : List ViewId,
    picks t (vs.map fun v => (tracksOf r v).map fun t => (t, col v t)).flatten =
      (vs.filter fun v => decide (t ∈ tracksOf r v)).map fun v => col v t
  | [] => rfl
  | v :: vs => by
    rw [List.map_cons, List.flatten_cons, picks_append, picks_map (col := col v) (hnd v),
      picks_flatten r col hnd t vs, List.filter_cons]
    by_cases h : t ∈ tracksOf r v <;> simp [h]

theorem tracksOf_nodup {r : Reconstruction (ℚ × ℚ) P} (hi : r.Inv) (v : ViewId) :
    (tracksOf r v).Nodup := by
  unfold tracksOf
  cases hV : r.view v with
  | none => exact List.nodup_nil
  | some V => exact hi.wfFeat v V hV

theorem observers_perm {r : Reconstruction (ℚ × ℚ) P} (hi : r.Inv) {t : TrackId} {T : Track P}
    (hT : r.track t = some T) :
    (r.viewIds.filter fun v => decide (t ∈ tracksOf r v)).Perm T.views := by
  rw [List.perm_ext_iff_of_nodup ((show r.viewIds.Nodup from hi.wfViews).filter _) (hi.ndTrack t T hT)]
  intro v
  simp only [List.mem_filter, decide_eq_true_eq]
  constructor
  · rintro ⟨-, h⟩
    unfold tracksOf at h
    cases hV : r.view v with
    | none => rw [hV] at h; simp at h
    | some V =>
      rw [hV] at h
      obtain ⟨T', hT', hv⟩ := (hi.sym v t).1 ⟨V, hV, h⟩
      rw [show r.tracks.get t = some T from hT] at hT'
      cases hT'
      exact hv
  · intro hv
    obtain ⟨V, hV, ht⟩ := (hi.sym v t).2 ⟨T, hT, hv⟩
    refine ⟨AMap.mem_keys_iff.2 ⟨V, hV⟩, ?_⟩
    unfold tracksOf
    rw [show r.view v = some V from hV]
    exact ht

/-! ## Painting -/

variable {Q : Type}

/-- Painting changes only colours of tracks. -/
theorem paint_frame (m : Machine) (colors : AMap TrackId (Rgb ℚ)) : ∀ {ts : List TrackId}
    {r r' : Reconstruction (ℚ × ℚ) (Rgb Byte × Q)}, paint m colors ts r = .ok r' →
      r' = { r with tracks := r'.tracks } ∧ r'.trackIds = r.trackIds ∧
      ∀ t, (r'.track t).map (fun T => (T.estimated, T.views, T.payload.2)) =
        (r.track t).map fun T => (T.estimated, T.views, T.payload.2)
  | [], r, r', h => by
    cases h
    exact ⟨rfl, rfl, fun _ => rfl⟩
  | u :: ts, r, r', h => by
    rw [paint] at h
    split at h
    · cases h
    · cases h
    · next s T hs hT =>
      obtain ⟨c, -, h⟩ := Outcome.bind_eq_ok.1 h
      obtain ⟨h1, h2, h3⟩ := paint_frame m colors h
      refine ⟨by rw [h1], ?_, fun t => ?_⟩
      · rw [h2]
        show (r.tracks.insert u _).keys = r.tracks.keys
        rw [AMap.keys_insert, if_pos (AMap.mem_keys_iff.2 ⟨T, hT⟩)]
      · rw [h3 t]
        show ((r.tracks.insert u _).get t).map _ = _
        rw [AMap.get_insert]
        by_cases ht : t = u
        · subst ht
          rw [if_pos rfl, hT]
          rfl
        · rw [if_neg ht]
          rfl

theorem paint_ok (m : Machine) (colors : AMap TrackId (Rgb ℚ)) (b : TrackId → Rgb Byte) :
    ∀ (ts : List TrackId) (r : Reconstruction (ℚ × ℚ) (Rgb Byte × Q)), ts.Nodup →
      (∀ t ∈ ts, ∃ s T, colors.get t = some s ∧ r.track t = some T ∧
        meanColor m s T.views.length = .ok (b t)) →
      ∃ r', paint m colors ts r = .ok r' ∧
        ∀ t ∈ ts, (r'.track t).map (fun T => T.payload.1) = some (b t)
  | [], r, _, _ => ⟨r, rfl, by simp⟩
  | u :: ts, r, hnd, h => by
    rw [List.nodup_cons] at hnd
    obtain ⟨s, T, hs, hT, hm⟩ := h u (by simp)
    have hget : ∀ t, ({ r with tracks := r.tracks.insert u { T with payload := (b u, T.payload.2) } } :
        Reconstruction (ℚ × ℚ) (Rgb Byte × Q)).track t =
        if t = u then some { T with payload := (b u, T.payload.2) } else r.track t := fun t => by
      show (r.tracks.insert u _).get t = _
      rw [AMap.get_insert]
      rfl
    obtain ⟨r', h1, h2⟩ := paint_ok m colors b ts
      { r with tracks := r.tracks.insert u { T with payload := (b u, T.payload.2) } } hnd.2
      fun t ht => by
        obtain ⟨s', T', hs', hT', hm'⟩ := h t (by simp [ht])
        refine ⟨s', T', hs', ?_, hm'⟩
        rw [hget, if_neg (show t ≠ u from fun e => hnd.1 (e ▸ ht)), hT']
    have hp : paint m colors (u :: ts) r = .ok r' := by
      rw [paint, hs, hT]
      simp only [hm, Outcome.ok_bind]
      exact h1
    refine ⟨r', hp, fun t ht => ?_⟩
    rcases List.mem_cons.1 ht with rfl | ht
    · have hnot : ∀ {ts : List TrackId} {r r' : Reconstruction (ℚ × ℚ) (Rgb Byte × Q)},
          t ∉ ts → paint m colors ts r = .ok r' → r'.track t = r.track t := by
        intro ts
        induction ts with
        | nil => intro r r' _ h; cases h; rfl
        | cons w ts ih =>
          intro r r' hn h
          rw [List.mem_cons, not_or] at hn
          rw [paint] at h
          split at h
          · cases h
          · cases h
          · next s T hs hT =>
            obtain ⟨c, -, h⟩ := Outcome.bind_eq_ok.1 h
            rw [ih hn.2 h]
            show (r.tracks.insert w _).get t = _
            rw [AMap.get_insert, if_neg hn.1]
            rfl
      rw [hnot hnd.1 h1, hget, if_pos rfl]
      rfl
    · exact h2 t ht

theorem toByte_ok {y : ℚ} {k : Nat} (hk : k < 256) (h : y.floor = (k : ℤ)) :
    toByte y = .ok ⟨k, hk⟩ := by
  change ⌊y⌋ = _ at h
  rw [Int.floor_eq_iff] at h
  have h1 : (0 : ℚ) ≤ y := le_trans (by positivity) h.1
  have h2 : y < 256 := by
    have : ((k : ℤ) : ℚ) + 1 ≤ 256 := by
      have : k + 1 ≤ 256 := hk
      exact_mod_cast this
    linarith [h.2]
  unfold toByte
  rw [if_pos ⟨by linarith, h2⟩]
  congr 1
  apply Fin.ext
  rw [Fin.val_ofNat]
  have h3 : y.floor = (k : ℤ) := by
    change ⌊y⌋ = _
    rw [Int.floor_eq_iff]
    exact h
  rw [h3, Int.toNat_natCast, Nat.mod_eq_of_lt hk]

/-- If every sum is computed without rounding, the result is painted with the means, whatever the
schedule. -/
theorem colorize_ok (m : Machine) (files : String → Option Image) (directory : String)
    (numThreads : Int) (hn : 0 < numThreads) (schedule : List Nat)
    (r : Reconstruction (ℚ × ℚ) (Rgb Byte × Q)) (hi : r.Inv) (col : ViewId → TrackId → Rgb ℚ)
    (himg : ∀ v V, r.view v = some V → ∃ image, files (directory ++ V.name) = some image ∧
      image.channels = 3 ∧
      ∀ t f, V.getFeature t = some f → featureColor m image f = .ok (col v t))
    (hfix : ∀ t T, r.track t = some T → ∀ (i : Fin 3) (l : List (Rgb ℚ)),
      l.Subperm (T.views.map fun v => col v t) →
      m.fl ((l.map fun c => c i).sum) = (l.map fun c => c i).sum)
    (b : TrackId → Rgb Byte)
    (hmean : ∀ t T, r.track t = some T → T.views ≠ [] ∧ ∀ i,
      toByte (m.fl ((T.views.map fun v => col v t i).sum / T.views.length)) = .ok (b t i))
    (hsched : (interleave schedule
      (r.viewIds.map fun v => (tracksOf r v).map fun t => (t, col v t))).isSome) :
    tasks m files directory r r.viewIds =
        .ok (r.viewIds.map fun v => (tracksOf r v).map fun t => (t, col v t)) ∧
    ∃ r', colorize m true files directory numThreads schedule r = .ok r' ∧
      ∀ t T, r.track t = some T → (r'.track t).map (fun T => T.payload.1) = some (b t) := by
  have htasks : tasks m files directory r r.viewIds =
      .ok (r.viewIds.map fun v => (tracksOf r v).map fun t => (t, col v t)) := by
    refine tasks_ok m files directory r col _ fun v hv => ?_
    obtain ⟨V, hV⟩ := AMap.mem_keys_iff.1 hv
    obtain ⟨image, h1, h2, h3⟩ := himg v V hV
    exact ⟨V, image, hV, h1, h2, h3⟩
  refine ⟨htasks, ?_⟩
  obtain ⟨l, hl⟩ := Option.isSome_iff_exists.1 hsched
  have hperm := interleave_perm hl
  have hkeys : ∀ a ∈ l, a.1 ∈ (zeros r.trackIds).keys := by
    intro a ha
    have ha' := hperm.symm.subset ha
    rw [List.mem_flatten] at ha'
    obtain ⟨x, hx, hax⟩ := ha'
    obtain ⟨v, hv, rfl⟩ := List.mem_map.1 hx
    obtain ⟨t, ht, rfl⟩ := List.mem_map.1 hax
    obtain ⟨V, hV⟩ := AMap.mem_keys_iff.1 hv
    have ht' : t ∈ V.features.keys := by
      unfold tracksOf at ht
      rw [show r.view v = some V from hV] at ht
      exact ht
    obtain ⟨T, hT, -⟩ := (hi.sym v t).1 ⟨V, hV, ht'⟩
    rw [AMap.mem_keys_iff]
    refine ⟨fun _ => 0, ?_⟩
    rw [zeros_get, if_pos]
    exact AMap.mem_keys_iff.2 ⟨T, hT⟩
  obtain ⟨colors, hacc, hget⟩ := accumulate_ok m l _ hkeys
  have hsum : ∀ t T, r.track t = some T →
      colors.get t = some fun i => (T.views.map fun v => col v t i).sum := by
    intro t T hT
    rw [hget t, zeros_get, if_pos (show t ∈ r.trackIds from AMap.mem_keys_iff.2 ⟨T, hT⟩), Option.map_some]
    have hp : (picks t l).Perm (T.views.map fun v => col v t) := by
      refine (picks_perm hperm.symm).trans ?_
      rw [picks_flatten r col (tracksOf_nodup hi) t]
      exact (observers_perm hi hT).map _
    have hf := foldl_plus m (T.views.map fun v => col v t) (hfix t T hT) (picks t l) []
      (by rw [List.nil_append]; exact hp.subperm)
    simp only [List.map_nil, List.sum_nil, List.nil_append] at hf
    rw [hf]
    congr 1
    funext i
    rw [(hp.map fun c => c i).sum_eq, List.map_map]
    rfl
  obtain ⟨r', h1, h2⟩ := paint_ok m colors b r.trackIds r hi.wfTracks fun t ht => by
    obtain ⟨T, hT⟩ := AMap.mem_keys_iff.1 ht
    refine ⟨_, T, hsum t T hT, hT, ?_⟩
    obtain ⟨hne, hb⟩ := hmean t T hT
    unfold meanColor
    rw [if_neg (by simpa using hne), hb 0, hb 1, hb 2]
    simp only [Outcome.ok_bind, Outcome.pure_eq]
    congr 1
    funext i
    fin_cases i <;> rfl
  refine ⟨r', ?_, fun t T hT => h2 t (AMap.mem_keys_iff.2 ⟨T, hT⟩)⟩
  unfold colorize
  simp only [Outcome.check_true, Outcome.ok_bind, decide_eq_true hn, htasks, hl, hacc]
  exact h1

/-- Whatever happens, only colours of tracks change. -/
theorem colorize_frame {m : Machine} {exists_ : Bool} {files : String → Option Image}
    {directory : String} {numThreads : Int} {schedule : List Nat}
    {r r' : Reconstruction (ℚ × ℚ) (Rgb Byte × Q)}
    (h : colorize m exists_ files directory numThreads schedule r = .ok r') :
    r' = { r with tracks := r'.tracks } ∧ r'.trackIds = r.trackIds ∧
      ∀ t, (r'.track t).map (fun T => (T.estimated, T.views, T.payload.2)) =
        (r.track t).map fun T => (T.estimated, T.views, T.payload.2) := by
  unfold colorize at h
  obtain ⟨_, -, h⟩ := Outcome.bind_eq_ok.1 h
  obtain ⟨_, -, h⟩ := Outcome.bind_eq_ok.1 h
  obtain ⟨pending, -, h⟩ := Outcome.bind_eq_ok.1 h
  split at h
  · cases h
  · obtain ⟨colors, -, h⟩ := Outcome.bind_eq_ok.1 h
    exact paint_frame m colors h

end Theia.Colorize
