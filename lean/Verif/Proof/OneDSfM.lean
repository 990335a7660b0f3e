import Verif.Spec.OneDSfM
import Verif.Proof.Reconstruction
import Verif.Proof.ViewGraph
import Verif.Proof.LinearPositionExact

/-!
# Reading a 1DSfM dataset
-/

namespace Theia
namespace OneDSfM

open Spec Spec.OneD Reconstruction

/-! ## The list -/

/-- What is known while the list is read: there are no tracks. -/
structure Listed (s : State) : Prop where
  inv : s.recon.Inv
  tracks : ∀ t, s.recon.tracks.get t = none
  first : s.recon.nextTrackId = 0

theorem listed_start : Listed start := ⟨inv_empty, fun _ => rfl, rfl⟩

/-- What adding a view does. -/
theorem addView_some {r r' : Reconstruction (ℝ × ℝ) Colour} {n : String} {v : ViewId} (hi : r.Inv)
    (h : r.addView n = .ok (some v, r')) :
    v = r.nextViewId ∧ r'.nextViewId = r.nextViewId + 1 ∧ r'.tracks = r.tracks ∧ r'.nextTrackId = r.nextTrackId ∧
      n ∉ r.names.keys ∧
      ∃ V : View (ℝ × ℝ), V.name = n ∧ r'.views = r.views.insert r.nextViewId V := by
  obtain ⟨r1, h1, rfl⟩ := addView_eq h
  by_cases hn : n ∈ r.names.keys ∨ n = ""
  · rw [addViewToGroup_fail hn] at h1; cases h1
  · simp only [not_or] at hn
    obtain ⟨intr, _, _, heq⟩ := addViewToGroup_spec hi (g := r.nextGroupId) hn.1 hn.2
    rw [heq] at h1
    cases h1
    exact ⟨rfl, rfl, rfl, rfl, hn.1, ⟨n, false, intr, .empty⟩, rfl, rfl⟩

theorem addView_ok {r : Reconstruction (ℝ × ℝ) Colour} {n : String} (hi : r.Inv) (h1 : n ∉ r.names.keys) (h2 : n ≠ "") :
    ∃ v r', r.addView n = .ok (some v, r') := by
  obtain ⟨intr, _, _, heq⟩ := addViewToGroup_spec hi (g := r.nextGroupId) h1 h2
  exact ⟨_, _, by rw [addView, heq]⟩

/-- The name of a view. -/
def nameOf (s : State) (v : ViewId) : Option String := (s.recon.views.get v).map (·.name)

/-- The prior a view has after the list has been read. -/
noncomputable def listPrior (e : Entry) : Prior :=
  if e.focal ≠ 0 then { Prior.unset with focal := some e.focal } else .unset

/-- The state after a view of the component was added. -/
theorem kept_step {s : State} (hs : Listed s) {n : String} {v : ViewId} {r : Reconstruction (ℝ × ℝ) Colour}
    (h : s.recon.addView n = .ok (some v, r)) (p : Prior) :
    let s' : State := { s with recon := r, priors := s.priors.insert v p }
    Listed s' ∧ s'.recon.nextViewId = s.recon.nextViewId + 1 ∧ v = s.recon.nextViewId ∧
      (∀ w, nameOf s' w = if w = v then some n else nameOf s w) ∧
      (∀ w, s'.prior w = if w = v then p else s.prior w) := by
  obtain ⟨rfl, hn, ht, hf, _, V, hV, hv⟩ := addView_some hs.inv h
  refine ⟨⟨inv_addView hs.inv h, fun t => by simp only [ht]; exact hs.tracks t, hf.trans hs.first⟩, hn, rfl, ?_, ?_⟩
  · intro w
    simp only [nameOf, hv, AMap.get_insert]
    split <;> simp [hV]
  · intro w
    simp only [State.prior, AMap.get_insert]
    split <;> simp

/-- The state after a view outside the component was added and removed. -/
theorem dropped_step {s : State} (hs : Listed s) {n : String} {v : ViewId} {r : Reconstruction (ℝ × ℝ) Colour}
    (h : s.recon.addView n = .ok (some v, r)) :
    ∃ b r', r.removeView v = .ok (b, r') ∧
      let s' : State := { s with recon := r' }
      Listed s' ∧ s'.recon.nextViewId = s.recon.nextViewId + 1 ∧ v = s.recon.nextViewId ∧
      (∀ w, nameOf s' w = nameOf s w) := by
  obtain ⟨rfl, hn, ht, hf, _, V, hV, hv⟩ := addView_some hs.inv h
  have hi := inv_addView hs.inv h
  have hfresh : s.recon.views.get s.recon.nextViewId = none :=
    AMap.get_eq_none_iff.2 fun hk => Nat.lt_irrefl _ (hs.inv.freshV _ hk)
  obtain ⟨X, g, l, _, _, _, heq, _, _, hX⟩ := removeView_spec hi (v := s.recon.nextViewId) (V := V)
    (by rw [hv]; exact AMap.get_insert_self _ _ _)
  refine ⟨_, _, heq, ⟨inv_removeView hi heq, ?_, hf.trans hs.first⟩, hn, rfl, ?_⟩
  · intro t
    simp only [hX t, ht, hs.tracks t, Option.bind_none]
  · intro w
    simp only [nameOf, AMap.get_erase, hv, AMap.get_insert]
    by_cases hw : w = s.recon.nextViewId
    · subst hw
      simp [hfresh]
    · simp [hw]

theorem readLists_cons {base : String → Option String} {valid : List Int} {e : Entry} {es : List Entry} {s : State}
    {n : String} (hn : base e.path = some n) {v : ViewId} {r : Reconstruction (ℝ × ℝ) Colour}
    (h : s.recon.addView n = .ok (some v, r)) :
    readLists base valid (e :: es) s =
      if (v : Int) ∈ valid then readLists base valid es { s with recon := r, priors := s.priors.insert v (listPrior e) }
      else (r.removeView v).bind fun removed => readLists base valid es { s with recon := removed.2 } := by
  rw [readLists, hn]
  simp only [h, Outcome.ok_bind]
  rfl

/-- Reading the list adds the images of the component under their positions in the list. -/
theorem readLists_spec (base : String → Option String) (valid : List Int) (es : List Entry) :
    ∀ (s s' : State), Listed s → readLists base valid es s = .ok s' →
      Listed s' ∧ s'.recon.nextViewId = s.recon.nextViewId + es.length ∧ s'.graph = s.graph ∧
      (∀ w, nameOf s' w = if w < s.recon.nextViewId then nameOf s w
        else if (w : Int) ∈ valid then (es[w - s.recon.nextViewId]?).bind (fun e => base e.path) else none) ∧
      (∀ w, w < s.recon.nextViewId → s'.prior w = s.prior w) ∧
      (∀ w e, s.recon.nextViewId ≤ w → (w : Int) ∈ valid → es[w - s.recon.nextViewId]? = some e →
        s'.prior w = listPrior e) := by
  induction es with
  | nil =>
    intro s s' hs h
    rw [readLists] at h
    cases h
    refine ⟨hs, rfl, rfl, ?_, fun _ _ => rfl, by simp⟩
    intro w
    split
    · rfl
    · rename_i hw
      have : s.recon.views.get w = none := AMap.get_eq_none_iff.2 fun hk => hw (hs.inv.freshV _ hk)
      simp [nameOf, this]
  | cons e es ih =>
    intro s s' hs h
    cases hb : base e.path with
    | none => simp [readLists, hb] at h
    | some n =>
      cases ha : s.recon.addView n with
      | abort => simp [readLists, hb, ha] at h
      | ub => simp [readLists, hb, ha] at h
      | ok res =>
        obtain ⟨o, r⟩ := res
        cases o with
        | none => simp [readLists, hb, ha] at h
        | some v =>
          rw [readLists_cons hb ha] at h
          have hidx : ∀ w, s.recon.nextViewId < w →
              (e :: es)[w - s.recon.nextViewId]? = es[w - (s.recon.nextViewId + 1)]? := by
            intro w hw
            obtain ⟨k, rfl⟩ : ∃ k, w = s.recon.nextViewId + 1 + k := ⟨w - (s.recon.nextViewId + 1), by omega⟩
            rw [show s.recon.nextViewId + 1 + k - s.recon.nextViewId = k + 1 by omega, List.getElem?_cons_succ]
            congr 1; omega
          by_cases hv : (v : Int) ∈ valid
          · rw [if_pos hv] at h
            obtain ⟨hl, hn, rfl, hname, hprior⟩ := kept_step hs ha (listPrior e)
            obtain ⟨h1, h2, h3, h4, h5, h6⟩ := ih _ _ hl h
            refine ⟨h1, by rw [h2, hn, List.length_cons]; omega, h3, ?_, ?_, ?_⟩
            · intro w
              rw [h4 w, hn, hname w]
              rcases Nat.lt_trichotomy w s.recon.nextViewId with hw | rfl | hw
              · rw [if_pos (Nat.lt_succ_of_lt hw), if_pos hw, if_neg (Nat.ne_of_lt hw)]
              · rw [if_pos (Nat.lt_succ_self _), if_pos rfl, if_neg (Nat.lt_irrefl _), if_pos hv]
                simp [hb]
              · rw [if_neg (Nat.not_lt.2 hw), if_neg (Nat.not_lt.2 (Nat.le_of_lt hw)), hidx w hw]
            · intro w hw
              rw [h5 w (by omega), hprior w, if_neg (Nat.ne_of_lt hw)]
            · intro w e' hw hwv he'
              rcases Nat.eq_or_lt_of_le hw with rfl | hw'
              · rw [h5 _ (by omega), hprior, if_pos rfl]
                simp only [Nat.sub_self, List.getElem?_cons_zero, Option.some.injEq] at he'
                rw [he']
              · rw [hidx w hw'] at he'
                exact h6 w e' (by omega) hwv (by rw [hn]; exact he')
          · rw [if_neg hv] at h
            obtain ⟨b, r', hrm, hl, hn, rfl, hname⟩ := dropped_step hs ha
            rw [hrm] at h
            obtain ⟨h1, h2, h3, h4, h5, h6⟩ := ih _ _ hl h
            refine ⟨h1, by rw [h2, hn, List.length_cons]; omega, h3, ?_, ?_, ?_⟩
            · intro w
              rw [h4 w, hn, hname w]
              rcases Nat.lt_trichotomy w s.recon.nextViewId with hw | rfl | hw
              · rw [if_pos (Nat.lt_succ_of_lt hw), if_pos hw]
              · rw [if_pos (Nat.lt_succ_self _), if_neg (Nat.lt_irrefl _), if_neg hv]
                have : s.recon.views.get s.recon.nextViewId = none :=
                  AMap.get_eq_none_iff.2 fun hk => Nat.lt_irrefl _ (hs.inv.freshV _ hk)
                simp [nameOf, this]
              · rw [if_neg (Nat.not_lt.2 hw), if_neg (Nat.not_lt.2 (Nat.le_of_lt hw)), hidx w hw]
            · intro w hw
              rw [h5 w (by omega)]; rfl
            · intro w e' hw hwv he'
              rcases Nat.eq_or_lt_of_le hw with rfl | hw'
              · exact absurd hwv hv
              · rw [hidx w hw'] at he'
                exact h6 w e' (by omega) hwv (by rw [hn]; exact he')

/-- When the list can be read. -/
theorem readLists_ok (base : String → Option String) (valid : List Int) (es : List Entry) :
    ∀ (s : State), Listed s → (∀ e ∈ es, ∃ n, base e.path = some n ∧ n ≠ "") →
      (∀ w n, nameOf s w = some n → ∀ e ∈ es, base e.path ≠ some n) →
      (∀ i j a b, i < j → ((s.recon.nextViewId + i : Nat) : Int) ∈ valid → es[i]? = some a → es[j]? = some b →
        base a.path ≠ base b.path) →
      ∃ s', readLists base valid es s = .ok s' := by
  induction es with
  | nil => intro s _ _ _ _; exact ⟨s, by rw [readLists]⟩
  | cons e es ih =>
    intro s hs hnamed hold hdist
    obtain ⟨n, hb, hn0⟩ := hnamed e (by simp)
    have hfree : n ∉ s.recon.names.keys := by
      intro hk
      obtain ⟨w, hw⟩ := AMap.mem_keys_iff.1 hk
      obtain ⟨V, hV, hVn⟩ := (hs.inv.name n w).1 hw
      exact hold w n (by simp [nameOf, hV, hVn]) e (by simp) hb
    obtain ⟨v, r, ha⟩ := addView_ok hs.inv hfree hn0
    rw [readLists_cons hb ha]
    have hrest : ∀ i j a b, i < j → ((s.recon.nextViewId + 1 + i : Nat) : Int) ∈ valid → es[i]? = some a →
        es[j]? = some b → base a.path ≠ base b.path := by
      intro i j a b hij hv hia hjb
      exact hdist (i + 1) (j + 1) a b (by omega) (by rwa [show s.recon.nextViewId + (i + 1) = s.recon.nextViewId + 1 + i by omega])
        (by simpa using hia) (by simpa using hjb)
    by_cases hv : (v : Int) ∈ valid
    · rw [if_pos hv]
      obtain ⟨hl, hn, rfl, hname, _⟩ := kept_step hs ha (listPrior e)
      apply ih _ hl (fun e' he' => hnamed e' (by simp [he']))
      · intro w m hm e' he'
        rw [hname w] at hm
        by_cases hw : w = s.recon.nextViewId
        · rw [if_pos hw] at hm
          cases hm
          obtain ⟨j, hj⟩ := List.mem_iff_getElem?.1 he'
          have := hdist 0 (j + 1) e e' (by omega) (by simpa using hv) rfl (by simpa using hj)
          rw [hb] at this
          exact this.symm
        · rw [if_neg hw] at hm
          exact hold w m hm e' (by simp [he'])
      · rw [hn]; exact hrest
    · rw [if_neg hv]
      obtain ⟨b, r', hrm, hl, hn, rfl, hname⟩ := dropped_step hs ha
      rw [hrm]
      apply ih _ hl (fun e' he' => hnamed e' (by simp [he']))
      · intro w m hm e' he'
        rw [hname w] at hm
        exact hold w m hm e' (by simp [he'])
      · rw [hn]; exact hrest

/-! ## The keys -/

theorem header_header (b b' : Block) (p : Prior) : header b (header b' p) = header b p := rfl

theorem keysOf_cons (b : Block) (bs : List Block) (v : Nat) :
    keysOf (b :: bs) v = if b.index = v then b.keys ++ keysOf bs v else keysOf bs v := by
  unfold keysOf
  by_cases h : b.index = v
  · simp [h]
  · simp [h]

/-- The prior after the keys have been read. -/
noncomputable def coordsPrior (bs : List Block) (v : Nat) (p : Prior) : Prior :=
  match (bs.filter fun b => b.index = v).getLast? with
  | some b => header b p
  | none => p

theorem coordsPrior_cons (b : Block) (bs : List Block) (v : Nat) (p : Prior) :
    coordsPrior (b :: bs) v p = coordsPrior bs v (if b.index = v then header b p else p) := by
  unfold coordsPrior
  by_cases h : b.index = v
  · rw [List.filter_cons_of_pos (by simpa using h), if_pos h]
    cases hl : (bs.filter fun b => decide (b.index = v)) with
    | nil => rfl
    | cons c cs =>
      simp only [List.getLast?_cons_cons]
      have : ∃ d, (c :: cs).getLast? = some d := ⟨_, List.getLast?_eq_some_getLast (by simp)⟩
      obtain ⟨d, hd⟩ := this
      rw [hd]
      exact (header_header d b p).symm
  · rw [List.filter_cons_of_neg (by simpa using h), if_neg h]

/-- What reading the keys does. -/
theorem readCoords_spec (bs : List Block) : ∀ (s : State) (keys : AMap ViewId (List Key)),
    let res := readCoords bs s keys
    res.1.recon = s.recon ∧ res.1.graph = s.graph ∧
    (∀ v, v ∈ s.recon.views.keys → res.1.prior v = coordsPrior bs v (s.prior v)) ∧
    (∀ v, res.2.get v = if v ∈ s.recon.views.keys ∧ ∃ b ∈ bs, b.index = v then
      some ((keys.get v).getD [] ++ keysOf bs v) else keys.get v) := by
  induction bs with
  | nil => intro s keys; exact ⟨rfl, rfl, fun v _ => rfl, by simp [readCoords]⟩
  | cons b bs ih =>
    intro s keys
    rw [readCoords]
    by_cases hb : b.index ∈ s.recon.views.keys
    · rw [if_pos (AMap.contains_iff.2 hb)]
      obtain ⟨h1, h2, h3, h4⟩ := ih { s with priors := s.priors.insert b.index (header b (s.prior b.index)) }
        (keys.insert b.index ((keys.get b.index).getD [] ++ b.keys))
      refine ⟨h1, h2, ?_, ?_⟩
      · intro v hv
        rw [h3 v hv, coordsPrior_cons]
        congr 1
        simp only [State.prior, AMap.get_insert]
        by_cases hbv : b.index = v
        · subst hbv; simp
        · rw [if_neg (fun h => hbv h.symm), if_neg hbv]
      · intro v
        rw [h4 v]
        by_cases hbv : b.index = v
        · subst hbv
          have hx : b.index ∈ s.recon.views.keys ∧ ∃ c ∈ b :: bs, c.index = b.index := ⟨hb, b, by simp, rfl⟩
          rw [if_pos hx, keysOf_cons, if_pos rfl, AMap.get_insert_self]
          by_cases hex : ∃ c ∈ bs, c.index = b.index
          · rw [if_pos ⟨hb, hex⟩]
            simp
          · rw [if_neg (fun h => hex h.2)]
            have : keysOf bs b.index = [] := by
              unfold keysOf
              rw [List.filter_eq_nil_iff.2]
              · rfl
              · intro c hc hd
                exact hex ⟨c, hc, by simpa using hd⟩
            simp [this]
        · rw [AMap.get_insert_ne _ _ (fun h => hbv h.symm), keysOf_cons, if_neg hbv]
          simp [hbv]
    · rw [if_neg (fun h => hb (AMap.contains_iff.1 h))]
      obtain ⟨h1, h2, h3, h4⟩ := ih s keys
      refine ⟨h1, h2, ?_, ?_⟩
      · intro v hv
        rw [h3 v hv, coordsPrior_cons, if_neg]
        rintro rfl
        exact hb hv
      · intro v
        rw [h4 v]
        by_cases hbv : b.index = v
        · subst hbv
          rw [if_neg (fun h => hb h.1), if_neg (fun h => hb h.1)]
        · rw [keysOf_cons, if_neg hbv]
          simp [hbv]

end OneDSfM
end Theia
