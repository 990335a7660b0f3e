import Verif.Proof.BundlerLoad
import Verif.Props.EstimatedPart
import Verif.Model.CameraModels
import Mathlib.Tactic.Ring
import Mathlib.Tactic.FieldSimp
import Mathlib.Tactic.LinearCombination

/-!
# C61: Bundler files
-/

namespace Theia

open Spec Reconstruction Bundler

variable {K : Type} [Field K] [LinearOrder K] [FloorRing K] [IsStrictOrderedRing K]

theorem Bundler.isTrunc_trunc (x : K) : IsTrunc x (trunc x) := by
  unfold trunc IsTrunc
  split
  · rename_i h
    have h1 : (0 : K) ≤ (⌊x⌋ : K) := by exact_mod_cast Int.floor_nonneg.2 h
    rw [abs_of_nonneg h, abs_of_nonneg h1]
    exact ⟨Int.floor_le x, Int.lt_floor_add_one x, mul_nonneg h1 h⟩
  · rename_i h
    push Not at h
    have h1 : (⌈x⌉ : K) ≤ 0 := by exact_mod_cast Int.ceil_le.2 (by simpa using h.le)
    rw [abs_of_neg h, abs_of_nonpos h1]
    refine ⟨neg_le_neg (Int.le_ceil x), ?_, mul_nonneg_of_nonpos_of_nonpos h1 h.le⟩
    have := Int.ceil_lt_add_one x
    linarith

theorem Bundler.trunc_neg (x : K) : trunc (-x) = -trunc x := by
  unfold trunc
  rcases lt_trichotomy x 0 with h | h | h
  · rw [if_pos (by linarith), if_neg (not_le.2 h), Int.floor_neg]
  · subst h; simp
  · rw [if_neg (by linarith), if_pos h.le, Int.ceil_neg]

omit [IsStrictOrderedRing K] in
theorem Bundler.trunc_byte {c : K} (h : 0 ≤ c ∧ c < 256) : 0 ≤ trunc c ∧ trunc c < 256 := by
  unfold trunc
  rw [if_pos h.1]
  exact ⟨Int.floor_nonneg.2 h.1, Int.floor_lt.2 (by exact_mod_cast h.2)⟩

omit [FloorRing K] in
theorem Bundler.dot_self_eq_zero {p : V3 K} : p.dot p = 0 ↔ p.x = 0 ∧ p.y = 0 ∧ p.z = 0 := by
  unfold V3.dot
  constructor
  · intro h
    have h1 := mul_self_nonneg p.x
    have h2 := mul_self_nonneg p.y
    have h3 := mul_self_nonneg p.z
    exact ⟨mul_self_eq_zero.1 (by linarith), mul_self_eq_zero.1 (by linarith), mul_self_eq_zero.1 (by linarith)⟩
  · rintro ⟨h1, h2, h3⟩
    simp [h1, h2, h3]

/-- C61. Loading well-formed files into a new reconstruction never aborts, and the scene is the one in the files: the cameras with a
positive focal length, the points not at the origin seen by at least two of them. -/
theorem C61_load (base : String → String) (default : Cam K) (lists : List (Entry K)) (cams : List (BCam K))
    (points : List (BPoint K)) (h : WellFormed base lists cams points) :
    ∃ s, build base default lists cams points ⟨Reconstruction.empty, .empty, .empty⟩ = .ok s ∧ s.recon.Reachable ∧
      IsLoaded base lists cams points s := by
  have hempty : Fresh (Reconstruction.empty : Reconstruction (K × K) (Point K)) [] :=
    ⟨⟨[], [], rfl⟩, rfl, rfl, rfl, fun _ => rfl, fun i n hn => by simp at hn⟩
  obtain ⟨s1, he1, hf1, hc1, -, hp1⟩ := addViews_spec base lists ⟨Reconstruction.empty, .empty, .empty⟩ [] hempty h.nonempty
    (by simpa using h.names) (fun _ _ => rfl)
  simp only [List.nil_append, List.length_nil, Nat.zero_add] at hf1 hp1
  have hlen : (lists.map fun e => base e.name).length = cams.length := by rw [List.length_map, h.count]
  have hv1 : ∀ j, j < cams.length → ∃ V, s1.recon.view j = some V ∧ V.name = base ((lists[j]?.map (·.name)).getD "") ∧
      V.features = .empty := by
    intro j hj
    rw [h.count] at hj
    obtain ⟨V, hV, hn, hfe⟩ := hf1.view j (base lists[j].name) (by simp [hj])
    exact ⟨V, hV, by simpa [hj] using hn, hfe⟩
  have hv1none : ∀ j, cams.length ≤ j → s1.recon.view j = none := by
    intro j hj
    apply AMap.get_eq_none_iff.2
    have : s1.recon.views.keys = List.range (lists.map fun e => base e.name).length := hf1.keys
    rw [this, hlen, List.mem_range]
    omega
  obtain ⟨rm, s2, he2, hr2, hp2, hview2, ht2, hnt2, hc2, hnd2, hrm⟩ := addCameras_spec default cams 0 s1 hf1.reach (by
    intro j _ hj
    obtain ⟨V, hV, -⟩ := hv1 j (by omega)
    exact ⟨V, hV⟩)
  simp only [Nat.zero_le, true_and, Nat.zero_add, Nat.sub_zero] at hview2 hc2 hrm
  have hv2 : ∀ j, j < cams.length → ∃ V, s2.recon.view j = some V ∧ V.name = base ((lists[j]?.map (·.name)).getD "") ∧
      V.estimated = true ∧ V.features = .empty := by
    intro j hj
    obtain ⟨V, hV, hn, hfe⟩ := hv1 j hj
    have h2 := hview2 j
    rw [hV, Option.map_some] at h2
    refine ⟨_, h2, hn, ?_, hfe⟩
    simp [hj]
  have hv2none : ∀ j, cams.length ≤ j → s2.recon.view j = none := by
    intro j hj
    rw [hview2, hv1none j hj]
    rfl
  -- which cameras are used
  have hused : ∀ i : Nat, CameraUsed cams i ↔ i < cams.length ∧ i ∉ rm := by
    intro i
    rw [hrm]
    unfold CameraUsed
    constructor
    · rintro ⟨b, hb, hf⟩
      refine ⟨(List.getElem?_eq_some_iff.1 hb).1, ?_⟩
      rintro ⟨b', hb', hf'⟩
      rw [hb] at hb'
      cases hb'
      exact absurd hf (not_lt.2 hf')
    · rintro ⟨hi, hn⟩
      refine ⟨cams[i], List.getElem?_eq_getElem hi, ?_⟩
      by_contra hc
      exact hn ⟨cams[i], List.getElem?_eq_getElem hi, not_lt.1 hc⟩
  have hid : ∀ n : Int, 0 ≤ n → ((viewIdOfInt n : Nat) : Int) = n := by
    intro n hn
    unfold viewIdOfInt
    rw [if_neg (by omega)]
    omega
  have hobs : ∀ p ∈ points, ∀ (i : Nat) (f : K × K), (i, f) ∈ (pointObs rm p.views : List (ViewId × (K × K))) ↔
      ∃ x y, ObservedAt cams p i x y ∧ f = ((x : K), -(y : K)) := by
    intro p hp i f
    unfold pointObs
    simp only [List.mem_map, List.mem_filter, decide_eq_true_eq, Prod.mk.injEq]
    constructor
    · rintro ⟨e, ⟨he, hn⟩, hei, hf⟩
      obtain ⟨h0, h1⟩ := h.indices p hp e he
      have hcam : e.cam = (i : Int) := by rw [← hid e.cam h0]; exact_mod_cast hei
      refine ⟨e.x, e.y, ⟨(hused i).2 ⟨by omega, hei ▸ hn⟩, e, he, hcam, rfl, rfl⟩, hf.symm⟩
    · rintro ⟨x, y, ⟨hu, e, he, hcam, hx, hy⟩, hf⟩
      have hei : viewIdOfInt e.cam = i := by
        have := hid e.cam (h.indices p hp e he).1
        rw [hcam] at this ⊢
        exact_mod_cast this
      refine ⟨e, ⟨he, ?_⟩, hei, ?_⟩
      · rw [hei]; exact ((hused i).1 hu).2
      · rw [hf, hx, hy]
  have hnodup : ∀ p ∈ points, ((pointObs rm p.views : List (ViewId × (K × K))).map (·.1)).Nodup := by
    intro p hp
    unfold pointObs
    rw [List.map_map]
    have h1 : (p.views.map fun e => viewIdOfInt e.cam).Nodup := by
      have hd := h.distinct p hp
      have : p.views.map (·.cam) = (p.views.map fun e => viewIdOfInt e.cam).map fun n => ((n : Nat) : Int) := by
        rw [List.map_map]
        exact List.map_congr_left fun e he => (hid e.cam (h.indices p hp e he).1).symm
      rw [this] at hd
      exact hd.of_map _
    exact h1.sublist (List.filter_sublist.map _)
  have hgood : ∀ p ∈ points, (goodPoint rm p = true ↔ PointUsed cams p) := by
    intro p hp
    unfold goodPoint PointUsed
    rw [← dot_self_eq_zero]
    simp only [Bool.not_eq_true', decide_eq_false_iff_not, not_or, not_lt]
    rw [and_comm]
    refine and_congr_right fun _ => ?_
    have hmem := hobs p hp
    have hnd := hnodup p hp
    revert hmem hnd
    generalize (pointObs rm p.views : List (ViewId × (K × K))) = l
    intro hmem hnd
    constructor
    · intro hl
      match l, hl with
      | a :: b :: l, _ =>
        obtain ⟨xa, ya, ha, -⟩ := (hmem a.1 a.2).1 (by simp)
        obtain ⟨xb, yb, hb, -⟩ := (hmem b.1 b.2).1 (by simp)
        refine ⟨a.1, b.1, ?_, ⟨xa, ya, ha⟩, xb, yb, hb⟩
        simp only [List.map_cons, List.nodup_cons, List.mem_cons, not_or] at hnd
        exact hnd.1.1
    · rintro ⟨i, j, hij, ⟨xa, ya, ha⟩, xb, yb, hb⟩
      have ha' := (hmem i _).2 ⟨xa, ya, ha, rfl⟩
      have hb' := (hmem j _).2 ⟨xb, yb, hb, rfl⟩
      match l, ha', hb' with
      | [c], ha', hb' =>
        simp only [List.mem_singleton] at ha' hb'
        rw [← hb'] at ha'
        exact absurd (congrArg Prod.fst ha') hij
      | c :: d :: l, _, _ => simp
  have husedPoints : usedPoints cams points = points.filter (goodPoint rm) := by
    unfold usedPoints
    apply List.filter_congr
    intro p hp
    by_cases hg : PointUsed cams p
    · simp [hg, (hgood p hp).2 hg]
    · have : goodPoint rm p = false := by
        rw [← Bool.not_eq_true]
        exact fun hc => hg ((hgood p hp).1 hc)
      simp [hg, this]
  have hT0 : HasTracks s2.recon s2.recon [] := by
    refine ⟨hr2, by rw [hnt2, hf1.nextT]; rfl, ?_, fun _ hv => hv, ?_⟩
    · intro t; rw [ht2, hf1.tracks]; simp
    · intro v V0 hV0
      refine ⟨V0, hV0, rfl, rfl, fun t f => ?_⟩
      have hlt : v < cams.length := by
        by_contra hc
        rw [hv2none v (not_lt.1 hc)] at hV0
        cases hV0
      obtain ⟨V, hV, -, -, hfe⟩ := hv2 v hlt
      rw [hV] at hV0
      cases hV0
      simp [View.getFeature, hfe, AMap.get, AMap.empty]
  obtain ⟨s3, he3, hc3, hp3, hT3⟩ := addTracks_spec rm s2.recon points s2 [] hT0 (by
    intro p hp
    refine ⟨hnodup p hp, ?_, fun c hc => trunc_byte (h.colors p hp c hc)⟩
    intro o ho
    obtain ⟨x, y, hu, -⟩ := (hobs p hp o.1 o.2).1 ho
    obtain ⟨V, hV, -⟩ := hv2 o.1 ((hused _).1 hu.1).1
    exact ⟨V, hV⟩)
  rw [List.nil_append, ← husedPoints] at hT3
  have hup : ∀ p ∈ usedPoints cams points, p ∈ points ∧ goodPoint rm p = true := by
    intro p hp
    rw [husedPoints, List.mem_filter] at hp
    exact hp
  have hobsOf : ∀ (t : Nat) a, ((usedPoints cams points).map (newTrack rm))[t]? = some a →
      ∃ p, (usedPoints cams points)[t]? = some p ∧ a = newTrack rm p ∧ p ∈ points ∧ goodPoint rm p = true := by
    intro t a ha
    rw [List.getElem?_map] at ha
    cases hp : (usedPoints cams points)[t]? with
    | none => rw [hp] at ha; cases ha
    | some p =>
      rw [hp] at ha
      obtain ⟨h1, h2⟩ := hup p (List.mem_of_getElem? hp)
      exact ⟨p, rfl, (Option.some.inj ha).symm, h1, h2⟩
  obtain ⟨s4, he4, hr4, hc4, hp4, hview4, ht4⟩ := removeViews_spec rm s3 hT3.reach hnd2 (by
      intro v hv
      obtain ⟨b, hb, -⟩ := (hrm v).1 hv
      obtain ⟨V, hV, -⟩ := hv2 v (List.getElem?_eq_some_iff.1 hb).1
      obtain ⟨V', hV', -⟩ := hT3.view v V hV
      exact ⟨V', hV'⟩) (by
    intro t T hT
    rw [hT3.track] at hT
    cases ha : ((usedPoints cams points).map (newTrack rm))[t]? with
    | none => rw [ha] at hT; cases hT
    | some a =>
      rw [ha] at hT
      obtain ⟨p, -, rfl, hp, hg⟩ := hobsOf t a ha
      cases hT
      constructor
      · unfold goodPoint at hg
        simp only [Bool.not_eq_true', decide_eq_false_iff_not, not_or, not_lt] at hg
        simp only [List.length_map, newTrack]
        omega
      · intro v hv
        simp only [newTrack, List.mem_map] at hv
        obtain ⟨o, ho, rfl⟩ := hv
        obtain ⟨x, y, hu, -⟩ := (hobs p hp o.1 o.2).1 ho
        exact ((hused _).1 hu.1).2)
  have hv4 : ∀ i V, s4.recon.view i = some V → i < cams.length ∧ i ∉ rm ∧
      V.name = base ((lists[i]?.map (·.name)).getD "") ∧ V.estimated = true ∧
      ∀ (t : Nat) f, V.getFeature t = some f ↔ ∃ a, ((usedPoints cams points).map (newTrack rm))[t]? = some a ∧ (i, f) ∈ a.1 := by
    intro i V hV
    rw [hview4] at hV
    split at hV
    · cases hV
    · rename_i hn
      have hlt : i < cams.length := by
        by_contra hc
        rw [hT3.viewNone i (hv2none i (not_lt.1 hc))] at hV
        cases hV
      obtain ⟨V2, hV2, hn2, he2, -⟩ := hv2 i hlt
      obtain ⟨V3, hV3, b1, b2, b3⟩ := hT3.view i V2 hV2
      rw [hV3] at hV
      cases hV
      exact ⟨hlt, hn, b1.trans hn2, b2.trans he2, b3⟩
  refine ⟨s4, ?_, hr4, ?_, ?_, ?_, ?_, ?_, ?_, ?_⟩
  · unfold build
    rw [if_neg h.some, he1]
    simp only [Outcome.ok_bind]
    have : cams.length = s1.recon.numViews := by
      unfold numViews
      rw [AMap.size_eq_length_keys, show s1.recon.views.keys = _ from hf1.keys, List.length_range, hlen]
    rw [if_neg (not_not.2 this), he2]
    simp only [Outcome.ok_bind]
    rw [he3]
    exact he4
  · intro i
    rw [hused]
    constructor
    · rintro ⟨V, hV⟩
      obtain ⟨h1, h2, -⟩ := hv4 i V hV
      exact ⟨h1, h2⟩
    · rintro ⟨h1, h2⟩
      obtain ⟨V, hV, -⟩ := hv2 i h1
      obtain ⟨V', hV', -⟩ := hT3.view i V hV
      exact ⟨V', by rw [hview4, if_neg h2, hV']⟩
  · intro i e V he hV
    obtain ⟨-, -, h3, h4, -⟩ := hv4 i V hV
    rw [he] at h3
    exact ⟨h3, h4⟩
  · intro i e V he hV f
    rw [hp4, hp3, hp2, hp1]
    constructor
    · rintro ⟨e', he', h1⟩
      rw [he] at he'
      cases he'
      exact h1
    · intro h1; exact ⟨e, he, h1⟩
  · intro i b V hb hV
    obtain ⟨h1, h2, -⟩ := hv4 i V hV
    have hf : ¬ b.focal ≤ 0 := fun hc => h2 ((hrm i).2 ⟨b, hb, hc⟩)
    refine ⟨loadCamera default b, ?_, rfl, if_neg hf, rfl, rfl, rfl, rfl, ?_⟩
    · rw [hc4, hc3, hc2, if_pos h1, hb]; rfl
    · intro hrot
      have hr' : (flipM b.rot).IsRotation := by
        have hD : M3.IsRotation (⟨⟨1, 0, 0⟩, ⟨0, -1, 0⟩, ⟨0, 0, -1⟩⟩ : M3 K) := by
          refine ⟨?_, ?_, ?_⟩ <;> simp [M3.mul, M3.transpose, M3.one, M3.det, V3.dot, V3.cross, M3.mulVec]
        have hm : flipM b.rot = M3.mul ⟨⟨1, 0, 0⟩, ⟨0, -1, 0⟩, ⟨0, 0, -1⟩⟩ b.rot := by
          simp [flipM, M3.mul, M3.transpose, M3.mulVec, V3.dot, V3.neg]
        rw [hm]
        exact hD.mul hrot
      refine ⟨hr', fun X => ?_⟩
      show (flipM b.rot).mulVec (X.sub ((flipM b.rot).transpose.mulVec (Bundler.flip b.trans)).neg) = _
      have : X.sub ((flipM b.rot).transpose.mulVec (Bundler.flip b.trans)).neg =
          X.add ((flipM b.rot).transpose.mulVec (Bundler.flip b.trans)) := by
        simp [V3.sub, V3.neg, V3.add]
      rw [this, M3.mulVec_add, hr'.mulVec_transpose]
      simp only [flipM, Bundler.flip, M3.mulVec, V3.dot, V3.neg, V3.add, V3.mk.injEq]
      refine ⟨trivial, ?_, ?_⟩ <;> ring
  · intro t
    rw [ht4, hT3.track]
    rw [List.getElem?_map]
    constructor
    · rintro ⟨T, hT⟩
      by_contra hc
      rw [List.getElem?_eq_none (not_lt.1 hc)] at hT
      cases hT
    · intro ht
      rw [List.getElem?_eq_getElem ht]
      exact ⟨_, rfl⟩
  · intro t p T hp hT
    rw [ht4, hT3.track, List.getElem?_map, hp] at hT
    cases hT
    obtain ⟨hpp, -⟩ := hup p (List.mem_of_getElem? hp)
    have hcol : ∀ c ∈ [p.color.x, p.color.y, p.color.z], IsTrunc c (((trunc c).toNat : Nat) : Int) := by
      intro c hc
      have := trunc_byte (h.colors p hpp c hc)
      rw [Int.toNat_of_nonneg this.1]
      exact isTrunc_trunc c
    refine ⟨rfl, rfl, rfl, hcol _ (by simp), hcol _ (by simp), hcol _ (by simp), hnodup p hpp, fun i => ?_⟩
    show i ∈ (pointObs rm p.views : List (ViewId × (K × K))).map (·.1) ↔ _
    rw [List.mem_map]
    constructor
    · rintro ⟨o, ho, rfl⟩
      obtain ⟨x, y, hu, -⟩ := (hobs p hpp o.1 o.2).1 ho
      exact ⟨x, y, hu⟩
    · rintro ⟨x, y, hu⟩
      exact ⟨(i, _), (hobs p hpp i _).2 ⟨x, y, hu, rfl⟩, rfl⟩
  · intro i V t f hV
    obtain ⟨-, -, -, -, h5⟩ := hv4 i V hV
    rw [h5]
    constructor
    · rintro ⟨a, ha, hm⟩
      obtain ⟨p, hp, rfl, hpp, -⟩ := hobsOf t a ha
      exact ⟨p, hp, (hobs p hpp i f).1 hm⟩
    · rintro ⟨p, hp, hm⟩
      obtain ⟨hpp, -⟩ := hup p (List.mem_of_getElem? hp)
      exact ⟨newTrack rm p, by rw [List.getElem?_map, hp]; rfl, (hobs p hpp i f).2 hm⟩


/-- C61. Writing the estimated part of a reconstruction of pinhole cameras and reading the files into a new reconstruction gives the
same cameras, points, colours and observations, whatever the orders in which the containers are iterated. The features are
rounded to integers relative to the principal point, and points at the origin are missing. -/
theorem C61_round_trip_partial (base : String → String) (default : Cam K) (oc o : Orders) (hcV : ∀ l, (oc.views l).Perm l)
    (hcT : ∀ l, (oc.tracks l).Perm l) (hV : ∀ l, (o.views l).Perm l) (hT : ∀ l, (o.tracks l).Perm l)
    (hO : ∀ t l, (o.obs t l).Perm l) (s : Scene K) (hr : s.recon.Reachable)
    (hcam : ∀ v, ViewEstimated s.recon v → (s.cam v).pinhole = true ∧ 0 < (s.cam v).focal ∧ (s.cam v).rot.IsRotation)
    (hname : ∀ v w V W, s.recon.view v = some V → s.recon.view w = some W → V.estimated = true → W.estimated = true →
      base V.name = base W.name → v = w)
    (hne : ∀ v V, s.recon.view v = some V → V.estimated = true → base V.name ≠ "")
    (hpt : ∀ t T, s.recon.track t = some T → T.estimated = true → T.payload.w ≠ 0 ∧ T.payload.color.1 < 256 ∧
      T.payload.color.2.1 < 256 ∧ T.payload.color.2.2 < 256)
    (hsome : ∃ t, TrackKept s.recon t) :
    ∃ e files s', IsEstimatedPart s.recon e ∧ writeBundlerFiles s oc o = .ok files ∧
      readBundlerFiles base default files ⟨Reconstruction.empty, .empty, .empty⟩ = .ok (true, s') ∧ s'.recon.Reachable ∧
      ∃ num tnum, IsBundlerCopy base e s.cam s.prior s' num tnum := by
  obtain ⟨e, hcreate, hre, he⟩ := C60_estimated_part oc.views oc.tracks hcV hcT s.recon hr
  have hi := inv_of_reachable hre
  have hest : ∀ v V, e.view v = some V → ∃ V0, s.recon.view v = some V0 ∧ V0.estimated = true ∧ V.name = V0.name := by
    intro v V hv
    obtain ⟨V0, hV0, hest⟩ := he.views v V hv
    obtain ⟨V', hV', hn, -⟩ := he.view v V0 hV0 hest
    rw [hv] at hV'
    cases hV'
    exact ⟨V0, hV0, hest, hn⟩
  have hcame : ∀ v V, e.view v = some V → (s.cam v).pinhole = true ∧ 0 < (s.cam v).focal ∧ (s.cam v).rot.IsRotation := by
    intro v V hv
    obtain ⟨V0, h0, h1, -⟩ := hest v V hv
    exact hcam v ⟨V0, h0, h1⟩
  have htr : ∀ t T, e.track t = some T → T.payload.w ≠ 0 ∧ T.payload.color.1 < 256 ∧ T.payload.color.2.1 < 256 ∧
      T.payload.color.2.2 < 256 ∧ ∃ v w, v ≠ w ∧ v ∈ T.views ∧ w ∈ T.views := by
    intro t T ht
    have hk := he.tracks t T ht
    obtain ⟨T0, hT0, hest0, v, w, hvw, hv, hw, ev, ew⟩ := id hk
    obtain ⟨T', hT', -, hpay, -, hmem⟩ := he.track t T0 hT0 hk
    rw [ht] at hT'
    cases hT'
    obtain ⟨a, b, c, d⟩ := hpt t T0 hT0 hest0
    rw [← hpay] at a b c d
    exact ⟨a, b, c, d, v, w, hvw, (hmem v).2 ⟨hv, ev⟩, (hmem w).2 ⟨hw, ew⟩⟩
  have hviewT : ∀ t T v, e.track t = some T → v ∈ T.views → ∃ V f, e.view v = some V ∧ V.getFeature t = some f := by
    intro t T v ht hv
    obtain ⟨V, hV', hf⟩ := (hi.sym v t).2 ⟨T, ht, hv⟩
    obtain ⟨f, hf⟩ := AMap.mem_keys_iff.1 hf
    exact ⟨V, f, hV', hf⟩
  obtain ⟨t0, ht0⟩ := hsome
  obtain ⟨T00, hT00, -⟩ := id ht0
  obtain ⟨T0, hT0, -⟩ := he.track t0 T00 hT00 ht0
  obtain ⟨-, -, -, -, v0, -, -, hv0, -⟩ := htr t0 T0 hT0
  obtain ⟨V0, -, hV0, -⟩ := hviewT t0 T0 v0 hT0 hv0
  have hmemV : ∀ v, v ∈ o.views e.viewIds ↔ ∃ V, e.view v = some V := by
    intro v
    rw [(hV _).mem_iff]
    exact AMap.mem_keys_iff
  have hmemT : ∀ t, t ∈ o.tracks e.trackIds ↔ ∃ T, e.track t = some T := by
    intro t
    rw [(hT _).mem_iff]
    exact AMap.mem_keys_iff
  have hndV : (o.views e.viewIds).Nodup := (hV _).nodup_iff.2 hi.wfViews
  have hndT : (o.tracks e.trackIds).Nodup := (hT _).nodup_iff.2 hi.wfTracks
  obtain ⟨files, hwrite, hcomment, hlists, hparse⟩ := parse_write { s with recon := e } o hV hT hO hre
    (fun v V hv => (hcame v V hv).1) (fun t T ht => (htr t T ht).1)
    (by
      intro hc
      have : v0 ∈ e.viewIds := AMap.mem_keys_iff.2 ⟨V0, hV0⟩
      rw [show e.viewIds = [] from hc] at this
      cases this)
    (by
      intro hc
      have : t0 ∈ e.trackIds := AMap.mem_keys_iff.2 ⟨T0, hT0⟩
      rw [show e.trackIds = [] from hc] at this
      cases this)
  simp only at hlists hparse
  -- short names
  set ids := o.views e.viewIds with hids
  set pr := pointRecord { s with recon := e } o (fun v => ids.idxOf v) with hpr
  set cams := ids.map (fun v => camRecord (s.cam v)) with hcams
  have hlt : ∀ v V, e.view v = some V → ids.idxOf v < ids.length := fun v V hv => List.idxOf_lt_length_iff.2 ((hmemV v).2 ⟨V, hv⟩)
  have hinj : ∀ v w V W, e.view v = some V → e.view w = some W → ids.idxOf v = ids.idxOf w → v = w := by
    intro v w V W hv hw h
    exact (List.idxOf_inj ((hmemV v).2 ⟨V, hv⟩)).1 h
  have hused : ∀ i, CameraUsed cams i ↔ i < ids.length := by
    intro i
    unfold CameraUsed
    constructor
    · rintro ⟨b, hb, -⟩
      have := (List.getElem?_eq_some_iff.1 hb).1
      rwa [hcams, List.length_map] at this
    · intro hi'
      obtain ⟨V, hv⟩ := (hmemV ids[i]).1 (List.getElem_mem hi')
      exact ⟨camRecord (s.cam ids[i]), by rw [hcams, List.getElem?_map, List.getElem?_eq_getElem hi']; rfl, (hcame _ V hv).2.1⟩
  have hprT : ∀ t T, e.track t = some T → pr t = ⟨posOf T, ⟨(T.payload.color.1 : K), (T.payload.color.2.1 : K),
      (T.payload.color.2.2 : K)⟩, (o.obs t T.views).map fun v => ⟨(ids.idxOf v : Int), 0,
        trunc ((featOf e v t).1 - (s.cam v).px), trunc (-((featOf e v t).2 - (s.cam v).py))⟩⟩ := by
    intro t T ht
    simp only [hpr, pointRecord, ht]
  have hobsAt : ∀ t T, e.track t = some T → ∀ i x y, ObservedAt cams (pr t) i x y ↔ ∃ v ∈ T.views, ids.idxOf v = i ∧
      x = trunc ((featOf e v t).1 - (s.cam v).px) ∧ y = trunc (-((featOf e v t).2 - (s.cam v).py)) := by
    intro t T ht i x y
    unfold ObservedAt
    rw [hprT t T ht]
    constructor
    · rintro ⟨-, b, hb, h1, h2, h3⟩
      obtain ⟨v, hv, rfl⟩ := List.mem_map.1 hb
      rw [(hO t _).mem_iff] at hv
      exact ⟨v, hv, Int.ofNat.inj h1, h2.symm, h3.symm⟩
    · rintro ⟨v, hv, h1, h2, h3⟩
      obtain ⟨V, f, hV', -⟩ := hviewT t T v ht hv
      refine ⟨(hused i).2 (h1 ▸ hlt v V hV'), _, List.mem_map.2 ⟨v, (hO t _).mem_iff.2 hv, rfl⟩, ?_, h2.symm, h3.symm⟩
      exact congrArg Int.ofNat h1
  have hpos : ∀ t T, e.track t = some T → (((pr t).pos.x = 0 ∧ (pr t).pos.y = 0 ∧ (pr t).pos.z = 0) ↔ AtOrigin T) := by
    intro t T ht
    rw [hprT t T ht]
    have hw := (htr t T ht).1
    simp [posOf, AtOrigin, hw]
  have hpused : ∀ t T, e.track t = some T → (PointUsed cams (pr t) ↔ ¬ AtOrigin T) := by
    intro t T ht
    unfold PointUsed
    rw [hpos t T ht]
    refine ⟨fun h => h.1, fun h => ⟨h, ?_⟩⟩
    obtain ⟨-, -, -, -, v, w, hvw, hv, hw⟩ := htr t T ht
    obtain ⟨V, -, hv', -⟩ := hviewT t T v ht hv
    obtain ⟨W, -, hw', -⟩ := hviewT t T w ht hw
    refine ⟨ids.idxOf v, ids.idxOf w, fun hc => hvw (hinj v w V W hv' hw' hc), ?_, ?_⟩
    · exact ⟨_, _, (hobsAt t T ht _ _ _).2 ⟨v, hv, rfl, rfl, rfl⟩⟩
    · exact ⟨_, _, (hobsAt t T ht _ _ _).2 ⟨w, hw, rfl, rfl, rfl⟩⟩
  have hwf : WellFormed base files.lists cams ((o.tracks e.trackIds).map pr) := by
    refine ⟨?_, ?_, ?_, ?_, ?_, ?_, ?_⟩
    · rw [hlists, List.map_map]
      refine hndV.map_on ?_
      intro v hv w hw h
      obtain ⟨V, hv⟩ := (hmemV v).1 hv
      obtain ⟨W, hw⟩ := (hmemV w).1 hw
      simp only [Function.comp, nameOf, hv, hw] at h
      obtain ⟨V', hV', e1, n1⟩ := hest v V hv
      obtain ⟨W', hW', e2, n2⟩ := hest w W hw
      rw [n1, n2] at h
      exact hname v w V' W' hV' hW' e1 e2 h
    · intro x hx
      rw [hlists] at hx
      obtain ⟨v, hv, rfl⟩ := List.mem_map.1 hx
      obtain ⟨V, hv⟩ := (hmemV v).1 hv
      obtain ⟨V', hV', e1, n1⟩ := hest v V hv
      simp only [nameOf, hv, n1]
      exact hne v V' hV' e1
    · rw [hlists]
      intro hc
      rw [List.map_eq_nil_iff] at hc
      have := (hmemV v0).2 ⟨V0, hV0⟩
      rw [hc] at this
      cases this
    · rw [hlists, hcams]; simp
    · intro p hp x hx
      obtain ⟨t, ht, rfl⟩ := List.mem_map.1 hp
      obtain ⟨T, ht⟩ := (hmemT t).1 ht
      rw [hprT t T ht] at hx
      obtain ⟨v, hv, rfl⟩ := List.mem_map.1 hx
      rw [(hO t _).mem_iff] at hv
      obtain ⟨V, f, hV', -⟩ := hviewT t T v ht hv
      refine ⟨by simp, ?_⟩
      rw [hcams, List.length_map]
      exact Int.ofNat_lt.2 (hlt v V hV')
    · intro p hp
      obtain ⟨t, ht, rfl⟩ := List.mem_map.1 hp
      obtain ⟨T, ht⟩ := (hmemT t).1 ht
      rw [hprT t T ht, List.map_map]
      refine List.Nodup.map_on ?_ ((hO t _).nodup_iff.2 (hi.ndTrack t T ht))
      intro v hv w hw h
      rw [(hO t _).mem_iff] at hv hw
      obtain ⟨V, -, hv', -⟩ := hviewT t T v ht hv
      obtain ⟨W, -, hw', -⟩ := hviewT t T w ht hw
      simp only [Function.comp] at h
      exact hinj v w V W hv' hw' (by exact_mod_cast h)
    · intro p hp c hc
      obtain ⟨t, ht, rfl⟩ := List.mem_map.1 hp
      obtain ⟨T, ht⟩ := (hmemT t).1 ht
      obtain ⟨-, c1, c2, c3, -⟩ := htr t T ht
      rw [hprT t T ht] at hc
      simp only [List.mem_cons, List.not_mem_nil, or_false] at hc
      rcases hc with rfl | rfl | rfl
      · exact ⟨Nat.cast_nonneg _, by exact_mod_cast c1⟩
      · exact ⟨Nat.cast_nonneg _, by exact_mod_cast c2⟩
      · exact ⟨Nat.cast_nonneg _, by exact_mod_cast c3⟩
  obtain ⟨s', hbuild, hreach, hload⟩ := C61_load base default files.lists cams _ hwf
  refine ⟨e, files, s', he, ?_, ?_, hreach, fun v => ids.idxOf v, ?_⟩
  · unfold writeBundlerFiles
    rw [hcreate]
    exact hwrite
  · unfold readBundlerFiles
    rw [if_neg (by simp [numViews, numTracks, Reconstruction.empty, AMap.size, AMap.empty]), hparse]
    simp only
    rw [hbuild]
    rfl
  · classical
    set tids := (o.tracks e.trackIds).filter (fun t => decide (PointUsed cams (pr t))) with htids
    have hup : usedPoints cams ((o.tracks e.trackIds).map pr) = tids.map pr := by
      unfold usedPoints
      rw [List.filter_map]
      rfl
    have hndU : tids.Nodup := hndT.filter _
    have hmemU : ∀ t, t ∈ tids ↔ ∃ T, e.track t = some T ∧ ¬ AtOrigin T := by
      intro t
      rw [htids, List.mem_filter, hmemT]
      constructor
      · rintro ⟨⟨T, ht⟩, hd⟩
        exact ⟨T, ht, (hpused t T ht).1 (by simpa using hd)⟩
      · rintro ⟨T, ht, hd⟩
        exact ⟨⟨T, ht⟩, by simpa using (hpused t T ht).2 hd⟩
    have hgetU : ∀ t T, e.track t = some T → ¬ AtOrigin T →
        (usedPoints cams ((o.tracks e.trackIds).map pr))[tids.idxOf t]? = some (pr t) := by
      intro t T ht hd
      rw [hup, List.getElem?_map]
      have hm := (hmemU t).2 ⟨T, ht, hd⟩
      rw [List.getElem?_eq_getElem (List.idxOf_lt_length_iff.2 hm), List.getElem_idxOf]
      rfl
    have hgetI : ∀ v V, e.view v = some V → ids[ids.idxOf v]? = some v := by
      intro v V hv
      rw [List.getElem?_eq_getElem (hlt v V hv), List.getElem_idxOf]
    refine ⟨fun t => tids.idxOf t, ?_, ?_, ?_, ?_, ?_, ?_, ?_⟩
    · intro v w hv hw h
      cases h1 : e.view v with
      | none => exact absurd h1 hv
      | some V =>
        cases h2 : e.view w with
        | none => exact absurd h2 hw
        | some W => exact hinj v w V W h1 h2 h
    · intro w
      rw [hload.views, hused]
      constructor
      · intro hw
        obtain ⟨V, hv⟩ := (hmemV ids[w]).1 (List.getElem_mem hw)
        exact ⟨ids[w], by rw [hv]; simp, hndV.idxOf_getElem w hw⟩
      · rintro ⟨v, hv, rfl⟩
        cases h1 : e.view v with
        | none => exact absurd h1 hv
        | some V => exact hlt v V h1
    · intro v V hv
      have hlt' := hlt v V hv
      obtain ⟨V', hV'⟩ := (hload.views (ids.idxOf v)).2 ((hused _).2 hlt')
      have hl : files.lists[ids.idxOf v]? = some ⟨V.name, s.prior v⟩ := by
        rw [hlists, List.getElem?_map, hgetI v V hv]
        simp [nameOf, hv]
      have hc : cams[ids.idxOf v]? = some (camRecord (s.cam v)) := by
        rw [hcams, List.getElem?_map, hgetI v V hv]
        rfl
      obtain ⟨hn, hest'⟩ := hload.view _ _ V' hl hV'
      obtain ⟨c, hcget, c1, c2, c3, c4, c5, c6, c7⟩ := hload.camera _ _ V' hc hV'
      refine ⟨V', c, hV', hn, hest', hcget, ?_, hload.prior _ _ V' hl hV'⟩
      obtain ⟨hp, -, hrot⟩ := hcame v V hv
      have hrotb : (camRecord (s.cam v)).rot.IsRotation := by
        have hD : M3.IsRotation (⟨⟨1, 0, 0⟩, ⟨0, -1, 0⟩, ⟨0, 0, -1⟩⟩ : M3 K) := by
          refine ⟨?_, ?_, ?_⟩ <;> simp [M3.mul, M3.transpose, M3.one, M3.det, V3.dot, V3.cross, M3.mulVec]
        have hm : flipM (s.cam v).rot = M3.mul ⟨⟨1, 0, 0⟩, ⟨0, -1, 0⟩, ⟨0, 0, -1⟩⟩ (s.cam v).rot := by
          simp [flipM, M3.mul, M3.transpose, M3.mulVec, V3.dot, V3.neg]
        show (flipM (s.cam v).rot).IsRotation
        rw [hm]
        exact hD.mul hrot
      obtain ⟨-, hact⟩ := c7 hrotb
      have hact' : ∀ X : V3 K, c.rot.mulVec (X.sub c.pos) = (s.cam v).rot.mulVec (X.sub (s.cam v).pos) := by
        intro X
        rw [hact, M3.mulVec_sub]
        simp only [camRecord, flipM, Bundler.flip, M3.mulVec, V3.dot, V3.neg, V3.add, V3.sub, V3.mk.injEq]
        refine ⟨?_, ?_, ?_⟩ <;> ring
      have hpos' : c.pos = (s.cam v).pos := by
        have h1 := congrArg (s.cam v).rot.transpose.mulVec (hact' c.pos)
        rw [hrot.transpose_mulVec] at h1
        have h2 : c.rot.mulVec (c.pos.sub c.pos) = V3.zero := by
          simp [V3.sub, M3.mulVec, V3.dot, V3.zero]
        rw [h2] at h1
        have h3 : (s.cam v).rot.transpose.mulVec V3.zero = V3.zero := by
          simp [M3.mulVec, V3.dot, V3.zero]
        rw [h3] at h1
        have h4 := congrArg V3.x h1
        have h5 := congrArg V3.y h1
        have h6 := congrArg V3.z h1
        simp only [V3.zero, V3.sub] at h4 h5 h6
        ext
        · linarith
        · linarith
        · linarith
      have hrot' : c.rot = (s.cam v).rot := by
        have hall : ∀ Y, c.rot.mulVec Y = (s.cam v).rot.mulVec Y := by
          intro Y
          have := hact' (Y.add c.pos)
          rw [← hpos'] at this
          have hY : (Y.add c.pos).sub c.pos = Y := by ext <;> simp [V3.add, V3.sub]
          rwa [hY] at this
        have e1 := hall ⟨1, 0, 0⟩
        have e2 := hall ⟨0, 1, 0⟩
        have e3 := hall ⟨0, 0, 1⟩
        simp only [M3.mulVec, V3.dot, mul_one, mul_zero, add_zero, zero_add, V3.mk.injEq] at e1 e2 e3
        obtain ⟨a1, a2, a3⟩ := e1
        obtain ⟨b1, b2, b3⟩ := e2
        obtain ⟨d1, d2, d3⟩ := e3
        ext <;> assumption
      cases c
      simp only at c1 c2 c3 c4 c5 c6 hrot' hpos'
      simp only [camRecord] at c2 c3 c4
      subst c1 c2 c3 c4 c5 c6 hrot' hpos'
      simp [hp]
    · intro t u T U ht hu hdt hdu h
      exact (List.idxOf_inj ((hmemU t).2 ⟨T, ht, hdt⟩)).1 h
    · intro u
      rw [hload.tracks, hup, List.length_map]
      constructor
      · intro hu
        obtain ⟨T, ht, hd⟩ := (hmemU tids[u]).1 (List.getElem_mem hu)
        exact ⟨tids[u], T, ht, hd, hndU.idxOf_getElem u hu⟩
      · rintro ⟨t, T, ht, hd, rfl⟩
        exact List.idxOf_lt_length_iff.2 ((hmemU t).2 ⟨T, ht, hd⟩)
    · intro t T ht hd
      have hget := hgetU t T ht hd
      obtain ⟨T', hT'⟩ := (hload.tracks (tids.idxOf t)).2 (List.getElem?_eq_some_iff.1 hget).1
      obtain ⟨h1, h2, h3, h4, h5, h6, -, h8⟩ := hload.track _ _ _ hget hT'
      refine ⟨T', hT', h1, h3, ?_, ?_, ?_⟩
      · rw [h2, hprT t T ht]
        have hw := (htr t T ht).1
        ext <;> simp only [posOf, V3.smul] <;> field_simp
      · rw [hprT t T ht] at h4 h5 h6
        have huniq : ∀ m n : Nat, IsTrunc ((m : Nat) : K) ((n : Nat) : Int) → n = m := by
          rintro m n ⟨g1, g2, -⟩
          simp only [Int.cast_natCast, Nat.abs_cast] at g1 g2
          have g1' : n ≤ m := by exact_mod_cast g1
          have g2' : m < n + 1 := by exact_mod_cast g2
          omega
        have a1 := huniq _ _ h4
        have a2 := huniq _ _ h5
        have a3 := huniq _ _ h6
        exact Prod.ext a1 (Prod.ext a2 a3)
      · intro w
        rw [h8]
        constructor
        · rintro ⟨x, y, hu⟩
          obtain ⟨v, hv, hw, -⟩ := (hobsAt t T ht w x y).1 hu
          exact ⟨v, hv, hw⟩
        · rintro ⟨v, hv, hw⟩
          exact ⟨_, _, (hobsAt t T ht w _ _).2 ⟨v, hv, hw, rfl, rfl⟩⟩
    · intro v V V' t T hv ht hd hV'
      have hget := hgetU t T ht hd
      have hfeat := fun f' => hload.feature (ids.idxOf v) V' (tids.idxOf t) f' hV'
      have hchar : ∀ f', V'.getFeature (tids.idxOf t) = some f' ↔ (∃ f, V.getFeature t = some f) ∧
          f' = (((trunc ((featOf e v t).1 - (s.cam v).px) : Int) : K), -((trunc (-((featOf e v t).2 - (s.cam v).py)) : Int) : K)) := by
        intro f'
        rw [hfeat]
        constructor
        · rintro ⟨p, hp, x, y, hu, rfl⟩
          rw [hget] at hp
          cases hp
          obtain ⟨w, hw, hwi, rfl, rfl⟩ := (hobsAt t T ht _ x y).1 hu
          obtain ⟨W, f, hW, hf⟩ := hviewT t T w ht hw
          have := hinj w v W V hW hv hwi
          subst this
          rw [hv] at hW
          cases hW
          exact ⟨⟨f, hf⟩, rfl⟩
        · rintro ⟨⟨f, hf⟩, rfl⟩
          have hvT : v ∈ T.views := by
            obtain ⟨T1, hT1, hv1⟩ := (hi.sym v t).1 ⟨V, hv, AMap.mem_keys_iff.2 ⟨f, hf⟩⟩
            rw [show e.tracks.get t = some T from ht] at hT1
            cases hT1
            exact hv1
          exact ⟨pr t, hget, _, _, (hobsAt t T ht _ _ _).2 ⟨v, hvT, rfl, rfl, rfl⟩, rfl⟩
      constructor
      · constructor
        · rintro ⟨f', hf'⟩
          exact ((hchar f').1 hf').1
        · intro hf
          exact ⟨_, (hchar _).2 ⟨hf, rfl⟩⟩
      · intro f f' hf hf'
        obtain ⟨-, rfl⟩ := (hchar f').1 hf'
        have hfo : featOf e v t = f := by simp [featOf, hv, hf]
        rw [hfo, trunc_neg]
        refine ⟨_, trunc (f.2 - (s.cam v).py), by simp, isTrunc_trunc _, isTrunc_trunc _⟩


/-- C61. The camera written for a pinhole camera without skew and with aspect ratio 1 is the same camera in the conventions of
Bundler: every point off the plane of the camera centre projects to the same pixel, relative to the principal point and with the y axis
upwards. -/
theorem C61_same_projection (c : Cam ℝ) (rest : List (Tok ℝ)) :
    ∃ b, readCamera (cameraToks c ++ rest) = .ok b rest ∧ ∀ X u,
      CameraModels.pinholeToPixel ⟨c.focal, 1, 0, c.px, c.py⟩ c.k1 c.k2 (c.rot.mulVec (X.sub c.pos)) = .ok u →
      bundlerProject b X = (u.1 - c.px, -(u.2 - c.py)) := by
  refine ⟨camRecord c, readCamera_toks c rest, fun X u hu => ?_⟩
  have hP : ((camRecord c).rot.mulVec X).add (camRecord c).trans = Bundler.flip (c.rot.mulVec (X.sub c.pos)) := by
    rw [M3.mulVec_sub]
    simp only [camRecord, flipM, Bundler.flip, M3.mulVec, V3.dot, V3.neg, V3.add, V3.sub, V3.mk.injEq]
    refine ⟨?_, ?_, ?_⟩ <;> ring
  unfold CameraModels.pinholeToPixel CameraModels.normalized CameraModels.divide at hu
  by_cases hz : (c.rot.mulVec (X.sub c.pos)).z = 0
  · simp [hz] at hu
  · simp only [hz, if_false, Outcome.ok_bind, Outcome.ok.injEq] at hu
    subst hu
    unfold bundlerProject
    rw [hP]
    simp only [Bundler.flip, camRecord, CameraModels.Calibration.apply, CameraModels.pinholeDistort, CameraModels.radialFactor,
      Prod.mk.injEq]
    constructor
    · field_simp
      ring
    · field_simp
      ring

def bundlerRecon (ops : List (Reconstruction.Op (ℚ × ℚ) (Point ℚ))) : Reconstruction (ℚ × ℚ) (Point ℚ) :=
  match Reconstruction.run Reconstruction.empty ops with
  | .ok (_, r) => r
  | _ => Reconstruction.empty

theorem bundlerRecon_reachable (ops : List (Reconstruction.Op (ℚ × ℚ) (Point ℚ))) : (bundlerRecon ops).Reachable := by
  unfold bundlerRecon
  cases h : Reconstruction.run Reconstruction.empty ops with
  | ok x => exact ⟨ops, x.1, h⟩
  | abort => exact ⟨[], [], rfl⟩
  | ub => exact ⟨[], [], rfl⟩

def bundlerId : Orders := ⟨id, id, fun _ => id⟩

def bundlerCam : Cam ℚ := ⟨true, 500, 1 / 10, 0, 320, 240, ⟨⟨0, -1, 0⟩, ⟨1, 0, 0⟩, ⟨0, 0, 1⟩⟩, ⟨1, 2, 3⟩⟩

/-- Three views, one not estimated, and three tracks: one with `w = 2`, one at the origin, one not estimated. -/
def bundlerOps : List (Reconstruction.Op (ℚ × ℚ) (Point ℚ)) :=
  [.addView "x/a.jpg", .addView "b.jpg", .addView "c.jpg",
   .addTrack ⟨⟨0, 0, 0⟩, 1, (0, 0, 0)⟩ [(0, (645 / 2, 200)), (1, (330, 477 / 2)), (2, (0, 0))],
   .addTrack ⟨⟨0, 0, 0⟩, 1, (0, 0, 0)⟩ [(0, (1, 2)), (1, (3, 4))],
   .addTrack ⟨⟨0, 0, 0⟩, 1, (0, 0, 0)⟩ [(0, (5, 6)), (1, (7, 8))],
   .setViewEstimated 0 true, .setViewEstimated 1 true,
   .setTrackEstimated 0 true ⟨⟨2, 4, 16⟩, 2, (255, 128, 0)⟩, .setTrackEstimated 1 true ⟨⟨0, 0, 0⟩, 1, (1, 1, 1)⟩]

def bundlerScene : Scene ℚ := ⟨bundlerRecon bundlerOps, fun _ => bundlerCam, fun v => if v = 0 then some 490 else none⟩

def bundlerWrite (s : Scene ℚ) : Files ℚ :=
  match writeBundlerFiles s bundlerId bundlerId with
  | .ok f => f
  | _ => ⟨[], false, []⟩

def bundlerFiles : Files ℚ := bundlerWrite bundlerScene

def bundlerNew : Loaded ℚ := ⟨Reconstruction.empty, .empty, .empty⟩

/-- The base names used below. -/
def bundlerBase (s : String) : String := if s = "x/a.jpg" ∨ s = "y/a.jpg" then "a.jpg" else s

def bundlerRead (f : Files ℚ) : Outcome (Bool × Loaded ℚ) := readBundlerFiles bundlerBase bundlerCam f bundlerNew

def bundlerGot : Loaded ℚ :=
  match bundlerRead bundlerFiles with
  | .ok (_, s) => s
  | _ => bundlerNew

/-- The scene meets the hypotheses of `C61_round_trip_partial`. -/
example : bundlerScene.recon.Reachable ∧ bundlerCam.rot.IsRotation ∧ (∃ t, TrackKept bundlerScene.recon t) ∧
    (∀ t T, bundlerScene.recon.track t = some T → T.estimated = true → T.payload.w ≠ 0) := by
  refine ⟨bundlerRecon_reachable bundlerOps, ?_, ?_, ?_⟩
  · refine ⟨?_, ?_, ?_⟩ <;> decide +kernel
  · exact ⟨0, _, rfl, rfl, 0, 1, by decide, by decide +kernel, by decide +kernel, ⟨_, rfl, rfl⟩, ⟨_, rfl, rfl⟩⟩
  · intro t T hT _
    have hm : (t, T) ∈ bundlerScene.recon.tracks.entries := AMap.mem_entries_of_get hT
    have hall : ∀ x ∈ bundlerScene.recon.tracks.entries, x.2.payload.w ≠ 0 := by decide +kernel
    exact hall _ hm

def bundlerCams : List (BCam ℚ) :=
  [⟨500, 0, 0, M3.one, ⟨0, 0, 0⟩⟩, ⟨0, 0, 0, M3.one, ⟨0, 0, 0⟩⟩, ⟨600, 0, 0, M3.one, ⟨1, 0, 0⟩⟩]

def bundlerPoints : List (BPoint ℚ) :=
  [⟨⟨1, 2, -5⟩, ⟨1, 2, 255⟩, [⟨0, 3, 10, 20⟩, ⟨1, 4, 11, 21⟩]⟩, ⟨⟨1, 1, -7⟩, ⟨5 / 2, 0, 0⟩, [⟨0, 5, 1, 2⟩, ⟨1, 1, 1, 1⟩, ⟨2, 6, 3, 4⟩]⟩]

def bundlerNames : List (Entry ℚ) := [⟨"a", none⟩, ⟨"b", some 3⟩, ⟨"c", some 0⟩]

/-- Files with an invalid camera meet the hypothesis of `C61_load`: the camera and the point it is needed for are left out. -/
example : WellFormed bundlerBase bundlerNames bundlerCams bundlerPoints ∧
    ∃ s, build bundlerBase bundlerCam bundlerNames bundlerCams bundlerPoints bundlerNew = .ok s ∧ s.recon.viewIds = [0, 2] ∧
      s.recon.trackIds = [0] ∧ (s.recon.track 0).map (·.payload) = some ⟨⟨1, 1, -7⟩, 1, (2, 0, 0)⟩ ∧
      (s.recon.view 2).bind (·.getFeature 0) = some (3, -4) := by
  refine ⟨⟨?_, ?_, ?_, ?_, ?_, ?_, ?_⟩, (match build bundlerBase bundlerCam bundlerNames bundlerCams bundlerPoints bundlerNew with
    | .ok s => s
    | _ => bundlerNew), ?_, ?_, ?_, ?_, ?_⟩ <;> decide +kernel

/-- C61. The pixels are not restored: a feature 2.5 pixels right of the principal point comes back 2 pixels right of it. -/
theorem C61_features_truncated_counterexample : ∃ s', bundlerRead bundlerFiles = .ok (true, s') ∧
    (bundlerScene.recon.view 0).bind (·.getFeature 0) = some (320 + 5 / 2, 200) ∧
    (s'.recon.view 0).bind (·.getFeature 0) = some (2, -40) := by
  refine ⟨bundlerGot, ?_, ?_, ?_⟩ <;> decide +kernel

/-- C61. Points at the origin are lost although they are estimated and seen by two cameras. -/
theorem C61_origin_lost_counterexample : ∃ s', bundlerRead bundlerFiles = .ok (true, s') ∧
    TrackKept bundlerScene.recon 1 ∧ EstimatedPart.numEstimatedTracks bundlerScene.recon = 2 ∧ s'.recon.numTracks = 1 := by
  refine ⟨bundlerGot, by decide +kernel, ?_, ?_, ?_⟩
  · exact ⟨_, rfl, rfl, 0, 1, by decide, by decide +kernel, by decide +kernel, ⟨_, rfl, rfl⟩, ⟨_, rfl, rfl⟩⟩
  · decide +kernel
  · decide +kernel

/-- C61. Images of the same name in different directories make reading what was written abort. -/
theorem C61_same_base_name_counterexample :
    ∃ s : Scene ℚ, s.recon.Reachable ∧ ∃ f, writeBundlerFiles s bundlerId bundlerId = .ok f ∧ bundlerRead f = .abort := by
  let ops : List (Reconstruction.Op (ℚ × ℚ) (Point ℚ)) := [.addView "x/a.jpg", .addView "y/a.jpg",
    .addTrack ⟨⟨1, 1, 1⟩, 1, (0, 0, 0)⟩ [(0, (1, 2)), (1, (3, 4))], .setViewEstimated 0 true, .setViewEstimated 1 true,
    .setTrackEstimated 0 true ⟨⟨1, 1, 1⟩, 1, (1, 1, 1)⟩]
  let s : Scene ℚ := ⟨bundlerRecon ops, fun _ => bundlerCam, fun _ => none⟩
  exact ⟨s, bundlerRecon_reachable ops, bundlerWrite s, by decide +kernel, by decide +kernel⟩

/-- C61. A scene without estimated points is written, and reading the files fails. -/
theorem C61_no_points_counterexample :
    ∃ s : Scene ℚ, s.recon.Reachable ∧ EstimatedPart.numEstimatedViews s.recon = 2 ∧
      ∃ f, writeBundlerFiles s bundlerId bundlerId = .ok f ∧ bundlerRead f = .ok (false, bundlerNew) := by
  let ops : List (Reconstruction.Op (ℚ × ℚ) (Point ℚ)) := [.addView "a", .addView "b", .setViewEstimated 0 true,
    .setViewEstimated 1 true]
  let s : Scene ℚ := ⟨bundlerRecon ops, fun _ => bundlerCam, fun _ => none⟩
  exact ⟨s, bundlerRecon_reachable ops, by decide +kernel, bundlerWrite s, by decide +kernel, by decide +kernel⟩

/-- C61. A reconstruction is refused unless it is empty, but being empty is not enough: reading into one whose views were removed
uses a null pointer. -/
theorem C61_reused_reconstruction_counterexample :
    ∃ s : Loaded ℚ, s.recon.Reachable ∧ s.recon.numViews = 0 ∧ s.recon.numTracks = 0 ∧
      readBundlerFiles bundlerBase bundlerCam bundlerFiles s = .ub := by
  let ops : List (Reconstruction.Op (ℚ × ℚ) (Point ℚ)) := [.addView "a", .addView "b", .removeView 0, .removeView 1]
  exact ⟨⟨bundlerRecon ops, .empty, .empty⟩, bundlerRecon_reachable ops, by decide +kernel, by decide +kernel, by decide +kernel⟩

end Theia
