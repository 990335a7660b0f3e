import Verif.Proof.Colorize
import Verif.Spec.Colorize

/-!
# C86: the colour of a track is the mean of the colours its views see

For every number of threads and every schedule.
-/

namespace Theia

open Colorize Reconstruction

section

variable {Q : Type}

private theorem truncate_ok {q : ℚ} {n : Nat} (h0 : 0 ≤ q) (h1 : q < n) (hn : n < 2 ^ 31) :
    truncate q = .ok (⌊q⌋₊ : ℤ) ∧ (⌊q⌋₊ : ℤ) < n := by
  have hn' : (n : ℚ) < 2147483648 := by
    have : n < 2147483648 := by norm_num at hn; exact hn
    exact_mod_cast this
  constructor
  · unfold truncate
    rw [if_pos ⟨by linarith, by linarith⟩, if_pos h0]
    congr 1
    change ⌊q⌋ = _
    rw [Int.floor_eq_iff]
    exact ⟨by exact_mod_cast Nat.floor_le h0, by exact_mod_cast Nat.lt_floor_add_one q⟩
  · have : ⌊q⌋₊ < n := (Nat.floor_lt h0).2 h1
    exact_mod_cast this

private theorem featureColor_ok (m : Machine) {image : Image} {f : ℚ × ℚ}
    (hc : image.channels = 3) (hw : image.width < 2 ^ 31) (hh : image.height < 2 ^ 31)
    (hf : 0 ≤ f.1 ∧ f.1 < image.width ∧ 0 ≤ f.2 ∧ f.2 < image.height) :
    featureColor m image f = .ok fun i => m.fl (255 * image.pixel ⌊f.1⌋₊ ⌊f.2⌋₊ i) := by
  obtain ⟨hx, hx'⟩ := truncate_ok hf.1 hf.2.1 hw
  obtain ⟨hy, hy'⟩ := truncate_ok hf.2.2.1 hf.2.2.2 hh
  unfold featureColor
  rw [hx, hy]
  simp only [Outcome.ok_bind]
  unfold getXY
  rw [if_pos ⟨by omega, hx', by omega, hy'⟩, if_neg (by omega)]
  simp

/-- The additions for a feature, from the images. -/
private def scaled (m : Machine) (files : String → Option Image) (directory : String)
    (r : Reconstruction (ℚ × ℚ) (Rgb Byte × Q)) (v : ViewId) (t : TrackId) : Rgb ℚ :=
  match r.view v with
  | none => fun _ => 0
  | some V =>
    match V.getFeature t, files (directory ++ V.name) with
    | some f, some image => fun i => m.fl (255 * image.pixel ⌊f.1⌋₊ ⌊f.2⌋₊ i)
    | _, _ => fun _ => 0

private theorem scaled_eq (m : Machine) {files : String → Option Image} {directory : String}
    {r : Reconstruction (ℚ × ℚ) (Rgb Byte × Q)} {v : ViewId} {t : TrackId} {V : View (ℚ × ℚ)}
    {f : ℚ × ℚ} {image : Image} (hV : r.view v = some V) (hf : V.getFeature t = some f)
    (hi : files (directory ++ V.name) = some image) :
    scaled m files directory r v t = fun i => m.fl (255 * image.pixel ⌊f.1⌋₊ ⌊f.2⌋₊ i) := by
  unfold scaled
  simp only [hV, hf, hi]

private theorem himg (m : Machine) {files : String → Option Image} {directory : String}
    {r : Reconstruction (ℚ × ℚ) (Rgb Byte × Q)} (h : Spec.HasImages files directory r) :
    ∀ v V, r.view v = some V → ∃ image, files (directory ++ V.name) = some image ∧
      image.channels = 3 ∧ ∀ t f, V.getFeature t = some f →
        featureColor m image f = .ok (scaled m files directory r v t) := by
  intro v V hV
  obtain ⟨image, h1, h2, h3, h4, h5⟩ := h v V hV
  exact ⟨image, h1, h2, fun t f hf => by
    rw [featureColor_ok m h2 h3 h4 (h5 t f hf), scaled_eq m hV hf h1]⟩

private theorem seen (m : Machine) {files : String → Option Image} {directory : String}
    {r : Reconstruction (ℚ × ℚ) (Rgb Byte × Q)} (h : Spec.HasImages files directory r)
    (hi : r.Inv) {t : TrackId} {T : Track (Rgb Byte × Q)} (hT : r.track t = some T) :
    ∀ v ∈ T.views, ∃ V f image, r.view v = some V ∧ V.getFeature t = some f ∧
      files (directory ++ V.name) = some image ∧
      scaled m files directory r v t = fun i => m.fl (255 * image.pixel ⌊f.1⌋₊ ⌊f.2⌋₊ i) := by
  intro v hv
  obtain ⟨V, hV, ht⟩ := (hi.sym v t).2 ⟨T, hT, hv⟩
  obtain ⟨f, hf⟩ := AMap.mem_keys_iff.1 ht
  obtain ⟨image, h1, -⟩ := h v V hV
  exact ⟨V, f, image, hV, hf, h1, scaled_eq m hV hf h1⟩

set_option maxRecDepth 100000 in
private theorem byte_exact : ∀ b : Byte, roundFloat (255 * roundFloat ((b.val : ℚ) / 255)) = b.val := by
  decide +kernel

/-- For images of 8 bits per channel, computed in single precision: every track gets, in each channel,
the mean of the bytes its views see, rounded down, whatever the number of threads and their
schedule.  Tracks must have a view, and less than 65536. -/
theorem C86_colors (debug : Bool) (files : String → Option Image) (directory : String)
    (bytes : String → Nat → Nat → Rgb Byte) (numThreads : Int) (hn : 0 < numThreads)
    (schedule : List Nat) (r : Reconstruction (ℚ × ℚ) (Rgb Byte × Q)) (hr : r.Reachable)
    (himages : Spec.HasImages files directory r) (h8 : Spec.EightBit files directory bytes)
    (hviews : ∀ t T, r.track t = some T → T.views ≠ [] ∧ T.views.length < 2 ^ 16)
    (hs : Spec.IsSchedule ⟨roundFloat, debug⟩ files directory r schedule) :
    ∃ r', colorize ⟨roundFloat, debug⟩ true files directory numThreads schedule r = .ok r' ∧
      ∀ t T, r.track t = some T → ∃ T' cs, r'.track t = some T' ∧
        Spec.SeenBytes bytes r t T.views cs ∧
        ∀ i, (T'.payload.1 i).val = (cs.map fun c => c i).sum / T.views.length := by
  have hi := inv_of_reachable hr
  set m : Machine := ⟨roundFloat, debug⟩ with hm
  set col := scaled m files directory r with hcol
  -- what is added is a whole number
  have hbyte : ∀ t T, r.track t = some T → ∀ v ∈ T.views, ∃ c : Rgb Nat, (∃ V f, r.view v = some V ∧
      V.getFeature t = some f ∧ ∀ i, c i = (bytes V.name ⌊f.1⌋₊ ⌊f.2⌋₊ i).val) ∧
      ∀ i, col v t i = (c i : ℚ) ∧ c i ≤ 255 := by
    intro t T hT v hv
    obtain ⟨V, f, image, hV, hf, h1, h2⟩ := seen m himages hi hT v hv
    refine ⟨fun i => (bytes V.name ⌊f.1⌋₊ ⌊f.2⌋₊ i).val, ⟨V, f, hV, hf, fun _ => rfl⟩, fun i => ?_⟩
    rw [hcol, h2]
    simp only
    rw [h8 V.name image h1]
    refine ⟨?_, by have := (bytes V.name ⌊f.1⌋₊ ⌊f.2⌋₊ i).isLt; omega⟩
    exact byte_exact _
  have hcs : ∀ t T, r.track t = some T → ∃ cs : List (Rgb Nat),
      Spec.SeenBytes bytes r t T.views cs ∧
      (T.views.map fun v => col v t) = cs.map (fun c i => ((c i : ℕ) : ℚ)) ∧
      ∀ c ∈ cs, ∀ i, c i ≤ 255 := by
    intro t T hT
    have := hbyte t T hT
    generalize T.views = vs at this
    clear hT
    induction vs with
    | nil => exact ⟨[], .nil, rfl, by simp⟩
    | cons v vs ih =>
      obtain ⟨cs, h1, h2, h3⟩ := ih fun w hw => this w (by simp [hw])
      obtain ⟨c, hc, hc'⟩ := this v (by simp)
      refine ⟨c :: cs, .cons hc h1, ?_, ?_⟩
      · rw [List.map_cons, List.map_cons, h2]
        congr 1
        funext i
        exact (hc' i).1
      · intro d hd i
        rcases List.mem_cons.1 hd with rfl | hd
        · exact (hc' i).2
        · exact h3 d hd i
  have hbound : ∀ (cs : List (Rgb Nat)), (∀ c ∈ cs, ∀ i, c i ≤ 255) → ∀ i,
      (cs.map fun c => c i).sum ≤ 255 * cs.length := by
    intro cs h i
    have := List.sum_le_card_nsmul (cs.map fun c => c i) 255 (by
      intro x hx
      obtain ⟨c, hc, rfl⟩ := List.mem_map.1 hx
      exact h c hc i)
    rw [List.length_map, nsmul_eq_mul, Nat.cast_id] at this
    omega
  have hcast : ∀ (cs : List (Rgb Nat)) i,
      ((cs.map (fun c i => ((c i : ℕ) : ℚ))).map fun c => c i).sum =
        (((cs.map fun c => c i).sum : ℕ) : ℚ) := by
    intro cs i
    induction cs with
    | nil => simp
    | cons c cs ih =>
      simp only [List.map_cons, List.sum_cons, Nat.cast_add]
      rw [ih]
  have hfix : ∀ t T, r.track t = some T → ∀ (i : Fin 3) (l : List (Rgb ℚ)),
      l.Subperm (T.views.map fun v => col v t) →
      m.fl ((l.map fun c => c i).sum) = (l.map fun c => c i).sum := by
    intro t T hT i l hl
    obtain ⟨cs, -, h2, h3⟩ := hcs t T hT
    rw [h2] at hl
    have hlen : cs.length = T.views.length := by
      have := congrArg List.length h2
      simpa using this.symm
    have : ∃ ds : List (Rgb Nat), l = ds.map (fun c i => ((c i : ℕ) : ℚ)) ∧
        (∀ d ∈ ds, ∀ i, d i ≤ 255) ∧ ds.length ≤ cs.length := by
      have hmem : ∀ x ∈ l, ∃ c ∈ cs, x = fun i => ((c i : ℕ) : ℚ) := by
        intro x hx
        obtain ⟨c, hc, rfl⟩ := List.mem_map.1 (hl.subset hx)
        exact ⟨c, hc, rfl⟩
      have hle := hl.length_le
      rw [List.length_map] at hle
      clear hl
      have key : ∃ ds : List (Rgb Nat), l = ds.map (fun c i => ((c i : ℕ) : ℚ)) ∧
          (∀ d ∈ ds, ∀ i, d i ≤ 255) := by
        clear hle
        induction l with
        | nil => exact ⟨[], rfl, by simp⟩
        | cons x l ih =>
          obtain ⟨ds, rfl, hd⟩ := ih fun y hy => hmem y (by simp [hy])
          obtain ⟨c, hc, rfl⟩ := hmem x (by simp)
          refine ⟨c :: ds, rfl, ?_⟩
          intro d hd' i
          rcases List.mem_cons.1 hd' with rfl | hd'
          · exact h3 d hc i
          · exact hd d hd' i
      obtain ⟨ds, rfl, hd⟩ := key
      exact ⟨ds, rfl, hd, by simpa using hle⟩
    obtain ⟨ds, rfl, hd, hle⟩ := this
    rw [hcast]
    apply roundFloat_natCast
    have h5 := hbound ds hd i
    have h6 := (hviews t T hT).2
    norm_num at h6 ⊢
    omega
  have hval : ∀ t T, r.track t = some T → ∀ cs : List (Rgb Nat), (T.views.map fun v => col v t) =
      cs.map (fun c i => ((c i : ℕ) : ℚ)) → (∀ c ∈ cs, ∀ i, c i ≤ 255) → ∀ i,
      ∃ hlt, toByte (m.fl ((T.views.map fun v => col v t i).sum / T.views.length)) =
        .ok ⟨(cs.map fun c => c i).sum / T.views.length, hlt⟩ := by
    intro t T hT cs h2 h3 i
    have hlen : cs.length = T.views.length := by
      have := congrArg List.length h2
      simpa using this.symm
    have hsum : (T.views.map fun v => col v t i).sum = (((cs.map fun c => c i).sum : ℕ) : ℚ) := by
      rw [← hcast, ← h2, List.map_map]
      rfl
    have hb := hbound cs h3 i
    have hpos : 0 < T.views.length := List.length_pos_iff.2 (hviews t T hT).1
    rw [hlen] at hb
    have hlt : (cs.map fun c => c i).sum / T.views.length < 256 := by
      rw [Nat.div_lt_iff_lt_mul hpos]
      omega
    refine ⟨hlt, ?_⟩
    rw [hsum]
    exact toByte_ok hlt (floor_roundFloat_div hpos (hviews t T hT).2 hb)
  obtain ⟨pending, hp, hsome⟩ := hs
  have hb' : ∀ t i, ∃ x : Byte, ∀ T, r.track t = some T →
      toByte (m.fl ((T.views.map fun v => col v t i).sum / T.views.length)) = .ok x := by
    intro t i
    cases hT : r.track t with
    | none => exact ⟨0, by simp⟩
    | some T =>
      obtain ⟨cs, -, h2, h3⟩ := hcs t T hT
      obtain ⟨hlt, hok⟩ := hval t T hT cs h2 h3 i
      exact ⟨_, fun T' e => by cases e; exact hok⟩
  choose b hb'' using hb'
  have hb : ∀ t T, r.track t = some T → ∀ i,
      toByte (m.fl ((T.views.map fun v => col v t i).sum / T.views.length)) = .ok (b t i) :=
    fun t T hT i => hb'' t i T hT
  have htasks : tasks m files directory r r.viewIds =
      .ok (r.viewIds.map fun v => (tracksOf r v).map fun t => (t, col v t)) := by
    refine tasks_ok m files directory r col _ fun v hv => ?_
    obtain ⟨V, hV⟩ := AMap.mem_keys_iff.1 hv
    obtain ⟨image, h1, h2, h3⟩ := himg m himages v V hV
    exact ⟨V, image, hV, h1, h2, h3⟩
  rw [htasks] at hp
  cases hp
  obtain ⟨-, r', hr', hcolor⟩ := colorize_ok m files directory numThreads hn schedule r hi col
    (himg m himages) hfix b (fun t T hT => ⟨(hviews t T hT).1, hb t T hT⟩) hsome
  refine ⟨r', hr', fun t T hT => ?_⟩
  obtain ⟨T', hT', hc⟩ := Option.map_eq_some_iff.1 (hcolor t T hT)
  obtain ⟨cs, h1, h2, h3⟩ := hcs t T hT
  refine ⟨T', cs, hT', h1, fun i => ?_⟩
  obtain ⟨hlt, hok⟩ := hval t T hT cs h2 h3 i
  have := hb t T hT i
  rw [hok] at this
  rw [hc, ← Outcome.ok.inj this]

/-- In exact arithmetic, for images of any depth with values between zero and one: every track gets,
in each channel, the mean of 255 times the values its views see, rounded down. -/
theorem C86_exact_partial (debug : Bool) (files : String → Option Image) (directory : String)
    (numThreads : Int) (hn : 0 < numThreads)
    (schedule : List Nat) (r : Reconstruction (ℚ × ℚ) (Rgb Byte × Q)) (hr : r.Reachable)
    (himages : Spec.HasImages files directory r)
    (hunit : ∀ name image, files name = some image → ∀ x y i,
      0 ≤ image.pixel x y i ∧ image.pixel x y i ≤ 1)
    (hviews : ∀ t T, r.track t = some T → T.views ≠ [])
    (hs : Spec.IsSchedule ⟨id, debug⟩ files directory r schedule) :
    ∃ r', colorize ⟨id, debug⟩ true files directory numThreads schedule r = .ok r' ∧
      ∀ t T, r.track t = some T → ∃ T' cs, r'.track t = some T' ∧
        Spec.SeenColors files directory r t T.views cs ∧
        ∀ i, (T'.payload.1 i).val = ⌊(cs.map fun c => c i).sum / T.views.length⌋₊ := by
  have hi := inv_of_reachable hr
  set m : Machine := ⟨id, debug⟩ with hm
  set col := scaled m files directory r with hcol
  have hrange : ∀ t T, r.track t = some T → ∀ v ∈ T.views, ∀ i, 0 ≤ col v t i ∧ col v t i ≤ 255 := by
    intro t T hT v hv i
    obtain ⟨V, f, image, hV, hf, h1, h2⟩ := seen m himages hi hT v hv
    rw [hcol, h2]
    have := hunit _ image h1 ⌊f.1⌋₊ ⌊f.2⌋₊ i
    simp only [hm, id]
    constructor <;> linarith
  have hmean : ∀ t T, r.track t = some T → ∀ i, ∃ hlt,
      toByte (m.fl ((T.views.map fun v => col v t i).sum / T.views.length)) =
        .ok ⟨⌊(T.views.map fun v => col v t i).sum / (T.views.length : ℚ)⌋₊, hlt⟩ := by
    intro t T hT i
    have hpos : (0 : ℚ) < T.views.length := by
      exact_mod_cast List.length_pos_iff.2 (hviews t T hT)
    have h0 : 0 ≤ (T.views.map fun v => col v t i).sum := List.sum_nonneg (by
      intro x hx
      obtain ⟨v, hv, rfl⟩ := List.mem_map.1 hx
      exact (hrange t T hT v hv i).1)
    have h1 : (T.views.map fun v => col v t i).sum ≤ T.views.length * 255 := by
      have := List.sum_le_card_nsmul (T.views.map fun v => col v t i) 255 (by
        intro x hx
        obtain ⟨v, hv, rfl⟩ := List.mem_map.1 hx
        exact (hrange t T hT v hv i).2)
      rwa [List.length_map, nsmul_eq_mul] at this
    have hq0 : 0 ≤ (T.views.map fun v => col v t i).sum / (T.views.length : ℚ) := by positivity
    have hq1 : (T.views.map fun v => col v t i).sum / (T.views.length : ℚ) ≤ 255 := by
      rw [div_le_iff₀ hpos]
      linarith
    generalize (T.views.map fun v => col v t i).sum / (T.views.length : ℚ) = q at *
    have hlt : ⌊q⌋₊ < 256 := by
      rw [Nat.floor_lt hq0]
      push_cast
      linarith
    refine ⟨hlt, toByte_ok hlt ?_⟩
    change ⌊q⌋ = _
    rw [Int.floor_eq_iff]
    exact ⟨by exact_mod_cast Nat.floor_le hq0, by exact_mod_cast Nat.lt_floor_add_one q⟩
  obtain ⟨pending, hp, hsome⟩ := hs
  have hb' : ∀ t i, ∃ x : Byte, ∀ T, r.track t = some T →
      toByte (m.fl ((T.views.map fun v => col v t i).sum / T.views.length)) = .ok x := by
    intro t i
    cases hT : r.track t with
    | none => exact ⟨0, by simp⟩
    | some T =>
      obtain ⟨hlt, hok⟩ := hmean t T hT i
      exact ⟨_, fun T' e => by cases e; exact hok⟩
  choose b hb'' using hb'
  have hb : ∀ t T, r.track t = some T → ∀ i,
      toByte (m.fl ((T.views.map fun v => col v t i).sum / T.views.length)) = .ok (b t i) :=
    fun t T hT i => hb'' t i T hT
  have htasks : tasks m files directory r r.viewIds =
      .ok (r.viewIds.map fun v => (tracksOf r v).map fun t => (t, col v t)) := by
    refine tasks_ok m files directory r col _ fun v hv => ?_
    obtain ⟨V, hV⟩ := AMap.mem_keys_iff.1 hv
    obtain ⟨image, h1, h2, h3⟩ := himg m himages v V hV
    exact ⟨V, image, hV, h1, h2, h3⟩
  rw [htasks] at hp
  cases hp
  obtain ⟨-, r', hr', hcolor⟩ := colorize_ok m files directory numThreads hn schedule r hi col
    (himg m himages) (fun _ _ _ _ _ _ => rfl) b (fun t T hT => ⟨hviews t T hT, hb t T hT⟩) hsome
  refine ⟨r', hr', fun t T hT => ?_⟩
  obtain ⟨T', hT', hc⟩ := Option.map_eq_some_iff.1 (hcolor t T hT)
  refine ⟨T', T.views.map fun v => col v t, hT', ?_, fun i => ?_⟩
  · unfold Spec.SeenColors
    rw [List.forall₂_map_right_iff]
    refine List.forall₂_same.2 fun v hv => ?_
    obtain ⟨V, f, image, hV, hf, h1, h2⟩ := seen m himages hi hT v hv
    exact ⟨V, f, image, hV, hf, h1, fun i => by rw [hcol, h2]; rfl⟩
  · obtain ⟨hlt, hok⟩ := hmean t T hT i
    have := hb t T hT i
    rw [hok] at this
    rw [hc, ← Outcome.ok.inj this, List.map_map]
    rfl

/-- Whatever the images contain and however the threads are scheduled: if colouring returns, nothing
but the colours of tracks has changed. -/
theorem C86_frame (m : Machine) (exists_ : Bool) (files : String → Option Image)
    (directory : String) (numThreads : Int) (schedule : List Nat)
    (r r' : Reconstruction (ℚ × ℚ) (Rgb Byte × Q))
    (h : colorize m exists_ files directory numThreads schedule r = .ok r') :
    r' = { r with tracks := r'.tracks } ∧ r'.trackIds = r.trackIds ∧
      ∀ t, (r'.track t).map (fun T => (T.estimated, T.views, T.payload.2)) =
        (r.track t).map fun T => (T.estimated, T.views, T.payload.2) := colorize_frame h

end

/-! ## Small scenes -/

/-- Three views of one track, added through the interface. -/
def colorOps : List (Reconstruction.Op (ℚ × ℚ) (Rgb Byte × Unit)) :=
  [.addView "a", .addView "b", .addView "c",
    .addTrack (fun _ => 0, ()) [(0, (1 / 2, 0)), (1, (1, 3 / 2)), (2, (0, 1))]]

/-- What a history of calls produces. -/
def colorScene (ops : List (Reconstruction.Op (ℚ × ℚ) (Rgb Byte × Unit))) :
    Reconstruction (ℚ × ℚ) (Rgb Byte × Unit) :=
  match Reconstruction.run Reconstruction.empty ops with
  | .ok (_, r) => r
  | _ => Reconstruction.empty

private theorem colorScene_reachable (ops : List (Reconstruction.Op (ℚ × ℚ) (Rgb Byte × Unit))) :
    (colorScene ops).Reachable := by
  unfold colorScene
  cases h : Reconstruction.run (Reconstruction.empty : Reconstruction (ℚ × ℚ) (Rgb Byte × Unit)) ops with
  | ok p => exact ⟨ops, p.1, h⟩
  | abort => exact ⟨[], [], rfl⟩
  | ub => exact ⟨[], [], rfl⟩

/-- Three images, each of one colour, with the given number of channels. -/
def plainImages (channels : Nat) (color : String → Rgb ℚ) (file : String) : Option Image :=
  if file = "dir/a" ∨ file = "dir/b" ∨ file = "dir/c" then
    some ⟨4, 3, channels, fun _ _ => color file⟩
  else none

/-- The colours of the tracks. -/
def colorsOf (o : Outcome (Reconstruction (ℚ × ℚ) (Rgb Byte × Unit))) :
    Outcome (List (TrackId × List Nat)) :=
  o.bind fun r => .ok (r.tracks.entries.map fun e => (e.1, (List.finRange 3).map fun i => (e.2.payload.1 i).val))

/-- Bytes for the three images. -/
def sceneBytes (name : String) : Rgb Byte :=
  if name = "a" then ![10, 20, 255] else if name = "b" then ![11, 20, 255] else ![12, 22, 255]

/-- Their files. -/
def sceneFiles (file : String) : Option Image :=
  plainImages 3 (fun f i => roundFloat (((sceneBytes (if f = "dir/a" then "a" else
    if f = "dir/b" then "b" else "c") i).val : ℚ) / 255)) file

/-- The hypotheses of `C86_colors` are met. -/
example : (colorScene colorOps).Reachable ∧
    Spec.HasImages sceneFiles "dir/" (colorScene colorOps) ∧
    Spec.EightBit sceneFiles "dir/" (fun name _ _ => sceneBytes name) ∧
    (∀ t T, (colorScene colorOps).track t = some T → T.views ≠ [] ∧ T.views.length < 2 ^ 16) ∧
    Spec.IsSchedule ⟨roundFloat, true⟩ sceneFiles "dir/" (colorScene colorOps) [2, 0, 1] ∧
    colorsOf (colorize ⟨roundFloat, true⟩ true sceneFiles "dir/" 4 [2, 0, 1] (colorScene colorOps)) =
      .ok [(0, [11, 20, 255])] := by
  refine ⟨colorScene_reachable _, ?_, ?_, ?_, ?_, by decide +kernel⟩
  · intro v V hV
    have h := AMap.mem_entries_of_get hV
    have key : ∀ e ∈ (colorScene colorOps).views.entries,
        ("dir/" ++ e.2.name = "dir/a" ∨ "dir/" ++ e.2.name = "dir/b" ∨ "dir/" ++ e.2.name = "dir/c") ∧
        ∀ g ∈ e.2.features.entries, 0 ≤ g.2.1 ∧ g.2.1 < 4 ∧ 0 ≤ g.2.2 ∧ g.2.2 < 3 := by decide +kernel
    refine ⟨_, if_pos (key _ h).1, rfl, by norm_num, by norm_num, fun t f hf => ?_⟩
    have := (key _ h).2 _ (AMap.mem_entries_of_get hf)
    simpa using this
  · intro name image h x y i
    unfold sceneFiles plainImages at h
    have hinj : ∀ s : String, "dir/" ++ name = "dir/" ++ s → name = s := fun s h => by
      have := congrArg String.toList h
      rw [String.toList_append, String.toList_append] at this
      exact String.toList_injective (List.append_cancel_left this)
    have ha := hinj "a"
    have hb := hinj "b"
    have hc := hinj "c"
    split_ifs at h with hcase
    cases h
    rcases hcase with e | e | e
    · cases ha e
      rfl
    · cases hb e
      rfl
    · cases hc e
      rfl
  · intro t T hT
    have key : ∀ e ∈ (colorScene colorOps).tracks.entries, e.2.views ≠ [] ∧ e.2.views.length < 2 ^ 16 := by
      decide +kernel
    exact key _ (AMap.mem_entries_of_get hT)
  · have key : (match tasks ⟨roundFloat, true⟩ sceneFiles "dir/" (colorScene colorOps)
        (colorScene colorOps).viewIds with
      | .ok pending => (interleave [2, 0, 1] pending).isSome
      | _ => false) = true := by decide +kernel
    unfold Spec.IsSchedule
    cases h : tasks ⟨roundFloat, true⟩ sceneFiles "dir/" (colorScene colorOps)
        (colorScene colorOps).viewIds with
    | ok pending => rw [h] at key; exact ⟨pending, rfl, key⟩
    | abort => rw [h] at key; simp at key
    | ub => rw [h] at key; simp at key

/-- An image with one channel: only one of the three colours of a pixel is set, and the others are used
uninitialised.  The code means to take the one channel for all three. -/
theorem C86_grayscale_counterexample :
    (colorScene colorOps).Reachable ∧
    colorize ⟨roundFloat, true⟩ true (plainImages 1 fun _ _ => 1 / 2) "dir/" 1 [0, 1, 2]
      (colorScene colorOps) = .ub :=
  ⟨colorScene_reachable _, by decide +kernel⟩

/-- A track without views, which can be added and which is left behind when views are removed, has
no mean: zero over zero is turned into a byte. -/
theorem C86_empty_track_counterexample :
    (colorScene [.addEmptyTrack (fun _ => 0, ())]).Reachable ∧
    colorize ⟨roundFloat, true⟩ true (plainImages 3 fun _ _ => 1 / 2) "dir/" 1 []
      (colorScene [.addEmptyTrack (fun _ => 0, ())]) = .ub :=
  ⟨colorScene_reachable _, by decide +kernel⟩

/-- A directory given without a slash at its end: the images are there, and colouring ends the
program because it looks for other names. -/
theorem C86_slash_counterexample :
    (colorScene colorOps).Reachable ∧
    (∀ v V, (colorScene colorOps).view v = some V →
      (plainImages 3 (fun _ _ => 1 / 2) ("dir" ++ "/" ++ V.name)).isSome) ∧
    colorize ⟨roundFloat, true⟩ true (plainImages 3 fun _ _ => 1 / 2) "dir" 1 [0, 1, 2]
      (colorScene colorOps) = .abort := by
  refine ⟨colorScene_reachable _, fun v V hV => ?_, by decide +kernel⟩
  have key : ∀ e ∈ (colorScene colorOps).views.entries,
      (plainImages 3 (fun _ _ => 1 / 2) ("dir" ++ "/" ++ e.2.name)).isSome := by decide +kernel
  exact key _ (AMap.mem_entries_of_get hV)

/-- Three images that are not of 8 bits. -/
def deepColor (file : String) : Rgb ℚ := fun _ =>
  roundFloat (200 / 255) - (if file = "dir/a" then 0 else if file = "dir/b" then 1 else 2) / 2 ^ 24

/-- For images of more than 8 bits the colour depends on the schedule of the threads. -/
theorem C86_schedule_counterexample :
    (colorScene colorOps).Reachable ∧
    colorsOf (colorize ⟨roundFloat, true⟩ true (plainImages 3 deepColor) "dir/" 3 [0, 1, 2]
      (colorScene colorOps)) ≠
    colorsOf (colorize ⟨roundFloat, true⟩ true (plainImages 3 deepColor) "dir/" 3 [0, 2, 1]
      (colorScene colorOps)) :=
  ⟨colorScene_reachable _, by decide +kernel⟩

end Theia
