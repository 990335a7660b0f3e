import Verif.Spec.Descriptors

/-!
# Proofs about the descriptor extractors
-/

namespace Theia
namespace Desc

open Spec.Descr

variable {P G D : Type}

theorem passes_eq (e q : ℚ) (c : Cand) : passes e q c = decide (Accepted e q c) := by
  rw [Bool.eq_iff_iff]
  simp only [passes, Accepted, Bool.and_eq_true, Bool.or_eq_true, decide_eq_true_eq, ge_iff_le, gt_iff_lt, sq]
  norm_num
  constructor
  · rintro ⟨⟨⟨⟨h1, h2⟩, h3⟩, h4⟩, h5⟩
    exact ⟨h1, h2, fun h => h3.resolve_left h, h4, h5⟩
  · rintro ⟨h1, h2, h3, h4, h5⟩
    exact ⟨⟨⟨⟨h1, h2⟩, Classical.or_iff_not_imp_left.2 h3⟩, h4⟩, h5⟩

/-- The members of the filter that the loops over keypoints leave alone. -/
def Same (f g : Filt P G) : Prop :=
  g.geo = f.geo ∧ g.O = f.O ∧ g.oCur = f.oCur ∧ g.edge = f.edge ∧ g.peak = f.peak ∧ g.im = f.im

theorem Same.refl (f : Filt P G) : Same f f := ⟨rfl, rfl, rfl, rfl, rfl, rfl⟩

theorem Same.trans {f g h : Filt P G} (a : Same f g) (b : Same g h) : Same f h := by
  obtain ⟨a1, a2, a3, a4, a5, a6⟩ := a
  obtain ⟨b1, b2, b3, b4, b5, b6⟩ := b
  exact ⟨b1.trans a1, b2.trans a2, b3.trans a3, b4.trans a4, b5.trans a5, b6.trans a6⟩

/-- The gradient, if it is taken to be the one of the current octave, is. -/
def Clean (vl : VL P G D) (p : P) (f : Filt P G) : Prop :=
  f.gradO = f.oCur → f.grad = some (vl.gradOf f.geo p f.oCur)

theorem updateGradient_spec (vl : VL P G D) (p : P) (f : Filt P G) (him : f.im = some p)
    (hg : f.gradO = f.oCur → f.grad ≠ none) :
    ∃ f1 g, f.updateGradient vl = .ok f1 ∧ Same f f1 ∧ f1.gradO = f.oCur ∧ f1.grad = some g ∧
      (Clean vl p f → g = vl.gradOf f.geo p f.oCur) := by
  unfold Filt.updateGradient
  by_cases h : f.gradO = f.oCur
  · rw [if_pos h]
    obtain ⟨g, hgg⟩ := Option.ne_none_iff_exists'.1 (hg h)
    refine ⟨f, g, rfl, Same.refl f, h, hgg, fun hc => ?_⟩
    have := hc h
    rw [hgg] at this
    exact Option.some.inj this
  · rw [if_neg h, him]
    exact ⟨_, _, rfl, ⟨rfl, rfl, rfl, rfl, rfl, by simp [him]⟩, rfl, rfl, fun _ => rfl⟩

theorem updateGradient_current (vl : VL P G D) (f : Filt P G) (h : f.gradO = f.oCur) :
    f.updateGradient vl = .ok f := by
  rw [Filt.updateGradient, if_pos h]

theorem descriptor_current (vl : VL P G D) (f : Filt P G) (k : VK) (a : ℚ) (g : G) (hk : k.o = f.oCur)
    (h : f.gradO = f.oCur) (hg : f.grad = some g) :
    f.descriptor vl k a =
      .ok (if vl.describable f.geo k = true then some (vl.describe f.geo g k a) else none, f) := by
  unfold Filt.descriptor
  by_cases hd : vl.describable f.geo k = true
  · rw [if_neg (by simp [hk, hd]), updateGradient_current vl f h, Outcome.ok_bind, hg]
    simp [hd]
  · rw [if_pos (by simp [hd])]
    simp [hd]

/-- What the angles of one keypoint add. -/
def anglesOut (vl : VL P G D) (zero : D) (geo : Geo) (g : G) (k : VK) (as : List ℚ) : List (Kp × D) :=
  as.map fun a => (⟨k.x, k.y, some k.sigma, some a⟩,
    if vl.describable geo k = true then vl.describe geo g k a else zero)

theorem anglesLoop_eq (vl : VL P G D) (zero : D) (k : VK) (f : Filt P G) (g : G) (hk : k.o = f.oCur)
    (h : f.gradO = f.oCur) (hg : f.grad = some g) (as : List ℚ) : ∀ out : Out D,
    anglesLoop vl zero k as out f =
      .ok (⟨out.keypoints ++ (anglesOut vl zero f.geo g k as).map (·.1),
            out.descriptors ++ (anglesOut vl zero f.geo g k as).map (·.2)⟩, f) := by
  induction as with
  | nil => intro out; simp [anglesLoop, anglesOut]
  | cons a as ih =>
    intro out
    rw [anglesLoop, descriptor_current vl f k a g hk h hg, Outcome.ok_bind]
    simp only
    rw [ih]
    by_cases hd : vl.describable f.geo k = true <;> simp [anglesOut, hd]

theorem anglesLoop_nil (vl : VL P G D) (zero : D) (k : VK) (f : Filt P G) (out : Out D) :
    anglesLoop vl zero k [] out f = .ok (out, f) := rfl

/-- What the keypoints of one octave add. -/
def keysOut (vl : VL P G D) (zero : D) (upright : Bool) (geo : Geo) (g : G) (ks : List VK) : List (Kp × D) :=
  (ks.filter (fun k => vl.orientable geo k)).flatMap fun k =>
    anglesOut vl zero geo g k ((vl.orient geo g k).take (if upright then 1 else 4))

theorem upright_take (upright : Bool) (l : List ℚ) :
    (if upright = true ∧ (l.take 4).length > 1 then (l.take 4).take 1 else l.take 4) =
      l.take (if upright then 1 else 4) := by
  cases upright with
  | false => simp
  | true =>
    simp only [true_and, if_true]
    split
    · rw [List.take_take]; rfl
    · rename_i h
      rcases l with - | ⟨a, - | ⟨b, l⟩⟩
      · rfl
      · rfl
      · exact absurd (by simp [List.take]) h

theorem keysLoop_spec (vl : VL P G D) (zero : D) (upright : Bool) (p : P) (ks : List VK) :
    ∀ (out : Out D) (f : Filt P G), f.im = some p → (∀ k ∈ ks, k.o = f.oCur) →
      (f.gradO = f.oCur → f.grad ≠ none) →
      ∃ out' f', keysLoop vl zero upright ks out f = .ok (out', f') ∧ Same f f' ∧
        ((∃ k ∈ ks, vl.orientable f.geo k = true) → f'.gradO = f.oCur ∧ f'.grad ≠ none) ∧
        ((¬ ∃ k ∈ ks, vl.orientable f.geo k = true) → f' = f) ∧
        (((∃ k ∈ ks, vl.orientable f.geo k = true) → Clean vl p f) →
          out' = ⟨out.keypoints ++ (keysOut vl zero upright f.geo (vl.gradOf f.geo p f.oCur) ks).map (·.1),
            out.descriptors ++ (keysOut vl zero upright f.geo (vl.gradOf f.geo p f.oCur) ks).map (·.2)⟩) := by
  induction ks with
  | nil =>
    intro out f him hk hg
    exact ⟨out, f, rfl, Same.refl f, fun ⟨k, hk, _⟩ => absurd hk List.not_mem_nil, fun _ => rfl, fun _ => by simp [keysOut]⟩
  | cons k ks ih =>
    intro out f him hk hg
    have hko : k.o = f.oCur := hk k (by simp)
    have hks : ∀ k' ∈ ks, k'.o = f.oCur := fun k' h' => hk k' (by simp [h'])
    rw [keysLoop]
    by_cases ho : vl.orientable f.geo k = true
    · obtain ⟨f1, g, hu, hs, hgo, hgg, hcl⟩ := updateGradient_spec vl p f him hg
      have hor : f.orientations vl k = .ok ((vl.orient f.geo g k).take 4, f1) := by
        rw [Filt.orientations, if_neg (by simp [hko, ho]), hu, Outcome.ok_bind, hgg, hs.1]
      rw [hor, Outcome.ok_bind]
      simp only
      rw [upright_take, anglesLoop_eq vl zero k f1 g (by rw [hs.2.2.1]; exact hko) (by rw [hs.2.2.1]; exact hgo) hgg,
        Outcome.ok_bind]
      simp only
      obtain ⟨out', f', hl, hs', ha, hna, hout⟩ := ih
        ⟨out.keypoints ++ (anglesOut vl zero f1.geo g k ((vl.orient f.geo g k).take (if upright then 1 else 4))).map (·.1),
          out.descriptors ++
            (anglesOut vl zero f1.geo g k ((vl.orient f.geo g k).take (if upright then 1 else 4))).map (·.2)⟩ f1
        (by rw [hs.2.2.2.2.2]; exact him) (by rw [hs.2.2.1]; exact hks) (by rw [hgg]; simp)
      rw [hs.1, hs.2.2.1] at ha hout
      rw [hs.1] at hna
      refine ⟨out', f', hl, hs.trans hs', fun _ => ?_, fun hno => absurd ⟨k, by simp, ho⟩ hno, fun hc => ?_⟩
      · by_cases hex : ∃ k' ∈ ks, vl.orientable f.geo k' = true
        · exact ha hex
        · rw [hna hex]
          exact ⟨hgo, by rw [hgg]; simp⟩
      · have hgv := hcl (hc ⟨k, by simp, ho⟩)
        have hc1 : Clean vl p f1 := by
          intro _
          rw [hgg, hgv, hs.1, hs.2.2.1]
        rw [hout (fun _ => hc1), hgv]
        simp [keysOut, ho]
    · have hor : f.orientations vl k = .ok ([], f) := by
        rw [Filt.orientations, if_pos (by simp [ho])]
      rw [hor, Outcome.ok_bind]
      simp only [List.length_nil, gt_iff_lt, Nat.not_lt_zero, and_false, if_false]
      rw [anglesLoop_nil, Outcome.ok_bind]
      obtain ⟨out', f', hl, hs', ha, hna, hout⟩ := ih out f him hks hg
      have hiff : (∃ k' ∈ k :: ks, vl.orientable f.geo k' = true) ↔ ∃ k' ∈ ks, vl.orientable f.geo k' = true := by
        simp [ho]
      rw [hiff]
      refine ⟨out', f', hl, hs', ha, hna, fun hc => ?_⟩
      rw [hout hc]
      simp [keysOut, ho]

/-- The keypoints that the filter finds in an octave. -/
def keysAt (vl : VL P G D) (f : Filt P G) (p : P) (o : Int) : List VK :=
  ((vl.candidates f.geo p o).filter (passes f.edge f.peak)).map (fun c => ⟨o, c.x, c.y, c.sigma⟩)

/-- The filter finds an orientable keypoint in the octave. -/
def act (vl : VL P G D) (f : Filt P G) (p : P) (o : Int) : Prop :=
  ∃ k ∈ keysAt vl f p o, vl.orientable f.geo k = true

theorem detectOctaves_spec (vl : VL P G D) (zero : D) (upright : Bool) (p : P) (n : Nat) :
    ∀ (out : Out D) (f : Filt P G), f.im = some p → 1 ≤ n → f.oCur + n = f.geo.oMin + f.O → f.geo.oMin ≤ f.oCur →
      (f.gradO < f.geo.oMin ∨ f.grad ≠ none) →
      ∃ out' f', detectOctaves vl zero upright n out f = .ok (out', f') ∧
        f'.geo = f.geo ∧ f'.O = f.O ∧ f'.edge = f.edge ∧ f'.peak = f.peak ∧
        ((f'.gradO = f.gradO ∧ f'.grad = f.grad ∧ ∀ o, f.oCur ≤ o → o < f.geo.oMin + f.O → ¬ act vl f p o) ∨
          (f'.grad ≠ none ∧ LastActive (act vl f p) f.oCur (f.geo.oMin + f.O) f'.gradO)) ∧
        ((∀ o, FirstActive (act vl f p) f.oCur (f.geo.oMin + f.O) o → f.gradO ≠ o) →
          out' = ⟨out.keypoints ++ ((octavesFrom f.oCur n).flatMap (fun o =>
              keysOut vl zero upright f.geo (vl.gradOf f.geo p o) (keysAt vl f p o))).map (·.1),
            out.descriptors ++ ((octavesFrom f.oCur n).flatMap (fun o =>
              keysOut vl zero upright f.geo (vl.gradOf f.geo p o) (keysAt vl f p o))).map (·.2)⟩) := by
  induction n with
  | zero => intro out f _ h; omega
  | succ n ih =>
    intro out f him _ hsum hmin hgrad
    have hdet : f.detect vl = .ok (keysAt vl f p f.oCur) := by
      rw [Filt.detect, him]; rfl
    have hg : f.gradO = f.oCur → f.grad ≠ none := by
      intro h
      rcases hgrad with h' | h'
      · omega
      · exact h'
    obtain ⟨o1, f1, hl, hs, ha, hna, hout⟩ := keysLoop_spec vl zero upright p (keysAt vl f p f.oCur) out f him
      (by
        intro k hk
        simp only [keysAt, List.mem_map] at hk
        obtain ⟨c, _, rfl⟩ := hk
        rfl) hg
    obtain ⟨s1, s2, s3, s4, s5, s6⟩ := hs
    have hlen : ((n + 1 : Nat) : Int) = (n : Int) + 1 := by push_cast; rfl
    -- the octave that the loop has just processed has no keypoint, or the gradient is its own
    have hclean : (∀ o, FirstActive (act vl f p) f.oCur (f.geo.oMin + f.O) o → f.gradO ≠ o) →
        ((∃ k ∈ keysAt vl f p f.oCur, vl.orientable f.geo k = true) → Clean vl p f) := by
      intro hF hact hEq
      exact absurd hEq (hF f.oCur ⟨hact, le_refl _, by omega, fun o' h1 h2 => by omega⟩)
    rw [detectOctaves, hdet, Outcome.ok_bind, hl, Outcome.ok_bind]
    simp only
    by_cases hlast : f.oCur = f.geo.oMin + f.O - 1
    · have hn : n = 0 := by omega
      subst hn
      have hpn : f1.processNext = (false, f1) := by
        rw [Filt.processNext, if_pos (by rw [s3, s1, s2]; exact hlast)]
      rw [hpn]
      simp only [Bool.false_eq_true, if_false]
      refine ⟨o1, f1, rfl, s1, s2, s4, s5, ?_, fun hF => ?_⟩
      · by_cases hex : ∃ k ∈ keysAt vl f p f.oCur, vl.orientable f.geo k = true
        · right
          refine ⟨(ha hex).2, ?_⟩
          rw [(ha hex).1]
          exact ⟨hex, le_refl _, by omega, fun o' h1 h2 => by omega⟩
        · left
          rw [hna hex]
          refine ⟨rfl, rfl, fun o h1 h2 => ?_⟩
          have : o = f.oCur := by omega
          rw [this]
          exact hex
      · rw [hout (hclean hF)]
        simp [octavesFrom]
    · have hpn : f1.processNext = (true, { f1 with oCur := f1.oCur + 1 }) := by
        rw [Filt.processNext, if_neg (by rw [s3, s1, s2]; exact hlast)]
      rw [hpn]
      simp only [if_true]
      have hact : act vl { f1 with oCur := f1.oCur + 1 } p = act vl f p := by
        funext o
        simp only [act, keysAt]
        rw [s1, s4, s5]
      have hkeys : ∀ o, keysAt vl { f1 with oCur := f1.oCur + 1 } p o = keysAt vl f p o := by
        intro o
        simp only [keysAt]
        rw [s1, s4, s5]
      obtain ⟨o2, f2, hl2, g1, g2, g3, g4, hst, hres⟩ := ih o1 { f1 with oCur := f1.oCur + 1 }
        (by simp only; rw [s6]; exact him) (by omega) (by simp only; rw [s1, s2, s3]; omega)
        (by simp only; rw [s1, s3]; omega)
        (by
          simp only
          by_cases hex : ∃ k ∈ keysAt vl f p f.oCur, vl.orientable f.geo k = true
          · exact Or.inr (ha hex).2
          · rw [hna hex]; exact hgrad)
      rw [hact] at hst hres
      simp only [hkeys] at hres
      simp only [s1, s2, s3] at g1 g2 g3 g4 hst hres
      refine ⟨o2, f2, hl2, g1, g2, g3.trans s4, g4.trans s5, ?_, fun hF => ?_⟩
      · rcases hst with ⟨h1, h2, h3⟩ | ⟨h1, h2⟩
        · by_cases hex : ∃ k ∈ keysAt vl f p f.oCur, vl.orientable f.geo k = true
          · right
            refine ⟨by rw [h2]; exact (ha hex).2, ?_⟩
            rw [h1, (ha hex).1]
            exact ⟨hex, le_refl _, by omega, fun o' q1 q2 => h3 o' (by omega) q2⟩
          · left
            rw [hna hex] at h1 h2
            refine ⟨h1, h2, fun o q1 q2 => ?_⟩
            by_cases he : o = f.oCur
            · rw [he]; exact hex
            · exact h3 o (by omega) q2
        · right
          obtain ⟨q1, q2, q3, q4⟩ := h2
          exact ⟨h1, q1, by omega, q3, q4⟩
      · have hF1 : ∀ o, FirstActive (act vl f p) (f.oCur + 1) (f.geo.oMin + f.O) o → f1.gradO ≠ o := by
          rintro o ⟨q1, q2, q3, q4⟩
          by_cases hex : ∃ k ∈ keysAt vl f p f.oCur, vl.orientable f.geo k = true
          · rw [(ha hex).1]; omega
          · rw [hna hex]
            refine hF o ⟨q1, by omega, q3, fun o' h1 h2 => ?_⟩
            by_cases he : o' = f.oCur
            · rw [he]; exact hex
            · exact q4 o' (by omega) h2
        rw [hres hF1, hout (hclean hF)]
        simp [octavesFrom]

theorem octaves_nonneg (p : Params) (img : Img P) : 0 ≤ siftOctaves p img := by
  unfold siftOctaves
  split
  · assumption
  · split
    · omega
    · exact le_trans (by decide) (le_max_right _ _)

theorem newFilter_spec (p : Params) (b : Bool) (img : Img P) :
    (newFilter p b img : Filt P G).geo = siftGeo p img ∧ (newFilter p b img : Filt P G).O = siftOctaves p img ∧
    (newFilter p b img : Filt P G).gradO = (siftGeo p img).oMin - 1 ∧
    (newFilter p true img : Filt P G).edge = p.edge ∧ (newFilter p true img : Filt P G).peak = p.peak := by
  have hO : (Filt.new img.width img.height p.numOctaves p.numLevels
      (validFirstOctave p.firstOctave img.height img.width) : Filt P G).O = siftOctaves p img := by
    simp only [Filt.new, siftOctaves, siftGeo]
    by_cases h : p.numOctaves < 0
    · rw [if_pos h, if_neg (show ¬ 0 ≤ p.numOctaves by omega)]
      have : min img.width img.height = 0 ↔ (img.width = 0 ∨ img.height = 0) := by omega
      simp only [this]
    · rw [if_neg h, if_pos (by omega)]
  cases b
  · exact ⟨rfl, hO, rfl, rfl, rfl⟩
  · exact ⟨rfl, hO, rfl, rfl, rfl⟩

theorem keysAt_eq (vl : VL P G D) (p : Params) (img : Img P) (f : Filt P G) (hg : f.geo = siftGeo p img)
    (he : f.edge = p.edge) (hp : f.peak = p.peak) (o : Int) : keysAt vl f img.pixels o = found vl p img o := by
  simp only [keysAt, found]
  rw [hg, he, hp]
  congr 2
  funext c
  exact passes_eq _ _ _

theorem act_eq (vl : VL P G D) (p : Params) (img : Img P) (f : Filt P G) (hg : f.geo = siftGeo p img)
    (he : f.edge = p.edge) (hp : f.peak = p.peak) : act vl f img.pixels = Active vl p img := by
  funext o
  simp only [act, Active, keysAt_eq vl p img f hg he hp, hg]

theorem keysOut_eq (vl : VL P G D) (zero : D) (p : Params) (img : Img P) (o : Int) :
    keysOut vl zero p.upright (siftGeo p img) (vl.gradOf (siftGeo p img) img.pixels o) (found vl p img o) =
      featuresOf vl zero p img o := by
  simp only [keysOut, featuresOf]
  refine List.flatMap_congr fun k hk => ?_
  have hko : k.o = o := by
    have := List.mem_of_mem_filter hk
    simp only [found, List.mem_map] at this
    obtain ⟨c, _, rfl⟩ := this
    rfl
  simp only [anglesOut]
  refine List.map_congr_left fun a _ => ?_
  rw [feature, hko]

theorem rootAll_eq (root : D → D) (hasNaN : D → Bool) (p : Params) (out : Out D) (fs : List (Kp × D)) :
    (rootAll root hasNaN p (out.descriptors ++ fs.map (·.2)) >>= fun ds =>
      (Outcome.ok ⟨out.keypoints ++ fs.map (·.1), ds⟩ : Outcome (Out D))) = extracted root hasNaN p out fs := by
  unfold rootAll extracted
  by_cases hr : p.rootSift = true
  · rw [if_pos hr, if_pos hr]
    by_cases h : ∃ d ∈ out.descriptors ++ fs.map (·.2), hasNaN (root d) = true
    · rw [if_pos h, if_pos]
      · rfl
      · obtain ⟨d, hd, hn⟩ := h
        simp only [List.any_eq_true]
        exact ⟨root d, List.mem_map_of_mem hd, hn⟩
    · rw [if_neg h, if_neg]
      · rfl
      · intro hany
        simp only [List.any_eq_true] at hany
        obtain ⟨e, he, hn⟩ := hany
        obtain ⟨d, hd, rfl⟩ := List.mem_map.1 he
        exact h ⟨d, hd, hn⟩
  · rw [if_neg hr, if_neg hr]
    rfl

/-- The state of the extractor that is relevant for the next call. -/
def Fits (vl : VL P G D) (p : Params) (imgs : List (Img P)) (f : Filt P G) : Prop :=
  f.edge = p.edge ∧ f.peak = p.peak ∧ (∃ img : Img P, f.geo = siftGeo p img ∧ f.O = siftOctaves p img) ∧
  (f.gradO < f.geo.oMin ∨ (f.grad ≠ none ∧ ∃ img ∈ imgs, f.geo = siftGeo p img ∧ LastOctave vl p img f.gradO))

theorem Fits.mono {vl : VL P G D} {p : Params} {imgs : List (Img P)} {f : Filt P G} (h : Fits vl p imgs f)
    (img : Img P) : Fits vl p (imgs ++ [img]) f := by
  obtain ⟨h1, h2, h3, h4⟩ := h
  refine ⟨h1, h2, h3, h4.imp id ?_⟩
  rintro ⟨h5, a, ha, h6⟩
  exact ⟨h5, a, by simp [ha], h6⟩

theorem siftGeo_eq {p : Params} {a b : Img P} (hw : a.width = b.width) (hh : a.height = b.height) :
    siftGeo p a = siftGeo p b := by
  simp only [siftGeo, hw, hh]

theorem siftOctaves_eq {p : Params} {a b : Img P} (hw : a.width = b.width) (hh : a.height = b.height) :
    siftOctaves p a = siftOctaves p b := by
  simp only [siftOctaves, siftGeo, hw, hh]

theorem filterFor_spec (vl : VL P G D) (p : Params) (imgs : List (Img P)) (st : Option (Filt P G)) (img : Img P)
    (hst : ∀ f, st = some f → Fits vl p imgs f) :
    Fits vl p imgs (filterFor p true st img) ∧ (filterFor p true st img).geo = siftGeo p img ∧
      (filterFor p true st img).O = siftOctaves p img := by
  have hnew : Fits vl p imgs (newFilter p true img : Filt P G) := by
    obtain ⟨h1, h2, h3, h4, h5⟩ := newFilter_spec (G := G) p true img
    exact ⟨h4, h5, ⟨img, h1, h2⟩, Or.inl (by rw [h3, h1]; omega)⟩
  have hn := newFilter_spec (G := G) p true img
  unfold filterFor
  cases st with
  | none => exact ⟨hnew, hn.1, hn.2.1⟩
  | some f =>
    simp only
    split
    · exact ⟨hnew, hn.1, hn.2.1⟩
    · rename_i hsz
      have hf := hst f rfl
      obtain ⟨_, _, ⟨a, ha, hO⟩, _⟩ := hf
      have hw : a.width = img.width := by
        have : f.geo.width = a.width := by rw [ha]; rfl
        omega
      have hh : a.height = img.height := by
        have : f.geo.height = a.height := by rw [ha]; rfl
        omega
      exact ⟨hst f rfl, by rw [ha, siftGeo_eq hw hh], by rw [hO, siftOctaves_eq hw hh]⟩

/-- One call, from a state that earlier calls can leave. -/
theorem detect_spec (vl : VL P G D) (root : D → D) (hasNaN : D → Bool) (zero : D) (p : Params)
    (imgs : List (Img P)) (st : Option (Filt P G)) (img : Img P) (out : Out D)
    (hst : ∀ f, st = some f → Fits vl p imgs f) :
    (∀ r st', detectAndExtract vl root hasNaN zero p st img out = .ok (r, st') →
      ∃ f', st' = some f' ∧ Fits vl p (imgs ++ [img]) f') ∧
    ((∀ a ∈ imgs, a.width = img.width → a.height = img.height → ∀ o, LastOctave vl p a o →
        ¬ FirstOctave vl p img o) →
      (detectAndExtract vl root hasNaN zero p st img out >>= fun r => .ok r.1) =
        extracted root hasNaN p out (features vl zero p img)) := by
  obtain ⟨hfit, hgeo, hO⟩ := filterFor_spec vl p imgs st img hst
  obtain ⟨f, hf⟩ : ∃ f, f = filterFor p true st img := ⟨_, rfl⟩
  rw [← hf] at hfit hgeo hO
  obtain ⟨he, hp, _, hgr⟩ := hfit
  have hnn := octaves_nonneg p img
  unfold detectAndExtract
  rw [← hf]
  simp only
  by_cases hz : siftOctaves p img = 0
  · have hpf : f.processFirst img.pixels = (false, { f with oCur := f.geo.oMin }) := by
      rw [Filt.processFirst, if_pos (by rw [hO]; exact hz)]
    rw [hpf]
    simp only [Bool.false_eq_true, if_false, Outcome.ok_bind]
    constructor
    · intro r st' h
      rw [Outcome.bind_eq_ok] at h
      obtain ⟨ds, _, h⟩ := h
      simp only [Outcome.ok.injEq, Prod.mk.injEq] at h
      refine ⟨_, h.2.symm, ?_⟩
      exact Fits.mono (f := { f with oCur := f.geo.oMin }) ⟨he, hp, ⟨img, hgeo, hO⟩, hgr⟩ img
    · intro _
      rw [← rootAll_eq]
      have : features vl zero p img = [] := by simp [features, hz, octavesFrom]
      rw [this]
      simp only [List.map_nil, List.append_nil]
      cases rootAll root hasNaN p out.descriptors <;> rfl
  · have hpf : f.processFirst img.pixels = (true, { f with oCur := f.geo.oMin, im := some img.pixels }) := by
      rw [Filt.processFirst, if_neg (by rw [hO]; exact hz)]
    rw [hpf]
    simp only [if_true]
    obtain ⟨f0, hf0⟩ : ∃ f0 : Filt P G, f0 = { f with oCur := f.geo.oMin, im := some img.pixels } := ⟨_, rfl⟩
    rw [← hf0]
    have g0 : f0.geo = siftGeo p img := by rw [hf0]; exact hgeo
    have O0 : f0.O = siftOctaves p img := by rw [hf0]; exact hO
    have e0 : f0.edge = p.edge := by rw [hf0]; exact he
    have p0 : f0.peak = p.peak := by rw [hf0]; exact hp
    have c0 : f0.oCur = (siftGeo p img).oMin := by rw [hf0]; simp only [hgeo]
    have r0 : f0.gradO = f.gradO := by rw [hf0]
    have d0 : f0.grad = f.grad := by rw [hf0]
    obtain ⟨o1, f1, hl, k1, k2, k3, k4, hst1, hres⟩ := detectOctaves_spec vl zero p.upright img.pixels f.O.toNat out f0
      (by rw [hf0]) (by rw [hO]; omega) (by rw [c0, g0, O0, hO]; omega) (by rw [c0, g0])
      (by rw [r0, d0, g0, ← hgeo]; exact hgr.imp id (fun h => h.1))
    rw [act_eq vl p img f0 g0 e0 p0, c0, g0, O0] at hst1 hres
    rw [hO] at hres hl
    rw [hO, hl, Outcome.ok_bind]
    constructor
    · intro r st' h
      rw [Outcome.bind_eq_ok] at h
      obtain ⟨ds, _, h⟩ := h
      simp only [Outcome.ok.injEq, Prod.mk.injEq] at h
      refine ⟨f1, h.2.symm, k3.trans e0, k4.trans p0, ⟨img, k1.trans g0, k2.trans O0⟩, ?_⟩
      rcases hst1 with ⟨q1, q2, _⟩ | ⟨q1, q2⟩
      · rw [q1, q2, r0, d0, k1, g0, ← hgeo]
        refine hgr.imp id ?_
        rintro ⟨h5, a, ha, h6⟩
        exact ⟨h5, a, by simp [ha], h6⟩
      · exact Or.inr ⟨q1, img, by simp, k1.trans g0, q2⟩
    · intro hsep
      have hfirst : ∀ o, FirstActive (Active vl p img) (siftGeo p img).oMin
          ((siftGeo p img).oMin + siftOctaves p img) o → f0.gradO ≠ o := by
        intro o ho heq
        rw [r0] at heq
        rcases hgr with h | ⟨_, a, ha, hag, hlast⟩
        · have := ho.2.1
          rw [hgeo] at h
          omega
        · have hw : a.width = img.width := by
            have h1 : f.geo.width = a.width := by rw [hag]; rfl
            have h2 : f.geo.width = img.width := by rw [hgeo]; rfl
            omega
          have hh : a.height = img.height := by
            have h1 : f.geo.height = a.height := by rw [hag]; rfl
            have h2 : f.geo.height = img.height := by rw [hgeo]; rfl
            omega
          exact hsep a ha hw hh o (heq ▸ hlast) ho
      rw [hres hfirst, ← rootAll_eq]
      simp only [keysAt_eq vl p img f0 g0 e0 p0, keysOut_eq]
      show _ = (rootAll root hasNaN p (out.descriptors ++ (features vl zero p img).map (·.2)) >>= _)
      unfold features
      cases rootAll root hasNaN p _ <;> rfl

theorem extracted_fits (vl : VL P G D) (root : D → D) (hasNaN : D → Bool) (zero : D) (p : Params)
    {imgs : List (Img P)} {st : Option (Filt P G)} (h : Extracted vl root hasNaN zero p imgs st) :
    ∀ f, st = some f → Fits vl p imgs f := by
  induction h with
  | new => intro f hf; cases hf
  | call hprev hcall ih =>
    intro f hf
    obtain ⟨f', hf', hfit⟩ := (detect_spec vl root hasNaN zero p _ _ _ _ ih).1 _ _ hcall
    rw [hf] at hf'
    cases hf'
    exact hfit

end Desc
end Theia
