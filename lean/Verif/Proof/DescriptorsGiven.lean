import Verif.Proof.Descriptors

/-!
# Proofs about descriptors at given keypoints, and about the first octave
-/

namespace Theia
namespace Desc

open Spec.Descr

variable {P G D : Type}

theorem validLoop_spec (x : ℚ) (o : Int) :
    ∃ k : Nat, validLoop x o = o + k ∧ x / 2 ^ k < 3600 ∧ ∀ j < k, 3600 ≤ x / 2 ^ j := by
  induction x, o using validLoop.induct with
  | case1 x o h ih =>
    obtain ⟨k, h1, h2, h3⟩ := ih
    refine ⟨k + 1, ?_, ?_, ?_⟩
    · rw [validLoop, dif_pos h, h1]; push_cast; omega
    · rw [pow_succ', ← div_div]; exact h2
    · intro j hj
      cases j with
      | zero => simpa using h
      | succ j => rw [pow_succ', ← div_div]; exact h3 j (by omega)
  | case2 x o h =>
    refine ⟨0, ?_, by simpa using h, by omega⟩
    rw [validLoop, dif_neg h]; simp

theorem zpow_shift (o : Int) (k : Nat) : (2 : ℚ) ^ (-(o + k)) = 2 ^ (-1 * o) / 2 ^ k := by
  rw [neg_one_mul, neg_add, zpow_add₀ (by norm_num), div_eq_mul_inv, ← zpow_natCast, ← zpow_neg]

theorem advance_eq (o : Int) (n : Nat) : ∀ f : Filt P G, f.oCur + n = o → o ≤ f.geo.oMin + f.O - 1 →
    advance o n f = .ok { f with oCur := o } := by
  induction n with
  | zero =>
    intro f h _
    have : f.oCur = o := by omega
    rw [advance, if_pos this, ← this]
  | succ n ih =>
    intro f h hle
    have hp : f.processNext.2 = { f with oCur := f.oCur + 1 } := by
      rw [Filt.processNext, if_neg (by omega)]
    rw [advance, if_neg (by omega), hp, ih _ (by simp only; omega) (by simp only; exact hle)]

theorem computeDescriptor_given (vl : VL P G D) (root : D → D) (p : Params) (st : Option (Filt P G)) (img : Img P)
    (k : Kp) (junk : D) (s a : ℚ) (hs : k.scale = some s) (ha : k.orientation = some a) (f : Filt P G)
    (hf : filterFor p false st img = f) (hg : f.geo = siftGeo p img) (hO : f.O = siftOctaves p img)
    (hO0 : siftOctaves p img ≠ 0)
    (gr : G) (hgr : (if f.gradO = octaveFor vl p img s then f.grad
      else some (vl.gradOf (siftGeo p img) img.pixels (octaveFor vl p img s))) = some gr) :
    (vl.describable (siftGeo p img) ⟨octaveFor vl p img s, k.x, k.y, s⟩ = true →
      ∃ f', computeDescriptor vl root p st img k junk =
        .ok (toRoot root p (vl.describe (siftGeo p img) gr ⟨octaveFor vl p img s, k.x, k.y, s⟩ a), some f') ∧
        f'.geo = f.geo ∧ f'.O = f.O ∧ f'.gradO = octaveFor vl p img s ∧ f'.grad = some gr) ∧
    (vl.describable (siftGeo p img) ⟨octaveFor vl p img s, k.x, k.y, s⟩ = false →
      ∃ f', computeDescriptor vl root p st img k junk = .ok (toRoot root p junk, some f')) := by
  have hnn := octaves_nonneg p img
  have hvk : f.keypointInit vl k.x k.y s = ⟨octaveFor vl p img s, k.x, k.y, s⟩ := by
    rw [Filt.keypointInit, octaveFor, hg, hO]
  have hpf : f.processFirst img.pixels = (true, { f with oCur := f.geo.oMin, im := some img.pixels }) := by
    rw [Filt.processFirst, if_neg (by rw [hO]; exact hO0)]
  have hlo : f.geo.oMin ≤ octaveFor vl p img s := by rw [hg]; exact le_max_right _ _
  have hhi : octaveFor vl p img s ≤ f.geo.oMin + f.O - 1 := by
    rw [hg, hO, octaveFor]
    refine max_le (min_le_right _ _) (by omega)
  have hadv := advance_eq (octaveFor vl p img s) (octaveFor vl p img s - f.geo.oMin).toNat
    { f with oCur := f.geo.oMin, im := some img.pixels } (by simp only; omega) hhi
  have hcomp : computeDescriptor vl root p st img k junk =
      ((({ f with oCur := octaveFor vl p img s, im := some img.pixels } : Filt P G).descriptor vl
        ⟨octaveFor vl p img s, k.x, k.y, s⟩ a) >>= fun r => match r.1 with
          | none => .ok (toRoot root p junk, some r.2)
          | some d => .ok (toRoot root p d, some r.2)) := by
    unfold computeDescriptor
    rw [hs, ha]
    simp only
    rw [hf, hvk, hpf]
    simp only
    rw [hadv, Outcome.ok_bind, if_neg (by simp)]
    rfl
  rw [hcomp]
  constructor
  · intro hd
    unfold Filt.descriptor
    rw [if_neg (by simp only [hg, hd]; simp)]
    unfold Filt.updateGradient
    simp only
    by_cases he : f.gradO = octaveFor vl p img s
    · rw [if_pos he] at hgr ⊢
      simp only [Outcome.ok_bind, hgr, hg]
      exact ⟨_, rfl, rfl, rfl, he, rfl⟩
    · rw [if_neg he] at hgr ⊢
      simp only [Option.some.injEq] at hgr
      subst hgr
      simp only [Outcome.ok_bind, hg]
      exact ⟨_, rfl, rfl, rfl, rfl, rfl⟩
  · intro hd
    unfold Filt.descriptor
    rw [if_pos (by simp only [hg, hd]; simp)]
    exact ⟨_, rfl⟩

/-- One keypoint's entry after the octaves `lo` up to before `hi`. -/
def entry (vl : VL P G D) (geo : Geo) (p : P) (lo hi : Int) (ka : VK × ℚ) (d : D) : D :=
  if lo ≤ ka.1.o ∧ ka.1.o < hi ∧ vl.describable geo ka.1 = true then
    vl.describe geo (vl.gradOf geo p ka.1.o) ka.1 ka.2
  else d

theorem describeAll_spec (vl : VL P G D) (p : P) (ks : List (VK × ℚ)) : ∀ (ds : List D) (f : Filt P G),
    f.im = some p → Clean vl p f → ds.length = ks.length →
    ∃ f', describeAll vl ks ds f =
        .ok (List.zipWith (entry vl f.geo p f.oCur (f.oCur + 1)) ks ds, f') ∧ Same f f' ∧ Clean vl p f' ∧
      (f'.gradO = f.gradO ∨ f'.gradO = f.oCur) := by
  induction ks with
  | nil =>
    intro ds f him hc hl
    cases ds with
    | nil => exact ⟨f, rfl, Same.refl f, hc, Or.inl rfl⟩
    | cons d ds => simp at hl
  | cons ka ks ih =>
    intro ds f him hc hl
    obtain ⟨k, a⟩ := ka
    cases ds with
    | nil => simp at hl
    | cons d ds =>
      have hl' : ds.length = ks.length := by simpa using hl
      rw [describeAll]
      by_cases hk : k.o = f.oCur
      · rw [if_neg (by simp [hk])]
        by_cases hd : vl.describable f.geo k = true
        · obtain ⟨f1, g, hu, hs, hgo, hgg, hcl⟩ := updateGradient_spec vl p f him (by
            intro h
            rw [hc h]; simp)
          have hde : f.descriptor vl k a = .ok (some (vl.describe f.geo g k a), f1) := by
            rw [Filt.descriptor, if_neg (by simp [hk, hd]), hu, Outcome.ok_bind, hgg, hs.1]
          have hgv := hcl hc
          have hc1 : Clean vl p f1 := by
            intro _
            rw [hgg, hgv, hs.1, hs.2.2.1]
          obtain ⟨f', h1, h2, h3, h4⟩ := ih ds f1 (by rw [hs.2.2.2.2.2]; exact him) hc1 hl'
          rw [hs.1, hs.2.2.1] at h1
          rw [hde, Outcome.ok_bind]
          simp only
          rw [h1, Outcome.ok_bind]
          refine ⟨f', ?_, hs.trans h2, h3, ?_⟩
          · simp [entry, hk, hd, hgv]
          · right
            rcases h4 with h4 | h4
            · rw [h4, hgo]
            · rw [h4, hs.2.2.1]
        · have hde : f.descriptor vl k a = .ok (none, f) := by
            rw [Filt.descriptor, if_pos (by simp [hd])]
          obtain ⟨f', h1, h2, h3, h4⟩ := ih ds f him hc hl'
          rw [hde, Outcome.ok_bind]
          simp only
          rw [h1, Outcome.ok_bind]
          exact ⟨f', by simp [entry, hd], h2, h3, h4⟩
      · rw [if_pos hk]
        obtain ⟨f', h1, h2, h3, h4⟩ := ih ds f him hc hl'
        rw [h1, Outcome.ok_bind]
        refine ⟨f', ?_, h2, h3, h4⟩
        have : ¬ (f.oCur ≤ k.o ∧ k.o < f.oCur + 1 ∧ vl.describable f.geo k = true) := by
          rintro ⟨q1, q2, _⟩
          exact hk (by omega)
        simp [entry, this]

theorem zipWith_zipWith {α β : Type} (g1 g2 g3 : α → β → β) (h : ∀ a b, g2 a (g1 a b) = g3 a b) (as : List α) :
    ∀ bs, List.zipWith g2 as (List.zipWith g1 as bs) = List.zipWith g3 as bs := by
  induction as with
  | nil => intro bs; simp
  | cons a as ih =>
    intro bs
    cases bs with
    | nil => simp
    | cons b bs => simp [h, ih]

theorem describeOctaves_spec (vl : VL P G D) (p : P) (ks : List (VK × ℚ)) (n : Nat) :
    ∀ (ds : List D) (f : Filt P G), f.im = some p → f.gradO < f.oCur → ds.length = ks.length → 1 ≤ n →
      f.oCur + n = f.geo.oMin + f.O →
      ∃ f', describeOctaves vl ks n ds f =
        .ok (List.zipWith (entry vl f.geo p f.oCur (f.geo.oMin + f.O)) ks ds, f') := by
  induction n with
  | zero => intro ds f _ _ _ h; omega
  | succ n ih =>
    intro ds f him hgo hl _ hsum
    obtain ⟨f1, h1, hs, hc, hg1⟩ := describeAll_spec vl p ks ds f him (fun h => by omega) hl
    obtain ⟨s1, s2, s3, s4, s5, s6⟩ := hs
    rw [describeOctaves, h1, Outcome.ok_bind]
    simp only
    by_cases hlast : f.oCur = f.geo.oMin + f.O - 1
    · have hpn : f1.processNext = (false, f1) := by
        rw [Filt.processNext, if_pos (by rw [s3, s1, s2]; exact hlast)]
      rw [hpn]
      simp only [Bool.false_eq_true, if_false]
      refine ⟨f1, ?_⟩
      have : f.oCur + 1 = f.geo.oMin + f.O := by omega
      rw [this]
    · have hpn : f1.processNext = (true, { f1 with oCur := f1.oCur + 1 }) := by
        rw [Filt.processNext, if_neg (by rw [s3, s1, s2]; exact hlast)]
      rw [hpn]
      simp only [if_true]
      obtain ⟨f', h2⟩ := ih (List.zipWith (entry vl f.geo p f.oCur (f.oCur + 1)) ks ds)
        { f1 with oCur := f1.oCur + 1 } (by simp only; rw [s6]; exact him)
        (by simp only; rw [s3]; omega) (by simp [hl]) (by omega)
        (by simp only; rw [s1, s2, s3]; push_cast at hsum; omega)
      rw [h2]
      refine ⟨f', ?_⟩
      simp only [s1, s2, s3]
      rw [zipWith_zipWith _ _ (entry vl f.geo p f.oCur (f.geo.oMin + f.O))]
      rintro ⟨k, a⟩ d
      simp only [entry]
      by_cases hd : vl.describable f.geo k = true
      · simp only [hd, and_true]
        by_cases q1 : f.oCur + 1 ≤ k.o ∧ k.o < f.geo.oMin + f.O
        · rw [if_pos q1, if_pos (by omega)]
        · rw [if_neg q1]
          by_cases q2 : f.oCur ≤ k.o ∧ k.o < f.oCur + 1
          · rw [if_pos q2, if_pos (by omega)]
          · rw [if_neg q2, if_neg (by omega)]
      · simp [hd]

theorem initAll_spec (vl : VL P G D) (p : Params) (img : Img P) (f : Filt P G) (hg : f.geo = siftGeo p img)
    (hO : f.O = siftOctaves p img) (ks : List Kp)
    (hk : ∀ k ∈ ks, k.scale ≠ none ∧ k.orientation ≠ none) :
    ∃ vks, initAll vl f ks = .ok vks ∧ vks.length = ks.length ∧
      ∀ (i : Nat) k s a, ks[i]? = some k → k.scale = some s → k.orientation = some a →
        vks[i]? = some (⟨octaveFor vl p img s, k.x, k.y, s⟩, a) := by
  induction ks with
  | nil => exact ⟨[], rfl, rfl, by intro i k s a h; simp at h⟩
  | cons k ks ih =>
    obtain ⟨vks, h1, h2, h3⟩ := ih (fun k' h' => hk k' (by simp [h']))
    obtain ⟨s, hs⟩ := Option.ne_none_iff_exists'.1 (hk k (by simp)).1
    obtain ⟨a, ha⟩ := Option.ne_none_iff_exists'.1 (hk k (by simp)).2
    refine ⟨(f.keypointInit vl k.x k.y s, a) :: vks, ?_, by simp [h2], ?_⟩
    · rw [initAll, hs, ha]
      simp only
      rw [h1, Outcome.ok_bind]
    · intro i k' s' a' hi hs' ha'
      cases i with
      | zero =>
        simp only [List.getElem?_cons_zero, Option.some.injEq] at hi
        subst hi
        rw [hs] at hs'
        rw [ha] at ha'
        cases hs'
        cases ha'
        simp only [List.getElem?_cons_zero, Filt.keypointInit, octaveFor, hg, hO]
      | succ i =>
        simp only [List.getElem?_cons_succ] at hi ⊢
        exact h3 i k' s' a' hi hs' ha'

theorem initAll_abort (vl : VL P G D) (f : Filt P G) (ks : List Kp)
    (hk : ∃ k ∈ ks, k.scale = none ∨ k.orientation = none) : initAll vl f ks = .abort := by
  induction ks with
  | nil => obtain ⟨k, h, _⟩ := hk; cases h
  | cons k ks ih =>
    by_cases hself : k.scale = none ∨ k.orientation = none
    · rw [initAll]
      cases hs : k.scale with
      | none => rfl
      | some s =>
        cases ha : k.orientation with
        | none => rfl
        | some a => simp [hs, ha] at hself
    · have hrest : ∃ k ∈ ks, k.scale = none ∨ k.orientation = none := by
        obtain ⟨k', h1, h2⟩ := hk
        rcases List.mem_cons.1 h1 with rfl | h1
        · exact absurd h2 hself
        · exact ⟨k', h1, h2⟩
      rw [initAll]
      cases hs : k.scale with
      | none => rfl
      | some s =>
        cases ha : k.orientation with
        | none => rfl
        | some a => simp only; rw [ih hrest]; rfl

theorem resize_length (n : Nat) (junk : D) (ds : List D) : (resize n junk ds).length = n := by
  simp only [resize, List.length_append, List.length_take, List.length_replicate]
  omega

theorem resize_get (n : Nat) (junk : D) (ds : List D) (i : Nat) (h : i < n) :
    (resize n junk ds)[i]? = some (match ds[i]? with | some d => d | none => junk) := by
  unfold resize
  by_cases hi : i < ds.length
  · rw [List.getElem?_append_left (by simp; omega), List.getElem?_take_of_lt h, List.getElem?_eq_getElem hi]
  · rw [List.getElem?_append_right (by simp; omega), List.getElem?_eq_none (by omega : ds.length ≤ i)]
    rw [List.getElem?_replicate, if_pos]
    simp only [List.length_take]
    omega

end Desc
end Theia
