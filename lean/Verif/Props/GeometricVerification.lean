import Verif.Proof.GeometricVerification
import Mathlib.Data.List.Perm.Subperm

/-!
# C35: geometric verification of the matches of an image pair
-/

namespace Theia

open Verification

variable {F C P I : Type}

open Classical in
/-- What bundle adjustment leaves. -/
theorem bundleAdjust_ok {e : Env F C P I} (hkeep : Spec.KeepsPoints e) {kps1 kps2 : List F} {c1 c2 : C} {info : I}
    {ms ms' : List Match} {info' : I} (h : bundleAdjust e kps1 kps2 c1 c2 info ms = .ok (some (ms', info'))) :
    ∃ cs tri points c1' c2' points', List.Forall₂ (Spec.IsCorrespondence kps1 kps2) ms cs ∧
      tri = cs.filter (fun f => decide (∃ p, Spec.Triangulates e c1 c2 f p)) ∧
      asSize e.minInliers ≤ tri.length ∧
      List.Forall₂ (Spec.Triangulates e c1 c2) tri points ∧
      e.adjust tri c1 c2 points = some (c1', c2', points') ∧ points'.length = tri.length ∧
      info' = e.updateInfo info c1' c2' ∧
      List.Forall₂ (Spec.IsCorrespondence kps1 kps2) ms'
        (((tri.zip points').filter
          (fun x => e.acceptFinal c1' x.1.1 x.2 && e.acceptFinal c2' x.1.2 x.2)).map Prod.fst) := by
  unfold bundleAdjust at h
  split at h
  · cases h
  · cases h
  · rename_i rs ps ht
    obtain ⟨cs, h1, h2, h3, h4, h5⟩ := triangulatePoints_ok ht
    split at h
    · cases h
    · rename_i hmin
      have hcs : correspondences kps1 kps2 rs =
          .ok (cs.filter (fun f => decide (∃ p, Spec.Triangulates e c1 c2 f p))) := correspondences_eq h4
      rw [hcs] at h
      simp only at h
      split at h
      · cases h
      · rename_i c1' c2' points' hadj
        have hl := hkeep _ _ _ _ _ _ _ hadj
        split at h
        · cases h
        · cases h
        · rename_i ms'' hfin
          simp only [Outcome.ok.injEq, Option.some.injEq, Prod.mk.injEq] at h
          obtain ⟨rfl, rfl⟩ := h
          have hlen := h4.length_eq
          refine ⟨cs, _, ps, c1', c2', points', h1, rfl, by omega, h5, hadj, by omega, rfl, ?_⟩
          have := finalLoop_ok (kps1 := kps1) (kps2 := kps2) hfin (by omega) (by simpa using h4)
          simpa using this

open Classical in
/-- If verification of a match succeeds, for any minimum that fits an `int`, there are more verified
correspondences than the minimum, their number is reported, and they are obtained as follows. A relative pose
was estimated from all given matches; the matches kept are those at the inlier positions, of which there were
at least the minimum. If guided matching is enabled, it succeeded on these and its matches are used instead.
If bundle adjustment is disabled, the verified correspondences are those of these matches and the info is the
estimated one. If it is enabled, it succeeded on exactly those of these correspondences that have enough
triangulation angle, can be triangulated, and have small reprojection errors in both views, and the verified
ones are exactly those with small reprojection errors of the adjusted point in both adjusted cameras, from
which the info is updated. -/
theorem C35_verified {e : Env F C P I} (hkeep : Spec.KeepsPoints e) (hmin0 : 0 ≤ e.minInliers)
    (hmin1 : e.minInliers < 2 ^ 31) {kps1 kps2 : List F} {ms : List Match} {r : Result F I}
    (h : verifyMatches e kps1 kps2 ms = .ok (some r)) :
    e.minInliers < r.verified.length ∧ r.numVerified = r.verified.length ∧
    ∃ corrs info inliers kept used cs,
      List.Forall₂ (Spec.IsCorrespondence kps1 kps2) ms corrs ∧
      e.estimate corrs = some (info, inliers) ∧ e.minInliers ≤ inliers.length ∧
      List.Forall₂ (fun i m => ms[i]? = some m) inliers kept ∧
      (e.guidedMatching = false → used = kept) ∧
      (e.guidedMatching = true → e.guided (e.setup info).1 (e.setup info).2 kept = .ok (some used)) ∧
      List.Forall₂ (Spec.IsCorrespondence kps1 kps2) used cs ∧
      (e.bundleAdjustment = false → r.verified = cs ∧ r.info = info) ∧
      (e.bundleAdjustment = true → ∃ tri points c1 c2 points',
        tri = cs.filter (fun f => decide (∃ p, Spec.Triangulates e (e.setup info).1 (e.setup info).2 f p)) ∧
        List.Forall₂ (Spec.Triangulates e (e.setup info).1 (e.setup info).2) tri points ∧
        e.adjust tri (e.setup info).1 (e.setup info).2 points = some (c1, c2, points') ∧
        points'.length = tri.length ∧
        r.verified = ((tri.zip points').filter
          (fun x => decide (Spec.Fits e c1 c2 x.1 x.2))).map Prod.fst ∧
        r.info = e.updateInfo info c1 c2) := by
  have hsize := asSize_of_nonneg hmin0 hmin1
  have key : ∀ {c1 c2 : C} {info : I} {used : List Match}, finish e kps1 kps2 c1 c2 info used = .ok (some r) →
      e.minInliers < r.verified.length ∧ r.numVerified = r.verified.length ∧
      ∃ cs, List.Forall₂ (Spec.IsCorrespondence kps1 kps2) used cs ∧
        (e.bundleAdjustment = false → r.verified = cs ∧ r.info = info) ∧
        (e.bundleAdjustment = true → ∃ tri points c1' c2' points',
          tri = cs.filter (fun f => decide (∃ p, Spec.Triangulates e c1 c2 f p)) ∧
          List.Forall₂ (Spec.Triangulates e c1 c2) tri points ∧
          e.adjust tri c1 c2 points = some (c1', c2', points') ∧
          points'.length = tri.length ∧
          r.verified = ((tri.zip points').filter
            (fun x => decide (Spec.Fits e c1' c2' x.1 x.2))).map Prod.fst ∧
          r.info = e.updateInfo info c1' c2') := by
    intro c1 c2 info used h
    unfold finish at h
    by_cases hba : e.bundleAdjustment = true ∧ used.length > asSize e.minInliers
    · simp only [hba.1, hba.2, decide_true, Bool.and_self, if_true] at h
      split at h
      · cases h
      · cases h
      · cases h
      · rename_i ms' info' hadj
        obtain ⟨cs, tri, points, c1', c2', points', h1, h2, h3, h4, h5, h6, h7, h8⟩ := bundleAdjust_ok hkeep hadj
        rw [correspondences_eq h8] at h
        simp only at h
        split at h
        · rename_i hlen
          simp only [Outcome.ok.injEq, Option.some.injEq] at h
          subst h
          refine ⟨by simp only; omega, rfl, cs, h1, by simp [hba.1], fun _ => ?_⟩
          refine ⟨tri, points, c1', c2', points', h2, h4, h5, h6, ?_, h7⟩
          simp only
          congr 1
          apply List.filter_congr
          intro x _
          unfold Spec.Fits
          cases e.acceptFinal c1' x.1.1 x.2 <;> cases e.acceptFinal c2' x.1.2 x.2 <;> simp
        · cases h
    · have hcond : (e.bundleAdjustment && decide (used.length > asSize e.minInliers)) = false := by
        rw [Bool.eq_false_iff]
        simpa using hba
      simp only [hcond, Bool.false_eq_true, if_false] at h
      split at h
      · cases h
      · cases h
      · rename_i cs hcs
        have hcs' := correspondences_ok hcs
        split at h
        · rename_i hlen
          simp only [Outcome.ok.injEq, Option.some.injEq] at h
          subst h
          have hl := hcs'.length_eq
          refine ⟨by simp only; omega, rfl, cs, hcs', fun _ => ⟨rfl, rfl⟩, fun hb => ?_⟩
          exact absurd ⟨hb, by omega⟩ hba
        · cases h
  unfold verifyMatches at h
  split at h
  · cases h
  · split at h
    · cases h
    · cases h
    · rename_i corrs hcorrs
      split at h
      · cases h
      · rename_i info inliers hest
        split at h
        · cases h
        · rename_i hin
          split at h
          · cases h
          · cases h
          · rename_i kept hkept
            split at h
            · rename_i hg
              split at h
              · cases h
              · cases h
              · cases h
              · rename_i used hused
                obtain ⟨k1, k2, cs, k3, k4, k5⟩ := key h
                exact ⟨k1, k2, corrs, info, inliers, kept, used, cs, correspondences_ok hcorrs, hest, by omega,
                  keep_ok hkept, by simp [hg], fun _ => hused, k3, k4, k5⟩
            · rename_i hg
              obtain ⟨k1, k2, cs, k3, k4, k5⟩ := key h
              exact ⟨k1, k2, corrs, info, inliers, kept, kept, cs, correspondences_ok hcorrs, hest, by omega,
                keep_ok hkept, fun _ => rfl, fun h => absurd h hg, k3, k4, k5⟩

/-- Without guided matching and bundle adjustment, verification succeeds exactly if more matches than the
minimum are inliers, for any indices in range. -/
theorem C35_plain {e : Env F C P I} (hg : e.guidedMatching = false) (hb : e.bundleAdjustment = false)
    (hmin0 : 0 ≤ e.minInliers) (hmin1 : e.minInliers < 2 ^ 31) {kps1 kps2 : List F} {ms : List Match}
    {corrs : List (F × F)} (hc : List.Forall₂ (Spec.IsCorrespondence kps1 kps2) ms corrs)
    {info : I} {inliers : List Nat} (hest : e.estimate corrs = some (info, inliers)) (hnd : inliers.Nodup)
    (hrange : ∀ i ∈ inliers, i < ms.length) :
    (∃ r, verifyMatches e kps1 kps2 ms = .ok (some r)) ↔ e.minInliers < inliers.length := by
  have hsize := asSize_of_nonneg hmin0 hmin1
  have hkept : ∀ is : List Nat, (∀ i ∈ is, i < ms.length) → ∃ kept cs,
      List.Forall₂ (fun i m => ms[i]? = some m) is kept ∧
      List.Forall₂ (Spec.IsCorrespondence kps1 kps2) kept cs := by
    intro is
    induction is with
    | nil => intro _; exact ⟨[], [], .nil, .nil⟩
    | cons i is ih =>
      intro h
      obtain ⟨kept, cs, h1, h2⟩ := ih (fun j hj => h j (List.mem_cons_of_mem _ hj))
      have hi := h i (List.mem_cons_self ..)
      have hi' : i < corrs.length := by rw [← hc.length_eq]; exact hi
      refine ⟨ms[i] :: kept, corrs[i] :: cs, .cons (List.getElem?_eq_getElem hi) h1, .cons ?_ h2⟩
      exact (List.forall₂_iff_get.1 hc).2 i hi hi'
  obtain ⟨kept, cs, hk1, hk2⟩ := hkept inliers hrange
  have hl1 := hk1.length_eq
  have hl2 := hk2.length_eq
  have hle : inliers.length ≤ ms.length := by
    have : inliers.length ≤ (List.range ms.length).length :=
      (List.subperm_of_subset hnd (fun i hi => List.mem_range.2 (hrange i hi))).length_le
    simpa using this
  have hcomp : verifyMatches e kps1 kps2 ms =
      if ms.length < asSize e.minInliers then .ok none
      else if inliers.length < asSize e.minInliers then .ok none
      else if cs.length > asSize e.minInliers then .ok (some ⟨cs, cs.length, info⟩) else .ok none := by
    unfold verifyMatches finish
    simp only [correspondences_eq hc, hest, keep_eq hk1, hg, hb, Bool.false_eq_true, if_false,
      Bool.false_and, correspondences_eq hk2]
  rw [hcomp]
  constructor
  · rintro ⟨r, hr⟩
    split at hr
    · cases hr
    · split at hr
      · cases hr
      · split at hr
        · omega
        · cases hr
  · intro h
    rw [if_neg (by omega), if_neg (by omega), if_pos (by omega)]
    exact ⟨_, rfl⟩

/-- An example: features and points are numbers, the estimation takes every match whose numbers agree, and
bundle adjustment does nothing. -/
def verificationEnv (minInliers : Int) (ba : Bool) : Env Nat Unit Nat Unit where
  minInliers := minInliers
  guidedMatching := false
  bundleAdjustment := ba
  estimate := fun cs => some ((), (List.range cs.length).filter (fun i =>
    match cs[i]? with
    | some (a, b) => decide (a ≤ b + 1 ∧ b ≤ a + 1)
    | none => false))
  setup := fun _ => ((), ())
  guided := fun _ _ ms => .ok (some ms)
  angleOk := fun _ _ a b => decide (a + b < 100)
  triangulate := fun _ _ a _ => some a
  acceptInitial := fun _ f p => decide (f ≤ p + 1 ∧ p ≤ f + 1)
  acceptFinal := fun _ f p => decide (f = p)
  adjust := fun _ c1 c2 ps => some (c1, c2, ps)
  updateInfo := fun i _ _ => i

/-- Five matches: one is no inlier, one has too little angle, and one does not fit in the end. -/
example : (verifyMatches (verificationEnv 1 true) [1, 2, 3, 4, 70] [1, 2, 9, 5, 70]
    [(0, 0), (1, 1), (2, 2), (3, 3), (4, 4)]) = .ok (some ⟨[(1, 1), (2, 2)], 2, ()⟩) := rfl

example : Spec.KeepsPoints (verificationEnv 1 true) := by
  intro corrs c1 c2 ps c1' c2' ps' h
  simp only [verificationEnv, Option.some.injEq, Prod.mk.injEq] at h
  rw [← h.2.2]

example : List.Forall₂ (Spec.IsCorrespondence [1, 2, 3] [1, 2, 9]) [(0, 0), (2, 2)] [(1, 1), (3, 9)] := by
  simp [Spec.IsCorrespondence]

/-- The minimum itself is not enough: with exactly as many inliers as the option asks for, and nothing else to
check, verification fails, although the option is documented as the number of inlier matches needed to succeed. -/
theorem C35_minimum_counterexample {e : Env F C P I} (hg : e.guidedMatching = false)
    (hb : e.bundleAdjustment = false) (hmin0 : 0 ≤ e.minInliers) (hmin1 : e.minInliers < 2 ^ 31)
    {kps1 kps2 : List F} {ms : List Match} {corrs : List (F × F)}
    (hc : List.Forall₂ (Spec.IsCorrespondence kps1 kps2) ms corrs)
    {info : I} {inliers : List Nat} (hest : e.estimate corrs = some (info, inliers)) (hnd : inliers.Nodup)
    (hrange : ∀ i ∈ inliers, i < ms.length) (hexact : (inliers.length : Int) = e.minInliers) :
    ¬∃ r, verifyMatches e kps1 kps2 ms = .ok (some r) := by
  rw [C35_plain hg hb hmin0 hmin1 hc hest hnd hrange]
  omega

example : verifyMatches (verificationEnv 2 false) [1, 2] [1, 2] [(0, 0), (1, 1)] = .ok none := rfl

/-- A negative minimum is compared as a huge unsigned number, so verification never succeeds. -/
theorem C35_negative_counterexample {e : Env F C P I} (h : e.minInliers < 0) (h' : -2 ^ 31 ≤ e.minInliers)
    {kps1 kps2 : List F} {ms : List Match} (hlen : ms.length < 2 ^ 63) :
    verifyMatches e kps1 kps2 ms = .ok none := by
  unfold verifyMatches
  rw [if_pos]
  unfold asSize
  omega

end Theia
