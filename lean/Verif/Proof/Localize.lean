import Verif.Model.Localize
import Verif.Spec.Localize

/-!
# Helper lemmas on localisation
-/

namespace Theia
namespace Localize

open Spec

variable {F P M O X L N W : Type}

theorem knownLoop_spec {r : Reconstruction F P} {v : ViewId} {V : View F} (hV : r.view v = some V) (ws : List ViewId) :
    knownLoop r v ws = .ok (V.estimated && ws.any (fun w => decide (w ≠ v))) := by
  induction ws with
  | nil => simp [knownLoop]
  | cons w ws ih =>
    unfold knownLoop
    rw [hV]
    simp only
    rw [ih]
    by_cases h : w = v
    · subst h
      simp
    · cases hE : V.estimated
      · simp
      · simp [h, Ne.symm h]

theorem gather_spec {r : Reconstruction F P} {V : View F} (f : F → N) (world : P → W) (ts : List TrackId)
    (h1 : ∀ t ∈ ts, ∃ T, r.track t = some T) (h2 : ∀ t ∈ ts, ∃ x, V.getFeature t = some x) :
    gather r V f world ts = .ok (pointPairs r V f world ts) := by
  induction ts with
  | nil => rfl
  | cons t ts ih =>
    obtain ⟨T, hT⟩ := h1 t (by simp)
    obtain ⟨x, hx⟩ := h2 t (by simp)
    have ih := ih (fun u hu => h1 u (by simp [hu])) (fun u hu => h2 u (by simp [hu]))
    unfold gather
    rw [hT]
    simp only
    unfold pointPairs at ih ⊢
    rw [List.filterMap_cons, hT, hx]
    simp only
    cases T.estimated
    · simpa using ih
    · simp [ih]

theorem tooFew_false {n : Nat} {m : Int} : tooFew n m = false ↔ 0 ≤ m ∧ m ≤ n := by
  unfold tooFew
  simp

theorem moreThan_true {n : Nat} {m : Int} : moreThan n m = true ↔ 0 ≤ m ∧ m < n := by
  unfold moreThan
  simp

/-- The state a pose and intrinsics give. -/
def place (s : Scene F P M O X) (v : ViewId) (V : View F) (q : O) (x : X) (m : M) : Scene F P M O X :=
  ((s.setOrientation v q).setPosition v x).setHeap V.intrinsics m

theorem place_same (s : Scene F P M O X) (v : ViewId) (V : View F) (x : X) :
    place s v V (s.orientation v) x (s.heap V.intrinsics) = s.setPosition v x := by
  unfold place Scene.setPosition Scene.setOrientation Scene.setHeap
  congr 1
  · funext i
    simp only
    split
    · subst_vars; rfl
    · rfl
  · funext w
    simp only
    split
    · subst_vars; rfl
    · rfl

theorem place_heap (s : Scene F P M O X) (v : ViewId) (V : View F) (q : O) (x : X) :
    place s v V q x (s.heap V.intrinsics) = (s.setOrientation v q).setPosition v x := by
  unfold place Scene.setPosition Scene.setOrientation Scene.setHeap
  congr 1
  funext i
  simp only
  split
  · subst_vars; rfl
  · rfl

/-- What `estimatePose` does: it fails and leaves the state, or it places the solution. -/
theorem estimatePose_spec (order : List Nat → List Nat) {n : Numerics F P M O X L N W} {o : Options} {known : Bool}
    {v : ViewId} {V : View F} {s : Scene F P M O X} {summary : List Nat} (hk : o.knownOrientation = true → known = true)
    (hg : ∀ f : F → N, gather s.recon V f n.world (order V.trackIds) = .ok (pointPairs s.recon V f n.world (order V.trackIds)))
    {b : Bool} {s' : Scene F P M O X} {inl : List Nat}
    (h : estimatePose order n o known v V s summary = .ok (b, s', inl)) :
    (b = false ∧ s' = s ∧ (o.minInliers < 0 ∨ (((pointPairs s.recon V (if known then n.normalize (s.heap V.intrinsics) else
        n.shift (s.heap V.intrinsics)) n.world (order V.trackIds)).length : Nat) : Int) < o.minInliers ∨
        ¬∃ q x m, Solved n o s v V (order V.trackIds) known inl q x m)) ∨
    (b = true ∧ 0 ≤ o.minInliers ∧ o.minInliers ≤ (pointPairs s.recon V (if known then n.normalize (s.heap V.intrinsics) else
        n.shift (s.heap V.intrinsics)) n.world (order V.trackIds)).length ∧
      ∃ q x m, Solved n o s v V (order V.trackIds) known inl q x m ∧ s' = place s v V q x m) := by
  unfold estimatePose at h
  rw [hg, Outcome.ok_bind] at h
  generalize hms : pointPairs s.recon V (if known = true then n.normalize (s.heap V.intrinsics) else
    n.shift (s.heap V.intrinsics)) n.world (order V.trackIds) = ms at h ⊢
  cases htf : tooFew ms.length o.minInliers with
  | true =>
    rw [htf, if_pos rfl] at h
    simp only [Outcome.ok.injEq, Prod.mk.injEq] at h
    obtain ⟨rfl, rfl, rfl⟩ := h
    refine Or.inl ⟨rfl, rfl, ?_⟩
    unfold tooFew at htf
    simp only [Bool.or_eq_true, decide_eq_true_eq] at htf
    rcases htf with h | h
    · exact Or.inl h
    · exact Or.inr (Or.inl h)
  | false =>
    rw [htf, if_neg (by simp)] at h
    have hmin := tooFew_false.1 htf
    cases hko : o.knownOrientation with
    | true =>
      have hkt := hk hko
      subst hkt
      simp only [if_true] at hms
      rw [hko, if_pos rfl] at h
      simp only [Outcome.ok.injEq] at h
      unfold withPosition at h
      cases hres : (n.solvePosition (s.orientation v) ms).result with
      | none =>
        simp only [hres, Prod.mk.injEq] at h
        obtain ⟨rfl, rfl, rfl⟩ := h
        refine Or.inl ⟨rfl, rfl, Or.inr (Or.inr ?_)⟩
        rintro ⟨q, x, m, hs⟩
        cases hs with
        | position _ _ h2 _ => rw [hms] at h2; rw [h2] at hres; cases hres
        | pose _ _ h1 => rw [hko] at h1; cases h1
        | focal _ _ _ _ h1 => rw [hko] at h1; cases h1
      | some x =>
        simp only [hres] at h
        cases hmt : moreThan (n.solvePosition (s.orientation v) ms).inliers.length o.minInliers with
        | true =>
          simp only [hmt, if_true, Prod.mk.injEq] at h
          obtain ⟨rfl, rfl, rfl⟩ := h
          refine Or.inr ⟨rfl, hmin.1, hmin.2, s.orientation v, x, s.heap V.intrinsics, ?_, (place_same s v V x).symm⟩
          refine Solved.position x hko ?_ (moreThan_true.1 hmt).2
          rw [hms, ← hres]
        | false =>
          simp only [hmt, Bool.false_eq_true, if_false, Prod.mk.injEq] at h
          obtain ⟨rfl, rfl, rfl⟩ := h
          refine Or.inl ⟨rfl, rfl, Or.inr (Or.inr ?_)⟩
          rintro ⟨q, y, m, hs⟩
          cases hs with
          | position _ _ h2 h3 =>
            have : moreThan (n.solvePosition (s.orientation v) ms).inliers.length o.minInliers = true :=
              moreThan_true.2 ⟨hmin.1, h3⟩
            rw [hmt] at this
            cases this
          | pose _ _ h1 => rw [hko] at h1; cases h1
          | focal _ _ _ _ h1 => rw [hko] at h1; cases h1
    | false =>
      rw [hko, if_neg (by simp)] at h
      cases known with
      | true =>
        simp only [if_true] at hms
        rw [if_pos rfl] at h
        simp only [Outcome.ok.injEq] at h
        unfold withPose at h
        cases hres : (n.solvePose ms).result with
        | none =>
          simp only [hres, Prod.mk.injEq] at h
          obtain ⟨rfl, rfl, rfl⟩ := h
          refine Or.inl ⟨rfl, rfl, Or.inr (Or.inr ?_)⟩
          rintro ⟨q, x, m, hs⟩
          cases hs with
          | position _ h1 => rw [hko] at h1; cases h1
          | pose _ _ _ _ h2 => rw [hms] at h2; rw [h2] at hres; cases hres
          | focal _ _ _ _ _ h1 => cases h1
        | some qx =>
          obtain ⟨q, x⟩ := qx
          simp only [hres, Prod.mk.injEq] at h
          obtain ⟨rfl, rfl, rfl⟩ := h
          refine Or.inr ⟨rfl, hmin.1, hmin.2, q, x, s.heap V.intrinsics, ?_, (place_heap s v V q x).symm⟩
          refine Solved.pose q x hko rfl ?_
          rw [hms, ← hres]
      | false =>
        simp only [Bool.false_eq_true, if_false] at hms h
        unfold withFocal at h
        cases hres : (n.solvePoseFocal ms).result with
        | none =>
          simp only [hres, Outcome.ok.injEq, Prod.mk.injEq] at h
          obtain ⟨rfl, rfl, rfl⟩ := h
          refine Or.inl ⟨rfl, rfl, Or.inr (Or.inr ?_)⟩
          rintro ⟨q, x, m, hs⟩
          cases hs with
          | position _ h1 => rw [hko] at h1; cases h1
          | pose _ _ _ h1 => cases h1
          | focal _ _ _ _ _ _ h2 => rw [hms] at h2; rw [h2] at hres; cases hres
        | some qx =>
          obtain ⟨q, x, l⟩ := qx
          simp only [hres] at h
          rw [Outcome.bind_eq_ok] at h
          obtain ⟨m, hm, h⟩ := h
          simp only [Outcome.ok.injEq, Prod.mk.injEq] at h
          obtain ⟨rfl, rfl, rfl⟩ := h
          refine Or.inr ⟨rfl, hmin.1, hmin.2, q, x, m, ?_, rfl⟩
          refine Solved.focal q x l m hko rfl ?_ hm
          rw [hms, ← hres]

end Localize
end Theia
