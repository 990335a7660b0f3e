import Verif.Spec.GeometricVerification
import Mathlib.Data.List.Basic

/-!
# Lemmas on geometric verification
-/

namespace Theia
namespace Verification

variable {F C P I : Type}

theorem asSize_of_nonneg {n : Int} (h0 : 0 ≤ n) (h1 : n < 2 ^ 31) : (asSize n : Int) = n := by
  unfold asSize
  omega

theorem correspondence_ok {kps1 kps2 : List F} {m : Match} {f : F × F}
    (h : correspondence kps1 kps2 m = .ok f) : Spec.IsCorrespondence kps1 kps2 m f := by
  unfold correspondence at h
  split at h
  · rename_i a b h1 h2
    cases h
    exact ⟨h1, h2⟩
  · cases h

theorem correspondences_ok {kps1 kps2 : List F} : ∀ {ms : List Match} {cs : List (F × F)},
    correspondences kps1 kps2 ms = .ok cs → List.Forall₂ (Spec.IsCorrespondence kps1 kps2) ms cs := by
  intro ms
  induction ms with
  | nil =>
    intro cs h
    cases h
    exact .nil
  | cons m ms ih =>
    intro cs h
    unfold correspondences at h
    split at h
    · cases h
    · cases h
    · rename_i c hc
      split at h
      · cases h
      · cases h
      · rename_i cs' hcs
        cases h
        exact .cons (correspondence_ok hc) (ih hcs)

theorem correspondences_eq {kps1 kps2 : List F} : ∀ {ms : List Match} {cs : List (F × F)},
    List.Forall₂ (Spec.IsCorrespondence kps1 kps2) ms cs → correspondences kps1 kps2 ms = .ok cs := by
  intro ms cs h
  induction h with
  | nil => rfl
  | cons hc _ ih =>
    unfold correspondences correspondence
    rw [hc.1, hc.2]
    simp [ih]

theorem keep_ok {ms : List Match} : ∀ {is : List Nat} {r : List Match}, keep ms is = .ok r →
    List.Forall₂ (fun i m => ms[i]? = some m) is r := by
  intro is
  induction is with
  | nil =>
    intro r h
    cases h
    exact .nil
  | cons i is ih =>
    intro r h
    unfold keep at h
    split at h
    · cases h
    · rename_i m hm
      split at h
      · cases h
      · cases h
      · rename_i r' hr
        cases h
        exact .cons hm (ih hr)

theorem keep_eq {ms : List Match} {is : List Nat} {r : List Match}
    (h : List.Forall₂ (fun i m => ms[i]? = some m) is r) : keep ms is = .ok r := by
  induction h with
  | nil => rfl
  | cons hm _ ih =>
    unfold keep
    simp [hm, ih]

theorem triangulateOne_eq_some (e : Env F C P I) (c1 c2 : C) (f : F × F) (p : P) :
    triangulateOne e c1 c2 f = some p ↔ Spec.Triangulates e c1 c2 f p := by
  unfold triangulateOne Spec.Triangulates
  cases ha : e.angleOk c1 c2 f.1 f.2
  · simp
  · cases ht : e.triangulate c1 c2 f.1 f.2 with
    | none => simp
    | some q =>
      simp only [Bool.not_true, Bool.false_eq_true, if_false, Option.some.injEq, true_and]
      constructor
      · intro h
        split at h
        · cases h
        · rename_i hc
          simp only [Option.some.injEq] at h
          subst h
          simp only [Bool.or_eq_true, Bool.not_eq_true', not_or, Bool.not_eq_false] at hc
          exact ⟨rfl, hc.1, hc.2⟩
      · rintro ⟨rfl, h1, h2⟩
        simp [h1, h2]

open Classical in
/-- What triangulation keeps. -/
theorem triangulatePoints_ok {e : Env F C P I} {kps1 kps2 : List F} {c1 c2 : C} : ∀ {ms : List Match}
    {rs : List Match} {ps : List P}, triangulatePoints e kps1 kps2 c1 c2 ms = .ok (rs, ps) →
    ∃ cs, List.Forall₂ (Spec.IsCorrespondence kps1 kps2) ms cs ∧ rs.length = ps.length ∧
      List.Sublist rs ms ∧
      List.Forall₂ (Spec.IsCorrespondence kps1 kps2) rs
        (cs.filter (fun f => decide (∃ p, Spec.Triangulates e c1 c2 f p))) ∧
      List.Forall₂ (Spec.Triangulates e c1 c2)
        (cs.filter (fun f => decide (∃ p, Spec.Triangulates e c1 c2 f p))) ps := by
  intro ms
  induction ms with
  | nil =>
    intro rs ps h
    cases h
    exact ⟨[], .nil, rfl, List.Sublist.refl _, .nil, .nil⟩
  | cons m ms ih =>
    intro rs ps h
    unfold triangulatePoints at h
    split at h
    · cases h
    · cases h
    · rename_i f hf
      split at h
      · cases h
      · cases h
      · rename_i rs' ps' hr
        obtain ⟨cs, h1, h2, h3, h4, h5⟩ := ih hr
        split at h
        · rename_i ht
          cases h
          refine ⟨f :: cs, .cons (correspondence_ok hf) h1, h2, h3.cons _, ?_⟩
          have hn : ¬∃ p, Spec.Triangulates e c1 c2 f p := by
            rintro ⟨p, hp⟩
            rw [(triangulateOne_eq_some e c1 c2 f p).2 hp] at ht
            cases ht
          rw [List.filter_cons_of_neg (by simpa using hn)]
          exact ⟨h4, h5⟩
        · rename_i p hp
          cases h
          have hp' := (triangulateOne_eq_some e c1 c2 f p).1 hp
          refine ⟨f :: cs, .cons (correspondence_ok hf) h1, by simp [h2], h3.cons_cons _, ?_⟩
          rw [List.filter_cons_of_pos (by simpa using ⟨p, hp'⟩)]
          exact ⟨.cons (correspondence_ok hf) h4, .cons hp' h5⟩

/-- The loop after bundle adjustment keeps exactly the matches whose moved point fits. -/
theorem finalLoop_ok {e : Env F C P I} {kps1 kps2 : List F} {c1 c2 : C} {points : List P} {ms : List Match} :
    ∀ {fs : List (F × F)} {i : Nat} {r : List Match}, finalLoop e c1 c2 points ms i fs = .ok r →
    points.length = i + fs.length → List.Forall₂ (Spec.IsCorrespondence kps1 kps2) (ms.drop i) fs →
    List.Forall₂ (Spec.IsCorrespondence kps1 kps2) r
      (((fs.zip (points.drop i)).filter
        (fun x => e.acceptFinal c1 x.1.1 x.2 && e.acceptFinal c2 x.1.2 x.2)).map Prod.fst) := by
  intro fs
  induction fs with
  | nil =>
    intro i r h _ _
    cases h
    simp
  | cons f fs ih =>
    intro i r h hlen hc
    unfold finalLoop at h
    split at h
    · rename_i p m hp hm
      obtain ⟨hpi, hp'⟩ := List.getElem?_eq_some_iff.1 hp
      obtain ⟨hmi, hm'⟩ := List.getElem?_eq_some_iff.1 hm
      rw [List.drop_eq_getElem_cons hmi, hm'] at hc
      rw [List.drop_eq_getElem_cons hpi, hp', List.zip_cons_cons]
      obtain ⟨hc1, hc2⟩ := List.forall₂_cons.1 hc
      split at h
      · cases h
      · cases h
      · rename_i r' hr
        have := ih hr (by simp at hlen; omega) hc2
        split at h
        · rename_i ha
          cases h
          rw [List.filter_cons_of_pos (by exact ha), List.map_cons]
          exact .cons hc1 this
        · rename_i ha
          cases h
          rw [List.filter_cons_of_neg (by simpa using ha)]
          exact this
    · cases h

end Verification
end Theia
