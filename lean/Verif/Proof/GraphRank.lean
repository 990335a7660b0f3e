import Mathlib.Data.Fintype.EquivFin
import Mathlib.Data.Fintype.Quotient
import Mathlib.Data.Fintype.Option
import Mathlib.Data.Finset.Card
import Verif.Spec.Graph

/-!
# Number of connected components of a finite node set under an edge list
-/

namespace Theia.Spec

open Classical

variable {T : Type}

theorem connected_cons_iff {E : List (T × T)} {a b x y : T} :
    Connected ((a, b) :: E) x y ↔
      Connected E x y ∨ (Connected E x a ∧ Connected E b y) ∨ (Connected E x b ∧ Connected E a y) := by
  have hmono : ∀ e ∈ E, e ∈ (a, b) :: E := fun e he => by simp [he]
  have hab : Connected ((a, b) :: E) a b := Connected.single (Or.inl (by simp))
  constructor
  · intro h
    induction h with
    | refl => exact Or.inl .refl
    | step hxc hcd ih =>
      rename_i c d
      have hcd' : Connected E c d ∨ (c = a ∧ d = b) ∨ (c = b ∧ d = a) := by
        rcases hcd with h | h
        · rcases List.mem_cons.1 h with h | h
          · cases h; exact Or.inr (Or.inl ⟨rfl, rfl⟩)
          · exact Or.inl (Connected.single (Or.inl h))
        · rcases List.mem_cons.1 h with h | h
          · cases h; exact Or.inr (Or.inr ⟨rfl, rfl⟩)
          · exact Or.inl (Connected.single (Or.inr h))
      rcases hcd' with hcd | ⟨rfl, rfl⟩ | ⟨rfl, rfl⟩
      · rcases ih with h | ⟨h1, h2⟩ | ⟨h1, h2⟩
        · exact Or.inl (h.trans hcd)
        · exact Or.inr (Or.inl ⟨h1, h2.trans hcd⟩)
        · exact Or.inr (Or.inr ⟨h1, h2.trans hcd⟩)
      · rcases ih with h | ⟨h1, h2⟩ | ⟨h1, h2⟩
        · exact Or.inr (Or.inl ⟨h, .refl⟩)
        · exact Or.inr (Or.inl ⟨h1, .refl⟩)
        · exact Or.inl h1
      · rcases ih with h | ⟨h1, h2⟩ | ⟨h1, h2⟩
        · exact Or.inr (Or.inr ⟨h, .refl⟩)
        · exact Or.inl h1
        · exact Or.inr (Or.inr ⟨h1, .refl⟩)
  · rintro (h | ⟨h1, h2⟩ | ⟨h1, h2⟩)
    · exact h.mono hmono
    · exact ((h1.mono hmono).trans hab).trans (h2.mono hmono)
    · exact ((h1.mono hmono).trans hab.symm).trans (h2.mono hmono)

/-- Connectivity as an equivalence relation on the nodes in `N`. -/
def connSetoid (N : Finset T) (E : List (T × T)) : Setoid {x // x ∈ N} where
  r x y := Connected E x.1 y.1
  iseqv := ⟨fun _ => .refl, fun h => h.symm, fun h h' => h.trans h'⟩

/-- Number of classes of connected nodes. -/
noncomputable def compCount (N : Finset T) (E : List (T × T)) : Nat :=
  Fintype.card (Quotient (connSetoid N E))

theorem compCount_nil (N : Finset T) : compCount N [] = N.card := by
  unfold compCount
  have : ∀ x y : T, Connected [] x y → x = y := by
    intro x y h
    induction h with
    | refl => rfl
    | step _ h _ => rcases h with h | h <;> cases h
  rw [← Fintype.card_coe N]
  apply Fintype.card_congr
  exact Equiv.symm (Equiv.ofBijective (fun x => Quotient.mk (connSetoid N []) x)
    ⟨fun x y h => Subtype.ext (this _ _ (Quotient.exact h)), fun q => by
      induction q using Quotient.ind with
      | _ a => exact ⟨a, rfl⟩⟩)

theorem compCount_anti (N : Finset T) {E E' : List (T × T)}
    (h : ∀ x y, Connected E x y → Connected E' x y) : compCount N E' ≤ compCount N E := by
  unfold compCount
  apply Fintype.card_le_of_surjective
    (Quotient.map' (s₁ := connSetoid N E) (s₂ := connSetoid N E') id (fun x y hxy => h _ _ hxy))
  intro q
  induction q using Quotient.ind with
  | _ a => exact ⟨Quotient.mk _ a, rfl⟩

theorem compCount_cons_ge (N : Finset T) (E : List (T × T)) (a b : T) :
    compCount N E ≤ compCount N ((a, b) :: E) + 1 := by
  unfold compCount
  rw [← Fintype.card_option]
  have hmono : ∀ x y, Connected E x y → Connected ((a, b) :: E) x y :=
    fun x y h => connected_cons_iff.2 (Or.inl h)
  apply Fintype.card_le_of_injective (fun q : Quotient (connSetoid N E) =>
    Quotient.lift (s := connSetoid N E)
      (fun x : {x // x ∈ N} => if Connected E x.1 b then none
        else some (Quotient.mk (connSetoid N ((a, b) :: E)) x))
      (by
        intro x y hxy
        have hxy' : Connected E x.1 y.1 := hxy
        by_cases hx : Connected E x.1 b
        · have hy : Connected E y.1 b := hxy'.symm.trans hx
          simp [hx, hy]
        · have hy : ¬ Connected E y.1 b := fun hc => hx (hxy'.trans hc)
          simp only [hx, hy, if_false, Option.some.injEq]
          exact Quotient.sound (hmono _ _ hxy')) q)
  intro p q
  induction p using Quotient.ind with
  | _ x =>
  induction q using Quotient.ind with
  | _ y =>
  intro h
  simp only [Quotient.lift_mk] at h
  apply Quotient.sound
  change Connected E x.1 y.1
  by_cases hx : Connected E x.1 b
  · by_cases hy : Connected E y.1 b
    · exact hx.trans hy.symm
    · simp [hx, hy] at h
  · by_cases hy : Connected E y.1 b
    · simp [hx, hy] at h
    · simp only [hx, hy, if_false, Option.some.injEq] at h
      have h' : Connected ((a, b) :: E) x.1 y.1 := Quotient.exact h
      rcases connected_cons_iff.1 h' with h | ⟨_, h2⟩ | ⟨h1, _⟩
      · exact h
      · exact absurd h2.symm hy
      · exact absurd h1 hx

theorem compCount_cons_lt (N : Finset T) (E : List (T × T)) {a b : T} (ha : a ∈ N) (hb : b ∈ N)
    (hab : ¬ Connected E a b) : compCount N ((a, b) :: E) + 1 ≤ compCount N E := by
  unfold compCount
  have hmono : ∀ x y, Connected E x y → Connected ((a, b) :: E) x y :=
    fun x y h => connected_cons_iff.2 (Or.inl h)
  apply Fintype.card_lt_of_surjective_not_injective
    (Quotient.map' (s₁ := connSetoid N E) (s₂ := connSetoid N ((a, b) :: E)) id
      (fun x y hxy => hmono _ _ hxy))
  · intro q
    induction q using Quotient.ind with
    | _ a => exact ⟨Quotient.mk _ a, rfl⟩
  · intro hinj
    apply hab
    have : Quotient.mk (connSetoid N E) ⟨a, ha⟩ = Quotient.mk (connSetoid N E) ⟨b, hb⟩ := by
      apply hinj
      apply Quotient.sound
      change Connected ((a, b) :: E) a b
      exact Connected.single (Or.inl (by simp))
    exact Quotient.exact this

theorem compCount_append_ge (N : Finset T) (E F : List (T × T)) :
    compCount N E ≤ compCount N (F ++ E) + F.length := by
  induction F with
  | nil => simp
  | cons e F ih =>
    have : compCount N (F ++ E) ≤ compCount N (e :: (F ++ E)) + 1 := compCount_cons_ge N (F ++ E) e.1 e.2
    simp only [List.cons_append, List.length_cons]
    omega

theorem compCount_ge (N : Finset T) (E : List (T × T)) : N.card ≤ compCount N E + E.length := by
  have := compCount_append_ge N [] E
  rw [compCount_nil] at this
  simpa using this

theorem compCount_pos (N : Finset T) (E : List (T × T)) (h : N.Nonempty) : 0 < compCount N E := by
  unfold compCount
  obtain ⟨x, hx⟩ := h
  exact Fintype.card_pos_iff.2 ⟨Quotient.mk _ ⟨x, hx⟩⟩

theorem compCount_le_one_iff (N : Finset T) (E : List (T × T)) :
    compCount N E ≤ 1 ↔ ∀ x ∈ N, ∀ y ∈ N, Connected E x y := by
  unfold compCount
  rw [Fintype.card_le_one_iff]
  constructor
  · intro h x hx y hy
    exact Quotient.exact (h (Quotient.mk (connSetoid N E) ⟨x, hx⟩) (Quotient.mk _ ⟨y, hy⟩))
  · intro h p q
    induction p using Quotient.ind with
    | _ x =>
    induction q using Quotient.ind with
    | _ y => exact Quotient.sound (h _ x.2 _ y.2)

end Theia.Spec
