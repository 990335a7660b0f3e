/-!
# Connectivity in an undirected graph given as a list of edges
-/

namespace Theia.Spec

variable {T : Type}

/-- `a` and `b` are joined by an edge of the list, in either direction. -/
def Adjacent (E : List (T × T)) (a b : T) : Prop := (a, b) ∈ E ∨ (b, a) ∈ E

/-- A path of edges of `E` leads from `a` to `b`. -/
inductive Connected (E : List (T × T)) (a : T) : T → Prop
  | refl : Connected E a a
  | step {b c : T} : Connected E a b → Adjacent E b c → Connected E a c

/-- `a` is an end of some edge. -/
def IsNode (E : List (T × T)) (a : T) : Prop := ∃ e ∈ E, e.1 = a ∨ e.2 = a

theorem Connected.trans {E : List (T × T)} {a b c : T} (h₁ : Connected E a b)
    (h₂ : Connected E b c) : Connected E a c := by
  induction h₂ with
  | refl => exact h₁
  | step _ h ih => exact ih.step h

theorem Adjacent.symm {E : List (T × T)} {a b : T} (h : Adjacent E a b) : Adjacent E b a := Or.symm h

theorem Connected.single {E : List (T × T)} {a b : T} (h : Adjacent E a b) : Connected E a b :=
  Connected.refl.step h

theorem Connected.symm {E : List (T × T)} {a b : T} (h : Connected E a b) : Connected E b a := by
  induction h with
  | refl => exact .refl
  | step _ h ih => exact (Connected.single h.symm).trans ih

theorem Adjacent.mono {E E' : List (T × T)} (h : ∀ e ∈ E, e ∈ E') {a b : T} (hab : Adjacent E a b) :
    Adjacent E' a b := hab.imp (h _) (h _)

theorem Connected.mono {E E' : List (T × T)} (h : ∀ e ∈ E, e ∈ E') {a b : T}
    (hab : Connected E a b) : Connected E' a b := by
  induction hab with
  | refl => exact .refl
  | step _ hb ih => exact ih.step (hb.mono h)

/-- A relation that is an equivalence and contains the edges contains all connected pairs. -/
theorem Connected.le {E : List (T × T)} {R : T → T → Prop} (hr : ∀ a, R a a)
    (hs : ∀ {a b}, R a b → R b a) (ht : ∀ {a b c}, R a b → R b c → R a c)
    (he : ∀ e ∈ E, R e.1 e.2) {a b : T} (h : Connected E a b) : R a b := by
  induction h with
  | refl => exact hr a
  | step _ hb ih =>
    rcases hb with hb | hb
    · exact ht ih (he _ hb)
    · exact ht ih (hs (he _ hb))

end Theia.Spec
