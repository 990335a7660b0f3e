import Mathlib.Algebra.Order.BigOperators.Group.List
import Mathlib.Algebra.BigOperators.Group.List.Basic
import Verif.Model.MinimumSpanningTree
import Verif.Proof.ConnectedComponents
import Verif.Proof.GraphRank
import Verif.Spec.SpanningTree

/-! # Lemmas on Kruskal's loop -/

namespace Theia
namespace CC

open Spec

variable {T : Type} [DecidableEq T]

/-- A state in which no merge has been refused. -/
def Complete (m : Nat) (E : List (T × T)) (c : CC T) : Prop :=
  ∃ rep depth, State m E c rep depth ∧ ∀ e ∈ E, rep e.1 = rep e.2

theorem Complete.rep_iff {m : Nat} {E : List (T × T)} {c : CC T} {rep : T → T} {depth : T → Nat}
    (h : State m E c rep depth) (hc : ∀ e ∈ E, rep e.1 = rep e.2) (a b : T) :
    rep a = rep b ↔ Connected E a b :=
  ⟨h.conn a b, fun hab => Connected.le (R := fun a b => rep a = rep b) (fun _ => rfl)
    (fun h => h.symm) (fun h h' => h.trans h') hc hab⟩

omit [DecidableEq T] in
theorem isNode_of_connected {E : List (T × T)} {a b : T} (h : Connected E a b) (hne : a ≠ b) :
    IsNode E a ∧ IsNode E b := by
  have key : ∀ {x y : T}, Connected E x y → x ≠ y → IsNode E y := by
    intro x y h hne
    cases h with
    | refl => exact absurd rfl hne
    | step _ h =>
      rcases h with h | h
      · exact ⟨_, h, Or.inr rfl⟩
      · exact ⟨_, h, Or.inl rfl⟩
  exact ⟨key h.symm hne.symm, key h hne⟩

theorem Complete.query {m : Nat} {E : List (T × T)} {c : CC T} (h : Complete m E c) {a b : T}
    (hne : a ≠ b) : ∃ s c', c.nodesInSame a b = .ok (s, c') ∧ (s = true ↔ Connected E a b) ∧
      Complete m E c' := by
  obtain ⟨rep, depth, hs, hc⟩ := h
  obtain ⟨c', e, hmx, f, k⟩ := nodesInSame_spec c hs.forest a b
  refine ⟨_, c', e, ?_, rep, depth, ⟨by rw [hmx, hs.max], f, ?_, hs.connIn, ?_⟩, hc⟩
  · rw [decide_eq_true_eq, Complete.rep_iff hs hc, hs.keys, hs.keys]
    exact ⟨fun h => h.2.2, fun h => ⟨(isNode_of_connected h hne).1, (isNode_of_connected h hne).2, h⟩⟩
  · intro x; rw [k]; exact hs.keys x
  · intro x hx
    rw [k] at hx
    have := hs.cap x hx
    unfold csize at this ⊢
    rw [k]; exact this

theorem Complete.add {m : Nat} {E : List (T × T)} {c : CC T} (hm : 0 < m) (h : Complete m E c)
    (a b : T) (nodes : List T) (hlen : nodes.length ≤ m)
    (hnodes : ∀ x, IsNode (E ++ [(a, b)]) x → x ∈ nodes) :
    ∃ c', c.addEdge a b = .ok c' ∧ Complete m (E ++ [(a, b)]) c' := by
  obtain ⟨rep, depth, hs, hc⟩ := h
  obtain ⟨c', r', d', h1, h2, h3⟩ := state_complete hm hs hc [Op.addEdge a b] nodes hlen hnodes
  refine ⟨c', ?_, r', d', h2, h3⟩
  simp only [run, step] at h1
  cases he : c.addEdge a b with
  | ok x => rw [he] at h1; simpa [Outcome.bind] using h1
  | abort => rw [he] at h1; simp [Outcome.bind] at h1
  | ub => rw [he] at h1; simp [Outcome.bind] at h1

theorem complete_empty (m : Nat) : Complete m [] (⟨m, .empty⟩ : CC T) :=
  ⟨_, _, state_empty m, by simp⟩

end CC

namespace MST

open Spec

variable {T W : Type}

theorem connected_congr {E E' : List (T × T)} (h : ∀ e, e ∈ E ↔ e ∈ E') (a b : T) :
    Connected E a b ↔ Connected E' a b :=
  ⟨fun hc => hc.mono fun e he => (h e).1 he, fun hc => hc.mono fun e he => (h e).2 he⟩

theorem compCount_congr (N : Finset T) {E E' : List (T × T)} (h : ∀ e, e ∈ E ↔ e ∈ E') :
    compCount N E = compCount N E' :=
  Nat.le_antisymm (compCount_anti N fun x y hc => (connected_congr h x y).2 hc)
    (compCount_anti N fun x y hc => (connected_congr h x y).1 hc)

theorem pairs_append (a b : List (W × (T × T))) : pairs (a ++ b) = pairs a ++ pairs b := by
  simp [pairs]

theorem isNode_pairs {es : List (W × (T × T))} {a : T} :
    IsNode (pairs es) a ↔ ∃ e ∈ es, e.2.1 = a ∨ e.2.2 = a := by
  simp only [IsNode, pairs, List.mem_map]
  constructor
  · rintro ⟨_, ⟨e, he, rfl⟩, h⟩; exact ⟨e, he, h⟩
  · rintro ⟨e, he, h⟩; exact ⟨_, ⟨e, he, rfl⟩, h⟩

variable [LinearOrder T] [LinearOrder W]

theorem edgeLe_weight {e f : Edge T W} (h : edgeLe e f = true) : e.1 ≤ f.1 := by
  simp only [edgeLe, decide_eq_true_eq] at h
  rcases h with h | ⟨h, _⟩
  · exact le_of_lt h
  · exact le_of_eq h

theorem edgeLe_trans (a b c : Edge T W) (h1 : edgeLe a b = true) (h2 : edgeLe b c = true) :
    edgeLe a c = true := by
  simp only [edgeLe, decide_eq_true_eq] at *
  rcases h1 with h1 | ⟨h1, h1'⟩
  · rcases h2 with h2 | ⟨h2, _⟩
    · exact Or.inl (lt_trans h1 h2)
    · exact Or.inl (h2 ▸ h1)
  · rcases h2 with h2 | ⟨h2, h2'⟩
    · exact Or.inl (h1 ▸ h2)
    · right
      refine ⟨h1.trans h2, ?_⟩
      rcases h1' with h1' | ⟨h1', h1''⟩
      · rcases h2' with h2' | ⟨h2', _⟩
        · exact Or.inl (lt_trans h1' h2')
        · exact Or.inl (h2' ▸ h1')
      · rcases h2' with h2' | ⟨h2', h2''⟩
        · exact Or.inl (h1' ▸ h2')
        · exact Or.inr ⟨h1'.trans h2', le_trans h1'' h2''⟩

theorem edgeLe_total (a b : Edge T W) : (edgeLe a b || edgeLe b a) = true := by
  simp only [edgeLe, Bool.or_eq_true, decide_eq_true_eq]
  rcases lt_trichotomy a.1 b.1 with h | h | h
  · exact Or.inl (Or.inl h)
  · rcases lt_trichotomy a.2.1 b.2.1 with h' | h' | h'
    · exact Or.inl (Or.inr ⟨h, Or.inl h'⟩)
    · rcases le_total a.2.2 b.2.2 with h'' | h''
      · exact Or.inl (Or.inr ⟨h, Or.inr ⟨h', h''⟩⟩)
      · exact Or.inr (Or.inr ⟨h.symm, Or.inr ⟨h'.symm, h''⟩⟩)
    · exact Or.inr (Or.inr ⟨h.symm, Or.inl h'⟩)
  · exact Or.inr (Or.inl h)

/-- What has been achieved when `chosen` has been selected from the whole sorted list `all`. -/
structure Greedy (N : Finset T) (all chosen : List (Edge T W)) : Prop where
  sub : ∀ e ∈ chosen, e ∈ all
  rank : compCount N (pairs chosen) + chosen.length = N.card
  light : ∀ k (hk : k < chosen.length), ∀ e ∈ all, e.1 < chosen[k].1 →
    Connected (pairs (chosen.take k)) e.2.1 e.2.2

theorem loop_spec (limit : Nat) (hl : 0 < limit) (nodes : List T) (hlen : nodes.length ≤ limit)
    (all : List (Edge T W)) (hall : ∀ e ∈ all, e.2.1 ∈ nodes ∧ e.2.2 ∈ nodes ∧ e.2.1 ≠ e.2.2)
    (n : Nat) (es done chosen : List (Edge T W)) (hsplit : all = done ++ es)
    (hsorted : all.Pairwise (fun e f => edgeLe e f = true))
    (cc : CC T) (hcc : CC.Complete limit (pairs chosen) cc)
    (hg : Greedy nodes.toFinset all chosen)
    (hdone : ∀ e ∈ done, Connected (pairs chosen) e.2.1 e.2.2) :
    ∃ res : List (Edge T W), loop n es cc (pairs chosen) = .ok (pairs res) ∧
      Greedy nodes.toFinset all res ∧
      (n - 1 ≤ res.length ∨ ∀ e ∈ all, Connected (pairs res) e.2.1 e.2.2) := by
  induction es generalizing done chosen cc with
  | nil =>
    refine ⟨chosen, rfl, hg, Or.inr ?_⟩
    rw [hsplit]; simpa using hdone
  | cons e es ih =>
    have hlenp : (pairs chosen).length = chosen.length := by simp [pairs]
    unfold loop
    rw [hlenp]
    by_cases hcnt : chosen.length < n - 1
    · rw [if_pos hcnt]
      have hmem : e ∈ all := by rw [hsplit]; simp
      obtain ⟨he1, he2, hne⟩ := hall e hmem
      obtain ⟨s, cc', hq, hs, hcc'⟩ := hcc.query hne
      simp only [hq]
      by_cases hsame : Connected (pairs chosen) e.2.1 e.2.2
      · rw [if_pos (hs.2 hsame)]
        apply ih (done ++ [e]) chosen (by simp [hsplit]) cc' hcc' hg
        intro f hf
        rcases List.mem_append.1 hf with hf | hf
        · exact hdone f hf
        · rw [List.mem_singleton.1 hf]; exact hsame
      · rw [if_neg (fun h => hsame (hs.1 h))]
        have hpa : pairs (chosen ++ [e]) = pairs chosen ++ [(e.2.1, e.2.2)] := by
          simp [pairs]
        have hnode : ∀ x, IsNode (pairs chosen ++ [(e.2.1, e.2.2)]) x → x ∈ nodes := by
          intro x hx
          rw [← hpa, isNode_pairs] at hx
          obtain ⟨f, hf, hfx⟩ := hx
          have hfa : f ∈ all := by
            rcases List.mem_append.1 hf with hf | hf
            · exact hg.sub f hf
            · rw [List.mem_singleton.1 hf]; exact hmem
          rcases hfx with rfl | rfl
          · exact (hall f hfa).1
          · exact (hall f hfa).2.1
        obtain ⟨cc'', hadd, hcc''⟩ := hcc'.add hl e.2.1 e.2.2 nodes hlen hnode
        simp only [hadd]
        have hnin : (e.2.1, e.2.2) ∉ pairs chosen := fun hin =>
          hsame (Connected.single (Or.inl hin))
        rw [if_neg hnin, ← hpa]
        apply ih (done ++ [e]) (chosen ++ [e]) (by simp [hsplit]) cc'' (hpa ▸ hcc'')
        · refine ⟨?_, ?_, ?_⟩
          · intro f hf
            rcases List.mem_append.1 hf with hf | hf
            · exact hg.sub f hf
            · rw [List.mem_singleton.1 hf]; exact hmem
          · have h1 : compCount nodes.toFinset (pairs (chosen ++ [e])) =
                compCount nodes.toFinset ((e.2.1, e.2.2) :: pairs chosen) := by
              apply compCount_congr
              intro x; rw [hpa]; simp [or_comm]
            have h2 := compCount_cons_lt nodes.toFinset (pairs chosen)
              (List.mem_toFinset.2 he1) (List.mem_toFinset.2 he2) hsame
            have h3 := compCount_cons_ge nodes.toFinset (pairs chosen) e.2.1 e.2.2
            have h4 := hg.rank
            rw [h1, List.length_append, List.length_singleton]
            omega
          · intro k hk f hf hlt
            rw [List.length_append, List.length_singleton] at hk
            rcases Nat.lt_or_eq_of_le (Nat.lt_succ_iff.1 hk) with hk' | hk'
            · rw [List.getElem_append_left hk'] at hlt
              rw [List.take_append_of_le_length (le_of_lt hk')]
              exact hg.light k hk' f hf hlt
            · subst hk'
              rw [List.getElem_append_right (le_refl _)] at hlt
              simp only [Nat.sub_self, List.getElem_cons_zero] at hlt
              rw [List.take_left']
              · have hfd : f ∈ done := by
                  rw [hsplit] at hf
                  rcases List.mem_append.1 hf with hf | hf
                  · exact hf
                  · exfalso
                    rcases List.mem_cons.1 hf with hf | hf
                    · subst hf; exact lt_irrefl _ hlt
                    · rw [hsplit, List.pairwise_append, List.pairwise_cons] at hsorted
                      exact absurd hlt (not_lt.2 (edgeLe_weight (hsorted.2.1.1 f hf)))
                exact hdone f hfd
              · rfl
        · intro f hf
          have hm : ∀ x ∈ pairs chosen, x ∈ pairs (chosen ++ [e]) := by
            intro x hx; rw [hpa]; simp [hx]
          rcases List.mem_append.1 hf with hf | hf
          · exact (hdone f hf).mono hm
          · rw [List.mem_singleton.1 hf]
            exact Connected.single (Or.inl (by rw [hpa]; simp))
    · rw [if_neg hcnt]
      exact ⟨chosen, rfl, hg, Or.inl (by omega)⟩

/-- Pointwise comparison of sums. -/
theorem sum_le_sum_of_get [AddCommMonoid W] [IsOrderedAddMonoid W] (l l' : List W)
    (hlen : l.length = l'.length)
    (h : ∀ k (hk : k < l.length), l[k] ≤ l'[k]'(hlen ▸ hk)) : l.sum ≤ l'.sum := by
  induction l generalizing l' with
  | nil =>
    cases l' with
    | nil => simp
    | cons => simp at hlen
  | cons a l ih =>
    cases l' with
    | nil => simp at hlen
    | cons b l' =>
      rw [List.sum_cons, List.sum_cons]
      refine add_le_add (h 0 (by simp)) (ih l' (by simpa using hlen) ?_)
      intro k hk
      exact h (k + 1) (by simpa using hk)

omit [LinearOrder T] in
/-- Kruskal's choice is pointwise lightest. -/
theorem greedy_light (N : Finset T) {all chosen t : List (Edge T W)} (hg : Greedy N all chosen)
    (hlen : t.length = chosen.length) (hcard : t.length + 1 = N.card)
    (hsub : ∀ e ∈ t, e ∈ all) (hconn : ∀ a ∈ N, ∀ b ∈ N, Connected (pairs t) a b)
    (hsorted : t.Pairwise (fun e f => e.1 ≤ f.1)) (k : Nat) (hk : k < chosen.length) :
    chosen[k].1 ≤ (t[k]'(hlen ▸ hk)).1 := by
  by_contra hlt
  rw [not_le] at hlt
  have hk' : k < t.length := hlen ▸ hk
  have hall : ∀ e ∈ pairs (t.take (k + 1)), Connected (pairs (chosen.take k)) e.1 e.2 := by
    intro p hp
    simp only [pairs, List.mem_map] at hp
    obtain ⟨e, he, rfl⟩ := hp
    apply hg.light k hk e (hsub e (List.mem_of_mem_take he))
    refine lt_of_le_of_lt ?_ hlt
    obtain ⟨j, hj, rfl⟩ := List.mem_iff_getElem.1 he
    rw [List.length_take] at hj
    rw [List.getElem_take]
    rcases Nat.lt_or_eq_of_le (show j ≤ k by omega) with hjk | hjk
    · exact List.pairwise_iff_getElem.1 hsorted j k (by omega) hk' hjk
    · subst hjk; exact le_refl _
  have hle : compCount N (pairs (chosen.take k)) ≤ compCount N (pairs (t.take (k + 1))) :=
    compCount_anti N fun x y h => Connected.le (R := fun a b => Connected (pairs (chosen.take k)) a b)
      (fun _ => .refl) (fun h => h.symm) (fun h h' => h.trans h') hall h
  have h1 := compCount_ge N (pairs (chosen.take k))
  have h2 := compCount_append_ge N (pairs (t.take (k + 1))) (pairs (t.drop (k + 1)))
  have h3 : compCount N (pairs (t.drop (k + 1)) ++ pairs (t.take (k + 1))) = compCount N (pairs t) := by
    apply compCount_congr
    intro e
    rw [← List.take_append_drop (k + 1) t, pairs_append]
    simp only [List.mem_append, List.take_append_drop, or_comm]
  have h4 := (compCount_le_one_iff N (pairs t)).2 hconn
  have l1 : (pairs (chosen.take k)).length = k := by simp [pairs]; omega
  have l2 : (pairs (t.drop (k + 1))).length = t.length - (k + 1) := by simp [pairs]
  rw [h3] at h2
  rw [l1] at h1
  rw [l2] at h2
  omega

end MST
end Theia
