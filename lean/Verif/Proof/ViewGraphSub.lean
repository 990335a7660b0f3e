import Verif.Proof.ViewGraph
import Verif.Props.ConnectedComponents

namespace Theia
open Spec
namespace ViewGraph

variable {I : Type}

/-! ### Subgraphs -/

/-- `sub` contains only edges of `g` inside `s`, and no isolated vertices. -/
structure Sub (g : ViewGraph I) (s : List Nat) (sub : ViewGraph I) : Prop where
  inv : Inv sub
  sound : ∀ p i, sub.edges.get p = some i → p.1 ∈ s ∧ p.2 ∈ s ∧ g.edges.get p = some i
  vert : ∀ x, x ∈ sub.vertices.keys ↔ ∃ y, ordPair x y ∈ sub.edges.keys

theorem sub_empty (g : ViewGraph I) (s : List Nat) : Sub g s empty :=
  ⟨inv_empty, by simp [empty], by simp [empty]⟩

theorem mem_edges_addEdge (g : ViewGraph I) {a b : Nat} (hab : a ≠ b) (i : I) (p : Nat × Nat) :
    p ∈ (g.addEdge a b i).edges.keys ↔ p = ordPair a b ∨ p ∈ g.edges.keys := by
  simp only [addEdge, hab, if_false]; rw [AMap.mem_keys_insert]

theorem mem_vertices_addEdge (g : ViewGraph I) {a b : Nat} (hab : a ≠ b) (i : I) (v : Nat) :
    v ∈ (g.addEdge a b i).vertices.keys ↔ v = a ∨ v = b ∨ v ∈ g.vertices.keys := by
  simp only [addEdge, hab, if_false]; rw [AMap.mem_keys_insert, AMap.mem_keys_insert]
  constructor
  · rintro (h | h | h)
    · exact Or.inr (Or.inl h)
    · exact Or.inl h
    · exact Or.inr (Or.inr h)
  · rintro (h | h | h)
    · exact Or.inr (Or.inl h)
    · exact Or.inl h
    · exact Or.inr (Or.inr h)

theorem subInner_spec {g : ViewGraph I} {s : List Nat} {v : Nat} (h : Inv g) (hv : v ∈ s)
    (ws : List Nat) (hws : ∀ w ∈ ws, ordPair v w ∈ g.edges.keys) (sub : ViewGraph I)
    (hs : Sub g s sub) :
    ∃ sub', subInner g s v ws sub = .ok sub' ∧ Sub g s sub' ∧
      (∀ p ∈ sub.edges.keys, p ∈ sub'.edges.keys) ∧
      (∀ w ∈ ws, w ∈ s → v < w → (v, w) ∈ sub'.edges.keys) := by
  induction ws generalizing sub with
  | nil => exact ⟨sub, rfl, hs, fun _ h => h, by simp⟩
  | cons w ws ih =>
    have hw := hws w (by simp)
    have hne : v ≠ w := by rintro rfl; exact h.irrefl v hw
    simp only [subInner]
    by_cases hc : ¬ w ∈ s ∨ w < v
    · rw [if_pos hc]
      obtain ⟨sub', e, h1, h2, h3⟩ := ih (fun w hw => hws w (by simp [hw])) sub hs
      refine ⟨sub', e, h1, h2, ?_⟩
      intro x hx hxs hvx
      simp only [List.mem_cons] at hx
      rcases hx with rfl | hx
      · rcases hc with hc | hc
        · exact absurd hxs hc
        · omega
      · exact h3 x hx hxs hvx
    · rw [if_neg hc]
      simp only [not_or, Classical.not_not] at hc
      have hlt : v < w := by omega
      rw [ordPair_of_lt hlt] at hw
      obtain ⟨i, hi⟩ := AMap.mem_keys_iff.1 hw
      simp only [hi]
      have hsub1 : Sub g s (sub.addEdge v w i) := by
        refine ⟨inv_addEdge hs.inv v w i, ?_, ?_⟩
        · intro p j hp
          rw [addEdge_edges sub hne] at hp
          split at hp
          · rename_i hpp
            cases hp
            rw [hpp, ordPair_of_lt hlt]
            exact ⟨hv, hc.1, hi⟩
          · exact hs.sound p j hp
        · intro x
          rw [mem_vertices_addEdge sub hne, hs.vert]
          constructor
          · rintro (rfl | rfl | ⟨y, hy⟩)
            · exact ⟨w, (mem_edges_addEdge sub hne i _).2 (Or.inl rfl)⟩
            · exact ⟨v, (mem_edges_addEdge sub hne i _).2 (Or.inl (ordPair_comm _ _))⟩
            · exact ⟨y, (mem_edges_addEdge sub hne i _).2 (Or.inr hy)⟩
          · rintro ⟨y, hy⟩
            rcases (mem_edges_addEdge sub hne i _).1 hy with hy | hy
            · rw [ordPair_eq_iff] at hy
              rcases hy with ⟨rfl, _⟩ | ⟨rfl, _⟩ <;> simp
            · exact Or.inr (Or.inr ⟨y, hy⟩)
      obtain ⟨sub', e, h1, h2, h3⟩ := ih (fun w hw => hws w (by simp [hw])) _ hsub1
      refine ⟨sub', e, h1, ?_, ?_⟩
      · intro p hp; exact h2 p ((mem_edges_addEdge sub hne i _).2 (Or.inr hp))
      · intro x hx hxs hvx
        simp only [List.mem_cons] at hx
        rcases hx with rfl | hx
        · exact h2 _ ((mem_edges_addEdge sub hne i _).2 (Or.inl (ordPair_of_lt hlt).symm))
        · exact h3 x hx hxs hvx

theorem subOuter_spec {g : ViewGraph I} {s : List Nat} (h : Inv g) (es : List (Nat × List Nat))
    (hes : ∀ e ∈ es, ∀ w ∈ e.2, ordPair e.1 w ∈ g.edges.keys) (sub : ViewGraph I) (hs : Sub g s sub) :
    ∃ sub', subOuter g s es sub = .ok sub' ∧ Sub g s sub' ∧
      (∀ p ∈ sub.edges.keys, p ∈ sub'.edges.keys) ∧
      (∀ e ∈ es, e.1 ∈ s → ∀ w ∈ e.2, w ∈ s → e.1 < w → (e.1, w) ∈ sub'.edges.keys) := by
  induction es generalizing sub with
  | nil => exact ⟨sub, rfl, hs, fun _ h => h, by simp⟩
  | cons e es ih =>
    obtain ⟨v, ws⟩ := e
    simp only [subOuter]
    by_cases hv : v ∈ s
    · rw [if_neg (by simpa using hv)]
      obtain ⟨sub1, e1, a1, a2, a3⟩ := subInner_spec h hv ws (hes (v, ws) (by simp)) sub hs
      obtain ⟨sub2, e2, b1, b2, b3⟩ := ih (fun e he => hes e (by simp [he])) sub1 a1
      simp only [e1]
      refine ⟨sub2, e2, b1, fun p hp => b2 p (a2 p hp), ?_⟩
      intro e he
      simp only [List.mem_cons] at he
      rcases he with rfl | he
      · intro _ w hw hws hlt; exact b2 _ (a3 w hw hws hlt)
      · exact b3 e he
    · rw [if_pos hv]
      obtain ⟨sub2, e2, b1, b2, b3⟩ := ih (fun e he => hes e (by simp [he])) sub hs
      refine ⟨sub2, e2, b1, b2, ?_⟩
      intro e he
      simp only [List.mem_cons] at he
      rcases he with rfl | he
      · intro hc; exact absurd hc hv
      · exact b3 e he

theorem extractSubgraph_spec {g : ViewGraph I} (h : Inv g) (s : List Nat) :
    ∃ sub, g.extractSubgraph s empty = .ok sub ∧ Inv sub ∧
      (∀ a b, sub.getEdge a b = if a ∈ s ∧ b ∈ s then g.getEdge a b else none) ∧
      (∀ x, x ∈ sub.vertices.keys ↔ ∃ y, ordPair x y ∈ sub.edges.keys) := by
  obtain ⟨sub, e, h1, _, h3⟩ := subOuter_spec h g.vertices.entries
    (fun e he w hw => (h.adj e.1 e.2 w (AMap.get_of_mem_entries h.wfV he)).1 hw) empty (sub_empty g s)
  refine ⟨sub, e, h1.inv, ?_, h1.vert⟩
  have key : ∀ p : Nat × Nat, sub.edges.get p = if p.1 ∈ s ∧ p.2 ∈ s then g.edges.get p else none := by
    intro p
    cases hp : sub.edges.get p with
    | some i =>
      obtain ⟨a, b, c⟩ := h1.sound p i hp
      simp [a, b, c]
    | none =>
      symm
      split
      · rename_i hps
        rw [AMap.get_eq_none_iff]
        intro hm
        have hlt := h.lt p hm
        have hm' : ordPair p.1 p.2 ∈ g.edges.keys := by rw [ordPair_of_lt hlt]; exact hm
        obtain ⟨l, hl⟩ := AMap.mem_keys_iff.1 (h.dom p.1 p.2 hm')
        have := h3 (p.1, l) (AMap.mem_entries_of_get hl) hps.1 p.2 ((h.adj _ _ _ hl).2 hm') hps.2 hlt
        exact AMap.get_eq_none_iff.1 hp this
      · rfl
  intro a b
  unfold getEdge
  rw [key]
  have : ((ordPair a b).1 ∈ s ∧ (ordPair a b).2 ∈ s) ↔ a ∈ s ∧ b ∈ s := by
    unfold ordPair; split <;> simp [and_comm]
  simp only [this]

/-! ### Components -/

theorem addAllEdges_eq (es : List ((Nat × Nat) × I)) (c : CC Nat) :
    addAllEdges es c = CC.run c (es.map (fun e => CC.Op.addEdge e.1.1 e.1.2)) := by
  induction es generalizing c with
  | nil => rfl
  | cons e es ih =>
    obtain ⟨p, i⟩ := e
    simp only [addAllEdges, List.map_cons, CC.run, CC.step]
    cases c.addEdge p.1 p.2 with
    | ok c' => simp [Outcome.bind, ih]
    | abort => rfl
    | ub => rfl

theorem edgesOf_addAll (es : List ((Nat × Nat) × I)) :
    CC.edgesOf (es.map (fun e => CC.Op.addEdge e.1.1 e.1.2)) = es.map (·.1) := by
  induction es with
  | nil => rfl
  | cons e es ih => simp [CC.edgesOf, ih]

theorem length_le_of_lt {l : List Nat} (hnd : l.Nodup) {n : Nat} (h : ∀ x ∈ l, x < n) : l.length ≤ n := by
  have := List.Nodup.length_le_of_subset hnd (l₂ := List.range n) (fun x hx => List.mem_range.2 (h x hx))
  simpa using this

theorem components_spec {g : ViewGraph I} (h : Inv g) (hids : ∀ v ∈ g.vertices.keys, v < maxViewId) :
    ∃ c comps c', addAllEdges g.allEdges ⟨maxViewId, .empty⟩ = .ok c ∧ c.extract = .ok (comps, c') ∧
      comps.WF ∧ (∀ x, IsNode g.edges.keys x ↔ ∃ r l, comps.get r = some l ∧ x ∈ l) ∧
      (∀ r l, comps.get r = some l → l.Nodup ∧ r ∈ l ∧ ∀ x ∈ l, ∀ y, y ∈ l ↔ Connected g.edges.keys x y) ∧
      (∀ r l r' l' x, comps.get r = some l → comps.get r' = some l' → x ∈ l → x ∈ l' → r = r') := by
  have hnodes : ∀ x, IsNode (CC.edgesOf (g.allEdges.map (fun e => CC.Op.addEdge e.1.1 e.1.2))) x →
      x ∈ g.vertices.keys := by
    intro x
    rw [edgesOf_addAll]
    rintro ⟨p, hp, hx⟩
    have hp' : p ∈ g.edges.keys := hp
    have hlt := h.lt p hp'
    have hm' : ordPair p.1 p.2 ∈ g.edges.keys := by rw [ordPair_of_lt hlt]; exact hp'
    rcases hx with rfl | rfl
    · exact h.dom _ _ hm'
    · exact h.dom' hm'
  obtain ⟨c0, c, e0, e1, _, out, c', e2, h1, h2, h3, h4⟩ := C12_components_are_connectivity maxViewId
    (by decide) (g.allEdges.map (fun e => CC.Op.addEdge e.1.1 e.1.2)) g.vertices.keys
    (length_le_of_lt h.wfV hids) hnodes
  have : c0 = ⟨maxViewId, .empty⟩ := by
    simp [CC.create, maxViewId] at e0; exact e0.symm
  subst this
  rw [edgesOf_addAll] at h2 h3
  exact ⟨c, out, c', by rw [addAllEdges_eq]; exact e1, e2, h1, h2, h3, h4⟩

theorem largestLoop_spec (es : List (Nat × List Nat)) (size : Nat) (best : Option Nat) :
    ((∀ e ∈ es, e.2.length ≤ size) ∧ largestLoop es size best = best) ∨
    (∃ e ∈ es, largestLoop es size best = some e.1 ∧ size < e.2.length ∧
      ∀ e' ∈ es, e'.2.length ≤ e.2.length) := by
  induction es generalizing size best with
  | nil => left; exact ⟨by simp, rfl⟩
  | cons e es ih =>
    obtain ⟨r, l⟩ := e
    simp only [largestLoop]
    by_cases hl : l.length > size
    · rw [if_pos hl]
      right
      rcases ih l.length (some r) with ⟨h1, h2⟩ | ⟨e, he, h1, h2, h3⟩
      · refine ⟨(r, l), by simp, h2, hl, ?_⟩
        intro e' he'
        simp only [List.mem_cons] at he'
        rcases he' with rfl | he'
        · exact Nat.le_refl _
        · exact h1 e' he'
      · refine ⟨e, by simp [he], h1, by omega, ?_⟩
        intro e' he'
        simp only [List.mem_cons] at he'
        rcases he' with rfl | he'
        · simp only; omega
        · exact h3 e' he'
    · rw [if_neg hl]
      rcases ih size best with ⟨h1, h2⟩ | ⟨e, he, h1, h2, h3⟩
      · left
        refine ⟨?_, h2⟩
        intro e' he'
        simp only [List.mem_cons] at he'
        rcases he' with rfl | he'
        · simp only; omega
        · exact h1 e' he'
      · right
        refine ⟨e, by simp [he], h1, h2, ?_⟩
        intro e' he'
        simp only [List.mem_cons] at he'
        rcases he' with rfl | he'
        · simp only; omega
        · exact h3 e' he'

/-- A largest class of connected nodes. -/
theorem largest_spec {g : ViewGraph I} (comps : AMap Nat (List Nat)) (hwf : comps.WF)
    (hn : ∀ x, IsNode g.edges.keys x ↔ ∃ r l, comps.get r = some l ∧ x ∈ l)
    (hc : ∀ r l, comps.get r = some l → l.Nodup ∧ r ∈ l ∧ ∀ x ∈ l, ∀ y, y ∈ l ↔ Connected g.edges.keys x y)
    (hne : g.edges.keys ≠ []) :
    ∃ r C, largestLoop comps.entries 0 none = some r ∧ comps.get r = some C ∧ C ≠ [] ∧ C.Nodup ∧
      (∀ x ∈ C, IsNode g.edges.keys x ∧ ∀ y, y ∈ C ↔ Connected g.edges.keys x y) ∧
      (∀ D : List Nat, D.Nodup → (∀ x ∈ D, IsNode g.edges.keys x) →
        (∀ x ∈ D, ∀ y ∈ D, Connected g.edges.keys x y) → D.length ≤ C.length) := by
  have hex : ∃ x, IsNode g.edges.keys x := by
    cases hk : g.edges.keys with
    | nil => exact absurd hk hne
    | cons p ps => exact ⟨p.1, p, by simp, Or.inl rfl⟩
  rcases largestLoop_spec comps.entries 0 none with ⟨h1, _⟩ | ⟨e, he, h1, h2, h3⟩
  · exfalso
    obtain ⟨x, hx⟩ := hex
    obtain ⟨r, l, hl, hxl⟩ := (hn x).1 hx
    have := h1 (r, l) (AMap.mem_entries_of_get hl)
    simp only [Nat.le_zero_eq, List.length_eq_zero_iff] at this
    rw [this] at hxl; cases hxl
  · have hg := AMap.get_of_mem_entries hwf (k := e.1) (v := e.2) he
    obtain ⟨c1, c2, c3⟩ := hc _ _ hg
    refine ⟨e.1, e.2, h1, hg, (by intro h; rw [h] at c2; cases c2), c1, ?_, ?_⟩
    · intro x hx
      exact ⟨(hn x).2 ⟨e.1, e.2, hg, hx⟩, c3 x hx⟩
    · intro D hD hDn hDc
      cases D with
      | nil => simp
      | cons x D =>
        obtain ⟨r, l, hl, hxl⟩ := (hn x).1 (hDn x (by simp))
        have hsub : ∀ y ∈ (x :: D), y ∈ l := fun y hy =>
          ((hc r l hl).2.2 x hxl y).2 (hDc x (by simp) y hy)
        have h4 := List.Nodup.length_le_of_subset hD hsub
        have h5 := h3 (r, l) (AMap.mem_entries_of_get hl)
        simp only at h5
        omega

theorem removeView_all {g : ViewGraph I} (h : Inv g) (v : Nat) :
    Inv (g.removeView v).2 ∧
    (∀ p, (g.removeView v).2.edges.get p = if p.1 = v ∨ p.2 = v then none else g.edges.get p) ∧
    (∀ x, x ∈ (g.removeView v).2.vertices.keys ↔ x ≠ v ∧ x ∈ g.vertices.keys) := by
  by_cases hv : v ∈ g.vertices.keys
  · exact (removeView_spec h hv).2
  · rw [removeView_unknown hv]
    refine ⟨h, ?_, ?_⟩
    · intro p
      split
      · rename_i hp
        rw [AMap.get_eq_none_iff]
        intro hm
        have hlt := h.lt p hm
        have hm' : ordPair p.1 p.2 ∈ g.edges.keys := by rw [ordPair_of_lt hlt]; exact hm
        rcases hp with rfl | rfl
        · exact hv (h.dom _ _ hm')
        · exact hv (h.dom' hm')
      · rfl
    · intro x
      constructor
      · intro hx; exact ⟨fun e => hv (e ▸ hx), hx⟩
      · exact fun hx => hx.2

theorem removeViews_spec (l : List Nat) (g : ViewGraph I) (removed : List Nat) (h : Inv g) :
    Inv (removeViews l g removed).1 ∧
    (∀ p, (removeViews l g removed).1.edges.get p = if p.1 ∈ l ∨ p.2 ∈ l then none else g.edges.get p) ∧
    (∀ x, x ∈ (removeViews l g removed).1.vertices.keys ↔ x ∉ l ∧ x ∈ g.vertices.keys) ∧
    (∀ x, x ∈ (removeViews l g removed).2 ↔ x ∈ l ∨ x ∈ removed) ∧
    (removed.Nodup → (removeViews l g removed).2.Nodup) := by
  induction l generalizing g removed with
  | nil => simp [removeViews, h]
  | cons v l ih =>
    obtain ⟨a1, a2, a3⟩ := removeView_all h v
    obtain ⟨b1, b2, b3, b4, b5⟩ := ih (g.removeView v).2 (setInsert removed v) a1
    simp only [removeViews]
    refine ⟨b1, ?_, ?_, ?_, ?_⟩
    · intro p
      rw [b2, a2]
      simp only [List.mem_cons]
      by_cases h1 : p.1 ∈ l ∨ p.2 ∈ l
      · have : (p.1 = v ∨ p.1 ∈ l) ∨ p.2 = v ∨ p.2 ∈ l := by
          rcases h1 with h1 | h1
          · exact Or.inl (Or.inr h1)
          · exact Or.inr (Or.inr h1)
        simp [h1, this]
      · rw [if_neg h1]
        simp only [not_or] at h1
        simp [h1.1, h1.2]
    · intro x; rw [b3, a3]; simp only [List.mem_cons, not_or]
      constructor
      · rintro ⟨p, q, r⟩; exact ⟨⟨q, p⟩, r⟩
      · rintro ⟨⟨q, p⟩, r⟩; exact ⟨p, q, r⟩
    · intro x; rw [b4, mem_setInsert]; simp only [List.mem_cons]
      constructor
      · rintro (p | p | p)
        · exact Or.inl (Or.inr p)
        · exact Or.inl (Or.inl p)
        · exact Or.inr p
      · rintro ((p | p) | p)
        · exact Or.inr (Or.inl p)
        · exact Or.inl p
        · exact Or.inr (Or.inr p)
    · intro hnd; exact b5 (nodup_setInsert hnd v)

theorem removeComps_spec (keep : Option Nat) (es : List (Nat × List Nat)) (g : ViewGraph I)
    (removed : List Nat) (h : Inv g) :
    Inv (removeComps keep es g removed).1 ∧
    (∀ p, (removeComps keep es g removed).1.edges.get p =
      if ∃ e ∈ es, some e.1 ≠ keep ∧ (p.1 ∈ e.2 ∨ p.2 ∈ e.2) then none else g.edges.get p) ∧
    (∀ x, x ∈ (removeComps keep es g removed).1.vertices.keys ↔
      (¬ ∃ e ∈ es, some e.1 ≠ keep ∧ x ∈ e.2) ∧ x ∈ g.vertices.keys) ∧
    (∀ x, x ∈ (removeComps keep es g removed).2 ↔ (∃ e ∈ es, some e.1 ≠ keep ∧ x ∈ e.2) ∨ x ∈ removed) ∧
    (removed.Nodup → (removeComps keep es g removed).2.Nodup) := by
  induction es generalizing g removed with
  | nil => simp [removeComps, h]
  | cons e es ih =>
    obtain ⟨r, l⟩ := e
    simp only [removeComps]
    by_cases hr : some r = keep
    · rw [if_pos hr]
      have hiff : ∀ P : Nat × List Nat → Prop, (∃ e ∈ (r, l) :: es, some e.1 ≠ keep ∧ P e) ↔
          ∃ e ∈ es, some e.1 ≠ keep ∧ P e := by
        intro P
        simp only [List.mem_cons, exists_eq_or_imp, ne_eq, hr, not_true_eq_false, false_and, false_or]
      simp only [hiff]
      exact ih g removed h
    · rw [if_neg hr]
      obtain ⟨a1, a2, a3, a4, a5⟩ := removeViews_spec l g removed h
      obtain ⟨b1, b2, b3, b4, b5⟩ := ih _ (removeViews l g removed).2 a1
      refine ⟨b1, ?_, ?_, ?_, fun hnd => b5 (a5 hnd)⟩
      · intro p
        rw [b2, a2]
        simp only [List.mem_cons, exists_eq_or_imp, hr, ne_eq, not_false_iff, true_and]
        by_cases h1 : ∃ e, e ∈ es ∧ ¬some e.1 = keep ∧ (p.1 ∈ e.2 ∨ p.2 ∈ e.2)
        · simp [h1]
        · simp [h1]
      · intro x
        rw [b3, a3]
        simp only [List.mem_cons, exists_eq_or_imp, hr, ne_eq, not_false_iff, true_and, not_or]
        constructor
        · rintro ⟨p, q, r⟩; exact ⟨⟨q, p⟩, r⟩
        · rintro ⟨⟨q, p⟩, r⟩; exact ⟨p, q, r⟩
      · intro x
        rw [b4, a4]
        simp only [List.mem_cons, exists_eq_or_imp, hr, ne_eq, not_false_iff, true_and]
        constructor
        · rintro (p | p | p)
          · exact Or.inl (Or.inr p)
          · exact Or.inl (Or.inl p)
          · exact Or.inr p
        · rintro ((p | p) | p)
          · exact Or.inr (Or.inl p)
          · exact Or.inl p
          · exact Or.inr (Or.inr p)

end ViewGraph
end Theia
