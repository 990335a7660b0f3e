import Verif.Spec.Global
import Verif.Proof.Incremental
import Verif.Proof.RotationFilters
import Verif.Props.ViewGraph
import Verif.Props.EstimatorUtils

/-! Global reconstruction: the view graph. -/

namespace Theia
namespace Global

open Spec ViewGraph
open Incremental (TwoView)

variable {F P M O X L N W D C E I : Type}

/-! ### Histories -/

/-- The graph results from calls. -/
def IsRun (g : ViewGraph I) : Prop := ∃ ops, g = ViewGraph.run ops

theorem run_snoc (ops : List (Op I)) (op : Op I) : ViewGraph.run (ops ++ [op]) = ((ViewGraph.run ops).step op).2 := by
  unfold ViewGraph.run
  rw [List.foldl_append]
  rfl

theorem IsRun.inv {g : ViewGraph I} (h : IsRun g) : g.Inv := by
  obtain ⟨ops, rfl⟩ := h
  exact (rep_run ops).inv

theorem IsRun.removeView {g : ViewGraph I} (h : IsRun g) (v : Nat) : IsRun (g.removeView v).2 := by
  obtain ⟨ops, rfl⟩ := h
  refine ⟨ops ++ [Op.removeView v], ?_⟩
  rw [run_snoc]
  rfl

theorem IsRun.setEdge {g : ViewGraph I} (h : IsRun g) (a b : Nat) (i : I) : IsRun (g.setEdge a b i) := by
  obtain ⟨ops, rfl⟩ := h
  refine ⟨ops ++ [Op.setEdge a b i], ?_⟩
  rw [run_snoc]
  rfl

theorem IsRun.removeAll {g : ViewGraph I} (h : IsRun g) (ps : List (Nat × Nat)) : IsRun (RotationFilters.removeAll ps g) := by
  obtain ⟨ops, rfl⟩ := h
  exact ⟨_, RotationFilters.removeAll_run ps ops⟩

theorem IsRun.removeViews (l : List Nat) : ∀ {g : ViewGraph I} (_ : IsRun g) (removed : List Nat),
    IsRun (ViewGraph.removeViews l g removed).1 := by
  induction l with
  | nil => intro g h _; exact h
  | cons v l ih => intro g h removed; exact ih (h.removeView v) _

theorem IsRun.removeComps (keep : Option Nat) (es : List (Nat × List Nat)) : ∀ {g : ViewGraph I} (_ : IsRun g)
    (removed : List Nat), IsRun (ViewGraph.removeComps keep es g removed).1 := by
  induction es with
  | nil => intro g h _; exact h
  | cons e es ih =>
    obtain ⟨r, l⟩ := e
    intro g h removed
    rw [ViewGraph.removeComps]
    split
    · exact ih h removed
    · exact ih (h.removeViews l removed) _

theorem IsRun.removeDisconnected {g g' : ViewGraph I} (h : IsRun g) {removed : List Nat}
    (h' : g.removeDisconnected = .ok (g', removed)) : IsRun g' := by
  unfold ViewGraph.removeDisconnected at h'
  split at h'
  · cases h'
  · cases h'
  · split at h'
    · cases h'
    · cases h'
    · have := Outcome.ok.inj h'
      have e : g' = (ViewGraph.removeComps _ _ g []).1 := (congrArg Prod.fst this).symm
      rw [e]
      exact h.removeComps _ _ _

theorem IsRun.runTasks (optimize : List (E × E) → O → O → I → I) (ks : List (EstimatorUtils.Task O E)) :
    ∀ {g : ViewGraph I}, IsRun g → IsRun (EstimatorUtils.runTasks optimize ks g) := by
  induction ks with
  | nil => intro g h; exact h
  | cons k ks ih =>
    intro g h
    rw [EstimatorUtils.runTasks]
    split
    · exact ih h
    · exact ih (h.setEdge _ _ _)

/-! ### Pairs -/

theorem IsRun.mem_pairs {g : ViewGraph I} (h : IsRun g) {a b : Nat} :
    (a, b) ∈ pairsOf g ↔ a < b ∧ ∃ i, g.getEdge a b = some i := by
  obtain ⟨ops, rfl⟩ := h
  have := (C09_counts ops).2.2.2.2.2
  unfold pairsOf
  constructor
  · intro hm
    obtain ⟨⟨⟨x, y⟩, i⟩, he, hxy⟩ := List.mem_map.1 hm
    cases hxy
    obtain ⟨h1, h2⟩ := (this a b i).1 he
    exact ⟨h1, i, h2⟩
  · rintro ⟨h1, i, h2⟩
    exact List.mem_map.2 ⟨_, (this a b i).2 ⟨h1, h2⟩, rfl⟩

theorem IsRun.comm {g : ViewGraph I} (h : IsRun g) (a b : Nat) : g.getEdge a b = g.getEdge b a := by
  obtain ⟨ops, rfl⟩ := h
  exact (C09_symmetric_irreflexive ops a b).1

theorem IsRun.ne {g : ViewGraph I} (h : IsRun g) {a b : Nat} {i : I} (he : g.getEdge a b = some i) : a ≠ b := by
  obtain ⟨ops, rfl⟩ := h
  rintro rfl
  rw [(C09_symmetric_irreflexive ops a a).2.1] at he
  cases he

theorem IsRun.ends {g : ViewGraph I} (h : IsRun g) {a b : Nat} {i : I} (he : g.getEdge a b = some i) :
    g.hasView a = true ∧ g.hasView b = true := by
  obtain ⟨ops, rfl⟩ := h
  exact (C09_symmetric_irreflexive ops a b).2.2 i he

theorem IsRun.node {g : ViewGraph I} (h : IsRun g) {v : Nat} : IsNode (pairsOf g) v ↔ ∃ w i, g.getEdge v w = some i := by
  constructor
  · rintro ⟨⟨a, b⟩, he, hv⟩
    obtain ⟨_, i, hi⟩ := h.mem_pairs.1 he
    rcases hv with rfl | rfl
    · exact ⟨b, i, hi⟩
    · exact ⟨a, i, by rw [h.comm]; exact hi⟩
  · rintro ⟨w, i, hi⟩
    rcases lt_or_gt_of_ne (h.ne hi) with hlt | hlt
    · exact ⟨(v, w), h.mem_pairs.2 ⟨hlt, i, hi⟩, Or.inl rfl⟩
    · exact ⟨(w, v), h.mem_pairs.2 ⟨hlt, i, by rw [h.comm]; exact hi⟩, Or.inr rfl⟩

theorem isNode_mono {E E' : List (Nat × Nat)} (h : ∀ e ∈ E, e ∈ E') {v : Nat} (hv : IsNode E v) : IsNode E' v := by
  obtain ⟨e, he, hv⟩ := hv
  exact ⟨e, h e he, hv⟩

theorem connected_mono {E E' : List (Nat × Nat)} (h : ∀ e ∈ E, e ∈ E') {a b : Nat} (hc : Connected E a b) :
    Connected E' a b := by
  induction hc with
  | refl => exact .refl
  | step _ hadj ih =>
    refine ih.step ?_
    unfold Adjacent at *
    rcases hadj with h' | h'
    · exact Or.inl (h _ h')
    · exact Or.inr (h _ h')

theorem BiggestComponent.congr {E E' : List (Nat × Nat)} (h : ∀ e, e ∈ E ↔ e ∈ E') {C : List Nat}
    (hc : BiggestComponent E C) : BiggestComponent E' C where
  nonempty := hc.nonempty
  nodup := hc.nodup
  node x hx := isNode_mono (fun e he => (h e).1 he) (hc.node x hx)
  exact x hx y := (hc.exact x hx y).trans
    ⟨connected_mono fun e he => (h e).1 he, connected_mono fun e he => (h e).2 he⟩
  largest D h1 h2 h3 := hc.largest D h1 (fun x hx => isNode_mono (fun e he => (h e).2 he) (h2 x hx))
    fun x hx y hy => connected_mono (fun e he => (h e).2 he) (h3 x hx y hy)

/-! ### Parts of a view graph -/

/-- `g'` has some of the views and edges of `g`, up to the relative positions. -/
structure Part (g g' : ViewGraph (TwoView O X L)) : Prop where
  run : IsRun g → IsRun g'
  views : ∀ v, g'.hasView v = true → g.hasView v = true
  edges : ∀ a b i', g'.getEdge a b = some i' → ∃ i x, g.getEdge a b = some i ∧ i' = { i with position2 := x }

theorem Part.refl (g : ViewGraph (TwoView O X L)) : Part g g := ⟨id, fun _ h => h, fun _ _ i h => ⟨i, i.position2, h, rfl⟩⟩

theorem Part.trans {g1 g2 g3 : ViewGraph (TwoView O X L)} (h : Part g1 g2) (h' : Part g2 g3) : Part g1 g3 where
  run r := h'.run (h.run r)
  views v hv := h.views v (h'.views v hv)
  edges a b i hi := by
    obtain ⟨j, x, hj, rfl⟩ := h'.edges a b i hi
    obtain ⟨k, y, hk, rfl⟩ := h.edges a b j hj
    exact ⟨k, x, hk, rfl⟩

theorem Part.node {g g' : ViewGraph (TwoView O X L)} (h : Part g g') (hr : IsRun g) {v : Nat} (hv : IsNode (pairsOf g') v) :
    IsNode (pairsOf g) v := by
  obtain ⟨w, i, hi⟩ := (h.run hr).node.1 hv
  obtain ⟨j, _, hj, _⟩ := h.edges v w i hi
  exact hr.node.2 ⟨w, j, hj⟩

/-- Both ends of an edge have an orientation. -/
def Oriented (m : AMap ViewId O) (g : ViewGraph (TwoView O X L)) : Prop :=
  ∀ a b i, g.getEdge a b = some i → ∃ o, m.get a = some o

theorem Oriented.part {m : AMap ViewId O} {g g' : ViewGraph (TwoView O X L)} (h : Oriented m g) (hp : Part g g') :
    Oriented m g' := by
  intro a b i hi
  obtain ⟨j, _, hj, _⟩ := hp.edges a b i hi
  exact h a b j hj

theorem removeAll_edges {g : ViewGraph I} (hr : IsRun g) {ps : List (Nat × Nat)} (hps : ∀ p ∈ ps, p ∈ pairsOf g) (a b : Nat) :
    (RotationFilters.removeAll ps g).getEdge a b = if ordPair a b ∈ ps then none else g.getEdge a b :=
  (RotationFilters.removeAll_spec ps g hr.inv fun p hp => (hr.mem_pairs (a := p.1) (b := p.2) |>.1 (hps p hp)).1).2.1 _

theorem removeAll_views {g : ViewGraph I} (hr : IsRun g) {ps : List (Nat × Nat)} (hps : ∀ p ∈ ps, p ∈ pairsOf g) (v : Nat) :
    (RotationFilters.removeAll ps g).hasView v = g.hasView v := by
  have := (RotationFilters.removeAll_spec ps g hr.inv
    fun p hp => (hr.mem_pairs (a := p.1) (b := p.2) |>.1 (hps p hp)).1).2.2 v
  rw [Bool.eq_iff_iff]
  unfold hasView
  rw [AMap.contains_iff, AMap.contains_iff]
  exact this

theorem part_removeAll {g : ViewGraph (TwoView O X L)} (hr : IsRun g) {ps : List (Nat × Nat)}
    (hps : ∀ p ∈ ps, p ∈ pairsOf g) : Part g (RotationFilters.removeAll ps g) where
  run h := h.removeAll ps
  views v hv := by rw [removeAll_views hr hps] at hv; exact hv
  edges a b i hi := by
    rw [removeAll_edges hr hps] at hi
    split at hi
    · cases hi
    · exact ⟨i, i.position2, hi, rfl⟩

theorem part_removeView {g : ViewGraph (TwoView O X L)} (hr : IsRun g) (v : Nat) : Part g (g.removeView v).2 where
  run h := h.removeView v
  views w hw := by
    have := (removeView_all hr.inv v).2.2 w
    unfold hasView at *
    rw [AMap.contains_iff] at *
    exact (this.1 hw).2
  edges a b i hi := by
    have := (removeView_all hr.inv v).2.1 (ordPair a b)
    unfold getEdge at *
    rw [this] at hi
    split at hi
    · cases hi
    · exact ⟨i, i.position2, hi, rfl⟩

/-! ### `RemoveDisconnectedViewPairs` -/

theorem _root_.Theia.Spec.ValidIds.part {g g' : ViewGraph (TwoView O X L)} (h : ValidIds g) (hp : Part g g') : ValidIds g' :=
  fun v hv => h v (hp.views v hv)

/-- What the removal of all but one component does. -/
structure Largest (g g' : ViewGraph (TwoView O X L)) (removed : List Nat) : Prop where
  part : Part g g'
  linked : Linked g'
  gone : ∀ v ∈ removed, g'.hasView v = false
  kept : ∀ v, g.hasView v = true → v ∉ removed → g'.hasView v = true
  edges : ∀ a b i, g.getEdge a b = some i → g'.getEdge a b = some i ∨ a ∈ removed
  component : pairsOf g ≠ [] → ∃ comp, BiggestComponent (pairsOf g) comp ∧
    ∀ a b, g'.getEdge a b = if a ∈ comp ∧ b ∈ comp then g.getEdge a b else none

theorem removeDisconnected_ok {g : ViewGraph (TwoView O X L)} (hr : IsRun g) (hids : ValidIds g) :
    ∃ g' removed, g.removeDisconnected = .ok (g', removed) ∧ Largest g g' removed := by
  obtain ⟨ops, hops⟩ := id hr
  by_cases hne : pairsOf g = []
  · have hne' : (ViewGraph.run ops).allEdges = [] := by
      rw [← hops]
      exact List.map_eq_nil_iff.1 hne
    have := C11_no_edges_unchanged ops hne'
    rw [← hops] at this
    refine ⟨g, [], this, .refl g, ?_, by simp, fun v hv _ => hv, fun a b i hi => Or.inl hi, fun h => absurd hne h⟩
    intro x y hx
    rw [hne] at hx
    obtain ⟨e, he, _⟩ := hx
    cases he
  · have hids' : ∀ v ∈ (ViewGraph.run ops).viewIds, v < maxViewId := by
      intro v hv
      apply hids v
      rw [hops]
      exact ((C09_counts ops).2.2.1 v).1 hv
    have hne' : (ViewGraph.run ops).allEdges ≠ [] := by
      rw [← hops]
      exact fun h => hne (List.map_eq_nil_iff.2 h)
    obtain ⟨g', removed, comp, h1, h2, h3, _, h5, h6, h7, h8, h9, h10⟩ := C11_keeps_one_largest_component ops hids' hne'
    rw [← hops] at h1 h5 h6 h7 h8 h9
    have hcomp : BiggestComponent (pairsOf g) comp := ⟨h2, h3, fun x hx => (h5 x hx).1, fun x hx => (h5 x hx).2, h6⟩
    refine ⟨g', removed, h1, ⟨fun h => h.removeDisconnected h1, fun v hv => ((h9 v).1 hv).1, ?_⟩, h10, ?_, ?_, ?_, ?_⟩
    · intro a b i hi
      rw [h8] at hi
      split at hi
      · exact ⟨i, i.position2, hi, rfl⟩
      · cases hi
    · intro v hv
      rw [Bool.eq_false_iff]
      intro h
      exact ((h9 v).1 h).2 hv
    · intro v hv hn
      exact (h9 v).2 ⟨hv, hn⟩
    · intro a b i hi
      rw [h8]
      have hna : IsNode (pairsOf g) a := hr.node.2 ⟨b, i, hi⟩
      by_cases ha : a ∈ comp
      · have hb : b ∈ comp := by
          refine ((h5 a ha).2 b).2 (.single ?_)
          unfold Adjacent
          rcases lt_or_gt_of_ne (hr.ne hi) with hlt | hlt
          · exact Or.inl (hr.mem_pairs.2 ⟨hlt, i, hi⟩)
          · exact Or.inr (hr.mem_pairs.2 ⟨hlt, i, by rw [hr.comm]; exact hi⟩)
        rw [if_pos ⟨ha, hb⟩]
        exact Or.inl hi
      · exact Or.inr ((h7 a).2 ⟨hna, ha⟩)
    · intro _
      exact ⟨comp, hcomp, h8⟩

theorem eraseAll_get (removed : List ViewId) : ∀ (m : AMap ViewId O) (v : ViewId),
    (eraseAll removed m).get v = if v ∈ removed then none else m.get v := by
  induction removed with
  | nil => intro m v; simp [eraseAll]
  | cons w ws ih =>
    intro m v
    have : eraseAll (w :: ws) m = eraseAll ws (m.erase w) := rfl
    rw [this, ih, AMap.get_erase]
    by_cases h1 : v ∈ ws
    · simp [h1]
    · by_cases h2 : v = w
      · simp [h2]
      · simp [h1, h2]

theorem eraseAll_keys {removed : List ViewId} {m : AMap ViewId O} {v : ViewId} (hv : v ∈ (eraseAll removed m).keys) :
    v ∈ m.keys ∧ v ∉ removed := by
  obtain ⟨o, ho⟩ := AMap.mem_keys_iff.1 hv
  rw [eraseAll_get] at ho
  split at ho
  · cases ho
  · next h => exact ⟨AMap.mem_keys_iff.2 ⟨o, ho⟩, h⟩

/-- Views that keep an edge keep their orientation. -/
theorem Largest.get {g g' : ViewGraph (TwoView O X L)} {removed : List Nat} (h : Largest g g' removed) (hr : IsRun g)
    {m : AMap ViewId O} {a b : Nat} {i : TwoView O X L} (hi : g'.getEdge a b = some i) :
    (eraseAll removed m).get a = m.get a := by
  rw [eraseAll_get]
  split
  · next ha =>
    have := h.gone a ha
    rw [((h.part.run hr).ends hi).1] at this
    cases this
  · rfl

theorem Largest.oriented {g g' : ViewGraph (TwoView O X L)} {removed : List Nat} (h : Largest g g' removed) (hr : IsRun g)
    {m : AMap ViewId O} (ho : Oriented m g) : Oriented (eraseAll removed m) g' := by
  intro a b i hi
  rw [h.get hr hi]
  obtain ⟨j, _, hj, _⟩ := h.part.edges a b i hi
  exact ho a b j hj

/-! ### The filters -/

variable {num : Numerics F P M O X L N W D C E} {o : Options}

theorem mem_filter_pairs {g : ViewGraph (TwoView O X L)} {f : (Nat × Nat) × TwoView O X L → Bool} (hr : IsRun g) {a b : Nat} :
    (a, b) ∈ (g.allEdges.filter f).map (·.1) ↔ a < b ∧ ∃ i, g.getEdge a b = some i ∧ f ((a, b), i) = true := by
  obtain ⟨ops, rfl⟩ := hr
  have := (C09_counts ops).2.2.2.2.2
  constructor
  · intro hm
    obtain ⟨⟨⟨x, y⟩, i⟩, he, hxy⟩ := List.mem_map.1 hm
    cases hxy
    obtain ⟨he, hf⟩ := List.mem_filter.1 he
    obtain ⟨h1, h2⟩ := (this a b i).1 he
    exact ⟨h1, i, h2, hf⟩
  · rintro ⟨h1, i, h2, hf⟩
    exact List.mem_map.2 ⟨_, List.mem_filter.2 ⟨(this a b i).2 ⟨h1, h2⟩, hf⟩, rfl⟩

theorem filter_pairs_sub {g : ViewGraph (TwoView O X L)} {f : (Nat × Nat) × TwoView O X L → Bool} (hr : IsRun g) :
    ∀ p ∈ (g.allEdges.filter f).map (·.1), p ∈ pairsOf g := by
  rintro ⟨a, b⟩ hp
  obtain ⟨h1, i, h2, _⟩ := (mem_filter_pairs hr).1 hp
  exact hr.mem_pairs.2 ⟨h1, i, h2⟩

theorem numEdges_pairs (g : ViewGraph I) : g.numEdges = (pairsOf g).length := by
  unfold pairsOf
  rw [List.length_map]
  rfl

/-- What is left of the graph after the first filter. -/
structure Initial (minMatches : Int) (g g' : ViewGraph (TwoView O X L)) : Prop where
  part : Part g g'
  linked : Linked g'
  strong : ∀ a b i, g'.getEdge a b = some i → minMatches ≤ i.verifiedMatches
  component : strongPairs minMatches g ≠ [] → ∃ comp, BiggestComponent (strongPairs minMatches g) comp ∧
    ∀ a b, g'.getEdge a b = if a ∈ comp ∧ b ∈ comp then
      (g.getEdge a b).filter fun i => decide (minMatches ≤ i.verifiedMatches) else none

theorem filterInitial_ok (hn : GlobalWellBehaved num) (o : Options) {g : ViewGraph (TwoView O X L)} (hr : IsRun g)
    (hids : ValidIds g) :
    ∃ b g', filterInitial num o g = .ok (b, g') ∧ Initial o.minMatches g g' ∧ (b = true ↔ pairsOf g' ≠ []) ∧
      (b = true ↔ strongPairs o.minMatches g ≠ []) := by
  unfold filterInitial
  simp only
  generalize hw : (g.allEdges.filter fun e => decide (e.2.verifiedMatches < o.minMatches)).map (·.1) = weak
  have hsub : ∀ p ∈ num.pairs 0 weak, p ∈ pairsOf g := by
    intro p hp
    refine filter_pairs_sub hr p ?_ (f := fun e => decide (e.2.verifiedMatches < o.minMatches))
    rw [hw]
    exact (hn.pairs 0 weak).mem_iff.1 hp
  have hpart := part_removeAll hr hsub
  have hr1 := hpart.run hr
  have hedge : ∀ a b, (RotationFilters.removeAll (num.pairs 0 weak) g).getEdge a b =
      (g.getEdge a b).filter fun i => decide (o.minMatches ≤ i.verifiedMatches) := by
    intro a b
    rw [removeAll_edges hr hsub]
    cases hi : g.getEdge a b with
    | none => simp
    | some i =>
      have hmem : ordPair a b ∈ num.pairs 0 weak ↔ i.verifiedMatches < o.minMatches := by
        rw [(hn.pairs 0 weak).mem_iff, ← hw]
        have hne := hr.ne hi
        rcases lt_or_gt_of_ne hne with hlt | hlt
        · rw [ordPair_of_lt hlt, mem_filter_pairs hr]
          simp [hlt, hi]
        · rw [ordPair_comm, ordPair_of_lt hlt, mem_filter_pairs hr, hr.comm b a, hi]
          simp [hlt]
      by_cases hm : i.verifiedMatches < o.minMatches
      · rw [if_pos (hmem.2 hm)]
        simp [Option.filter, not_le.2 hm]
      · rw [if_neg (fun h => hm (hmem.1 h))]
        simp [Option.filter, not_lt.1 hm]
  generalize RotationFilters.removeAll (num.pairs 0 weak) g = g1 at *
  obtain ⟨g2, removed, h1, h2⟩ := removeDisconnected_ok hr1 (hids.part hpart)
  rw [h1]
  simp only [Outcome.ok_bind]
  have hpairs : ∀ e, e ∈ pairsOf g1 ↔ e ∈ strongPairs o.minMatches g := by
    rintro ⟨a, b⟩
    unfold strongPairs
    rw [hr1.mem_pairs, mem_filter_pairs hr]
    refine and_congr_right fun _ => exists_congr fun i => ?_
    rw [hedge]
    cases g.getEdge a b with
    | none => simp
    | some j =>
      simp only [Option.filter]
      split
      · next h => 
        constructor
        · rintro h'; cases h'; exact ⟨rfl, h⟩
        · rintro ⟨h', _⟩; exact h'
      · next h =>
        constructor
        · intro h'; cases h'
        · rintro ⟨h', h''⟩; cases h'; exact absurd h'' h
  have hnil : pairsOf g1 = [] ↔ strongPairs o.minMatches g = [] := by
    rw [List.eq_nil_iff_forall_not_mem, List.eq_nil_iff_forall_not_mem]
    exact forall_congr' fun e => not_congr (hpairs e)
  have hnil2 : pairsOf g2 = [] ↔ pairsOf g1 = [] := by
    constructor
    · intro h
      by_contra hne
      obtain ⟨comp, hc, he⟩ := h2.component hne
      obtain ⟨x, hx⟩ := List.exists_mem_of_ne_nil _ hc.nonempty
      obtain ⟨y, i, hi⟩ := hr1.node.1 (hc.node x hx)
      have hy : y ∈ comp := by
        refine (hc.exact x hx y).2 (.single ?_)
        unfold Adjacent
        rcases lt_or_gt_of_ne (hr1.ne hi) with hlt | hlt
        · exact Or.inl (hr1.mem_pairs.2 ⟨hlt, i, hi⟩)
        · exact Or.inr (hr1.mem_pairs.2 ⟨hlt, i, by rw [hr1.comm]; exact hi⟩)
      have : IsNode (pairsOf g2) x := (h2.part.run hr1).node.2 ⟨y, i, by rw [he, if_pos ⟨hx, hy⟩]; exact hi⟩
      rw [h] at this
      obtain ⟨e, he, _⟩ := this
      cases he
    · intro h
      rw [List.eq_nil_iff_forall_not_mem]
      rintro ⟨a, b⟩ he
      obtain ⟨hlt, i, hi⟩ := (h2.part.run hr1).mem_pairs.1 he
      obtain ⟨j, _, hj, _⟩ := h2.part.edges a b i hi
      have := hr1.mem_pairs.2 ⟨hlt, j, hj⟩
      rw [h] at this
      cases this
  have hb : (decide (1 ≤ g2.numEdges) = true) ↔ pairsOf g2 ≠ [] := by
    rw [decide_eq_true_iff, numEdges_pairs]
    constructor
    · intro h h'; rw [h'] at h; simp at h
    · exact List.length_pos_of_ne_nil
  refine ⟨_, g2, rfl, ⟨hpart.trans h2.part, h2.linked, ?_, ?_⟩, hb, hb.trans (not_congr (hnil2.trans hnil))⟩
  · intro a b i hi
    obtain ⟨j, x, hj, rfl⟩ := h2.part.edges a b i hi
    rw [hedge] at hj
    cases hg : g.getEdge a b with
    | none => rw [hg] at hj; cases hj
    | some k =>
      rw [hg] at hj
      simp only [Option.filter] at hj
      split at hj
      · next h => cases hj; exact of_decide_eq_true h
      · cases hj
  · intro hne
    obtain ⟨comp, hc, he⟩ := h2.component (fun h => hne (hnil.1 h))
    refine ⟨comp, BiggestComponent.congr hpairs hc, ?_⟩
    intro a b
    rw [he, hedge]

/-- Each edge joins views with orientations that agree with it. -/
def Agree (num : Numerics F P M O X L N W D C E) (m : AMap ViewId O) (g : ViewGraph (TwoView O X L)) : Prop :=
  ∀ a b i, a < b → g.getEdge a b = some i →
    ∃ o1 o2, m.get a = some o1 ∧ m.get b = some o2 ∧ num.acceptable o1 o2 i.rotation2 = true

theorem Agree.oriented {m : AMap ViewId O} {g : ViewGraph (TwoView O X L)} (h : Agree num m g) (hr : IsRun g) :
    Oriented m g := by
  intro a b i hi
  rcases lt_or_gt_of_ne (hr.ne hi) with hlt | hlt
  · obtain ⟨o1, _, h1, _⟩ := h a b i hlt hi
    exact ⟨o1, h1⟩
  · obtain ⟨_, o2, _, h1, _⟩ := h b a i hlt (by rw [hr.comm]; exact hi)
    exact ⟨o2, h1⟩

theorem Agree.part {m : AMap ViewId O} {g g' : ViewGraph (TwoView O X L)} (h : Agree num m g) (hp : Part g g') :
    Agree num m g' := by
  intro a b i hlt hi
  obtain ⟨j, x, hj, rfl⟩ := hp.edges a b i hi
  exact h a b j hlt hj

theorem Largest.agree {g g' : ViewGraph (TwoView O X L)} {removed : List Nat} (h : Largest g g' removed) (hr : IsRun g)
    {m : AMap ViewId O} (ha : Agree num m g) : Agree num (eraseAll removed m) g' := by
  intro a b i hlt hi
  rw [h.get hr hi, h.get hr (b := a) (i := i) (by rw [(h.part.run hr).comm]; exact hi)]
  exact ha.part h.part a b i hlt hi

theorem filterRotations_ok (hn : GlobalWellBehaved num) (ho : 0 ≤ o.rotationTolerance) {g : ViewGraph (TwoView O X L)}
    (hr : IsRun g) (hids : ValidIds g) (m : AMap ViewId O) (hm : ∀ v ∈ m.keys, g.hasView v = true) :
    ∃ g' m', filterRotations num o m g = .ok (g', m') ∧ Part g g' ∧ Agree num m' g' ∧
      (∀ v ∈ m'.keys, g'.hasView v = true) ∧ ∀ v o, m'.get v = some o → m.get v = some o := by
  unfold filterRotations
  rw [if_neg (not_lt.2 ho)]
  simp only
  generalize hw : (g.allEdges.filter (badRotation num m)).map (·.1) = bad
  have hsub : ∀ p ∈ num.pairs 1 bad, p ∈ pairsOf g := by
    intro p hp
    refine filter_pairs_sub hr p ?_ (f := badRotation num m)
    rw [hw]
    exact (hn.pairs 1 bad).mem_iff.1 hp
  have hpart := part_removeAll hr hsub
  have hr1 := hpart.run hr
  have hagree : Agree num m (RotationFilters.removeAll (num.pairs 1 bad) g) := by
    intro a b i hlt hi
    rw [removeAll_edges hr hsub, ordPair_of_lt hlt] at hi
    split at hi
    · cases hi
    · next hnot =>
      rw [(hn.pairs 1 bad).mem_iff, ← hw, mem_filter_pairs hr] at hnot
      have : ¬ badRotation num m ((a, b), i) = true := fun h => hnot ⟨hlt, i, hi, h⟩
      unfold badRotation at this
      simp only at this
      split at this
      · next o1 o2 h1 h2 => exact ⟨o1, o2, h1, h2, by simpa using this⟩
      · exact absurd rfl this
  have hv : ∀ v ∈ m.keys, (RotationFilters.removeAll (num.pairs 1 bad) g).hasView v = true := by
    intro v hv
    rw [removeAll_views hr hsub]
    exact hm v hv
  generalize RotationFilters.removeAll (num.pairs 1 bad) g = g1 at *
  obtain ⟨g2, removed, h1, h2⟩ := removeDisconnected_ok hr1 (hids.part hpart)
  rw [h1]
  simp only [Outcome.ok_bind]
  refine ⟨g2, _, rfl, hpart.trans h2.part, h2.agree hr1 hagree, ?_, ?_⟩
  · intro v hv'
    obtain ⟨h3, h4⟩ := eraseAll_keys hv'
    exact h2.kept v (hv v h3) h4
  · intro v o ho
    rw [eraseAll_get] at ho
    split at ho
    · cases ho
    · exact ho

theorem filterRotations_exact (hn : GlobalWellBehaved num) (ho : 0 ≤ o.rotationTolerance) {g : ViewGraph (TwoView O X L)}
    (hr : IsRun g) (hids : ValidIds g) (m : AMap ViewId O) (hm : ∀ v ∈ m.keys, g.hasView v = true) :
    ∃ g' m', filterRotations num o m g = .ok (g', m') ∧ (agreeingPairs num m g = [] → pairsOf g' = []) ∧
      (agreeingPairs num m g ≠ [] → ∃ comp, BiggestComponent (agreeingPairs num m g) comp ∧
        ∀ a b, g'.getEdge a b = if a ∈ comp ∧ b ∈ comp ∧ ordPair a b ∈ agreeingPairs num m g then g.getEdge a b else none) ∧
      ∀ v, m'.get v = if g'.hasView v = true then m.get v else none := by
  unfold filterRotations
  rw [if_neg (not_lt.2 ho)]
  simp only
  generalize hw : (g.allEdges.filter (badRotation num m)).map (·.1) = bad
  have hsub : ∀ p ∈ num.pairs 1 bad, p ∈ pairsOf g := by
    intro p hp
    refine filter_pairs_sub hr p ?_ (f := badRotation num m)
    rw [hw]
    exact (hn.pairs 1 bad).mem_iff.1 hp
  have hpart := part_removeAll hr hsub
  have hr1 := hpart.run hr
  have hgood : ∀ e, badRotation num m e = !(match m.get e.1.1, m.get e.1.2 with
      | some o1, some o2 => num.acceptable o1 o2 e.2.rotation2
      | _, _ => false) := by
    intro e
    unfold badRotation
    cases m.get e.1.1 <;> cases m.get e.1.2 <;> rfl
  have hedge : ∀ a b, (RotationFilters.removeAll (num.pairs 1 bad) g).getEdge a b =
      if ordPair a b ∈ agreeingPairs num m g then g.getEdge a b else none := by
    intro a b
    rw [removeAll_edges hr hsub]
    cases hi : g.getEdge a b with
    | none => simp
    | some i =>
      have hmem : ordPair a b ∈ num.pairs 1 bad ↔ ordPair a b ∉ agreeingPairs num m g := by
        rw [(hn.pairs 1 bad).mem_iff, ← hw]
        unfold agreeingPairs
        have hlt : ∀ x y, x < y → g.getEdge x y = some i →
            ((x, y) ∈ (g.allEdges.filter (badRotation num m)).map (·.1) ↔
              (x, y) ∉ (g.allEdges.filter fun e => match m.get e.1.1, m.get e.1.2 with
                | some o1, some o2 => num.acceptable o1 o2 e.2.rotation2
                | _, _ => false).map (·.1)) := by
          intro x y hlt hxy
          rw [mem_filter_pairs hr, mem_filter_pairs hr, hxy]
          have := hgood ((x, y), i)
          constructor
          · rintro ⟨_, j, hj, hb⟩ ⟨_, k, hk, hb'⟩
            cases hj
            cases hk
            rw [this, hb'] at hb
            cases hb
          · intro h
            refine ⟨hlt, i, rfl, ?_⟩
            rw [this, Bool.not_eq_true']
            rw [Bool.eq_false_iff]
            exact fun h' => h ⟨hlt, i, rfl, h'⟩
        rcases lt_or_gt_of_ne (hr.ne hi) with h | h
        · rw [ordPair_of_lt h]
          exact hlt a b h hi
        · rw [ordPair_comm, ordPair_of_lt h]
          exact hlt b a h (by rw [hr.comm]; exact hi)
      by_cases h : ordPair a b ∈ agreeingPairs num m g
      · rw [if_neg (fun h' => hmem.1 h' h), if_pos h]
      · rw [if_pos (hmem.2 h), if_neg h]
  have hv : ∀ v ∈ m.keys, (RotationFilters.removeAll (num.pairs 1 bad) g).hasView v = true := by
    intro v hv
    rw [removeAll_views hr hsub]
    exact hm v hv
  generalize RotationFilters.removeAll (num.pairs 1 bad) g = g1 at *
  obtain ⟨g2, removed, h1, h2⟩ := removeDisconnected_ok hr1 (hids.part hpart)
  rw [h1]
  simp only [Outcome.ok_bind]
  have hpairs : ∀ e, e ∈ pairsOf g1 ↔ e ∈ agreeingPairs num m g := by
    rintro ⟨a, b⟩
    rw [hr1.mem_pairs]
    constructor
    · rintro ⟨hlt, i, hi⟩
      rw [hedge, ordPair_of_lt hlt] at hi
      split at hi
      · next h => exact h
      · cases hi
    · intro h
      obtain ⟨hlt, i, hi, _⟩ := (mem_filter_pairs hr).1 h
      exact ⟨hlt, i, by rw [hedge, ordPair_of_lt hlt, if_pos h]; exact hi⟩
  have hnil : pairsOf g1 = [] ↔ agreeingPairs num m g = [] := by
    rw [List.eq_nil_iff_forall_not_mem, List.eq_nil_iff_forall_not_mem]
    exact forall_congr' fun e => not_congr (hpairs e)
  refine ⟨g2, _, rfl, ?_, ?_, ?_⟩
  · intro h
    rw [List.eq_nil_iff_forall_not_mem]
    rintro ⟨a, b⟩ he
    obtain ⟨hlt, i, hi⟩ := (h2.part.run hr1).mem_pairs.1 he
    obtain ⟨j, _, hj, _⟩ := h2.part.edges a b i hi
    have := hr1.mem_pairs.2 ⟨hlt, j, hj⟩
    rw [hnil.2 h] at this
    cases this
  · intro hne
    obtain ⟨comp, hc, he⟩ := h2.component (fun h => hne (hnil.1 h))
    refine ⟨comp, BiggestComponent.congr hpairs hc, ?_⟩
    intro a b
    rw [he, hedge]
    by_cases h1 : a ∈ comp ∧ b ∈ comp
    · simp [h1]
    · rw [if_neg h1, if_neg fun h => h1 ⟨h.1, h.2.1⟩]
  · intro v
    rw [eraseAll_get]
    by_cases h : v ∈ removed
    · rw [if_pos h, if_neg (by rw [h2.gone v h]; simp)]
    · rw [if_neg h]
      split
      · rfl
      · next hno =>
        cases hx : m.get v with
        | none => rfl
        | some x => exact absurd (h2.kept v (hv v (AMap.mem_keys_iff.2 ⟨x, hx⟩)) h) hno

theorem optimizeTranslations_ok (hn : GlobalWellBehaved num) (hth : 1 ≤ o.numThreads) {g : ViewGraph (TwoView O X L)}
    (hr : IsRun g) {m : AMap ViewId O} (hm : Oriented m g) (scene : Localize.Scene F P M O X)
    (hv : ∀ v, g.hasView v = true → ∃ V, scene.recon.view v = some V) :
    ∃ g', optimizeTranslations num o scene m g = .ok g' ∧ Part g g' ∧ ∀ v, g'.hasView v = g.hasView v := by
  unfold optimizeTranslations
  split
  · obtain ⟨ops, hops⟩ := id hr
    obtain ⟨g', h1, h2, h3, h4⟩ := C71_refine num.tasks hn.tasks
      (fun ms o1 o2 (i : TwoView O X L) => { i with position2 := num.optimize ms o1 o2 i.position2 }) scene.recon
      (num.normalize scene) m o.numThreads hth ops (by
        intro a b i hi
        rw [← hops] at hi
        exact ⟨hv a (hr.ends hi).1, hm a b i hi⟩)
    rw [← hops] at h1 h2 h3 h4
    have hrun : IsRun g' := by
      unfold EstimatorUtils.refine at h1
      split at h1
      · cases h1
      · split at h1
        · cases h1
        · cases h1
        · cases h1
          exact hr.runTasks _ _
    have hview : ∀ v, g'.hasView v = g.hasView v := by
      intro v
      rw [Bool.eq_iff_iff]
      unfold hasView
      rw [AMap.contains_iff, AMap.contains_iff]
      unfold viewIds at h2
      rw [h2]
    refine ⟨g', h1, ⟨fun _ => hrun, fun v hv => (hview v) ▸ hv, ?_⟩, hview⟩
    have hlt : ∀ a b i, a < b → g'.getEdge a b = some i →
        ∃ j x, g.getEdge a b = some j ∧ i = { j with position2 := x } := by
      intro a b i hlt hi
      cases hj : g.getEdge a b with
      | none => rw [h3 a b hj] at hi; cases hi
      | some j =>
        obtain ⟨_, _, _, _, _, _, _, _, _, h5, _⟩ := h4 a b j hlt hj
        rw [hi] at h5
        exact ⟨j, _, rfl, Option.some.inj h5⟩
    intro a b i hi
    rcases lt_or_gt_of_ne (hrun.ne hi) with h | h
    · exact hlt a b i h hi
    · rw [hrun.comm] at hi
      rw [hr.comm]
      exact hlt b a i h hi
  · exact ⟨g, rfl, .refl g, fun _ => rfl⟩

theorem keepRigid_ok (keep : List ViewId) (vs : List ViewId) : ∀ {g : ViewGraph (TwoView O X L)}, IsRun g →
    ∃ g', keepRigid keep vs g = .ok g' ∧ Part g g' := by
  induction vs with
  | nil => intro g _; exact ⟨g, rfl, .refl g⟩
  | cons v vs ih =>
    intro g hr
    rw [keepRigid]
    split
    · next h =>
      have h1 : (g.removeView v).1 = true := by
        obtain ⟨ops, rfl⟩ := hr
        rw [(C09_return_values ops).2]
        exact h.2
      obtain ⟨g', h2, h3⟩ := ih (hr.removeView v)
      have hp := part_removeView hr v
      generalize g.removeView v = x at *
      obtain ⟨b, g1⟩ := x
      cases h1
      exact ⟨g', h2, hp.trans h3⟩
    · exact ih hr

theorem rigidPart_ok {g : ViewGraph (TwoView O X L)} (hr : IsRun g) {m : AMap ViewId O} (hm : Oriented m g)
    (hv : ∀ v ∈ m.keys, g.hasView v = true) : ∃ g', rigidPart num o m g = .ok g' ∧ Part g g' := by
  unfold rigidPart
  split
  · unfold extractRigid
    rw [if_neg, if_neg]
    · exact keepRigid_ok _ _ hr
    · simp only [List.any_eq_true, Bool.not_eq_true', not_exists, not_and]
      intro v hv' h
      rw [hv v hv'] at h
      cases h
    · simp only [List.any_eq_true, Bool.not_eq_true', Bool.and_eq_false_iff, not_exists, not_and]
      rintro ⟨⟨a, b⟩, i⟩ he
      obtain ⟨ops, hops⟩ := id hr
      have hi : g.getEdge a b = some i := by
        rw [hops] at he ⊢
        exact (((C09_counts ops).2.2.2.2.2 a b i).1 he).2
      obtain ⟨o1, h1⟩ := hm a b i hi
      obtain ⟨o2, h2⟩ := hm b a i (by rw [hr.comm]; exact hi)
      simp only [not_or, Bool.not_eq_false]
      exact ⟨AMap.contains_iff.2 (AMap.mem_keys_iff.2 ⟨o1, h1⟩), AMap.contains_iff.2 (AMap.mem_keys_iff.2 ⟨o2, h2⟩)⟩
  · exact ⟨g, rfl, .refl g⟩

theorem translationPart_ok (hn : GlobalWellBehaved num) {g : ViewGraph (TwoView O X L)} (hr : IsRun g) {m : AMap ViewId O}
    (hm : Oriented m g) : ∃ g', translationPart num o m g = .ok g' ∧ Part g g' := by
  unfold translationPart
  split
  · rw [if_neg]
    · exact ⟨_, rfl, part_removeAll hr (hn.contradicted m g)⟩
    · simp only [List.any_eq_true, Bool.not_eq_true', not_exists, not_and]
      rintro ⟨⟨a, b⟩, i⟩ he
      obtain ⟨ops, hops⟩ := id hr
      have hi : g.getEdge a b = some i := by
        rw [hops] at he ⊢
        exact (((C09_counts ops).2.2.2.2.2 a b i).1 he).2
      obtain ⟨o1, h1⟩ := hm a b i hi
      rw [Bool.not_eq_false]
      exact AMap.contains_iff.2 (AMap.mem_keys_iff.2 ⟨o1, h1⟩)
  · exact ⟨g, rfl, .refl g⟩

theorem filterTranslations_ok (hn : GlobalWellBehaved num) {g : ViewGraph (TwoView O X L)} (hr : IsRun g)
    (hids : ValidIds g) {m : AMap ViewId O} (hm : Agree num m g) (hv : ∀ v ∈ m.keys, g.hasView v = true) :
    ∃ g' m', filterTranslations num o m g = .ok (g', m') ∧ Part g g' ∧ Linked g' ∧ Agree num m' g' ∧
      ∀ v o, m'.get v = some o → m.get v = some o := by
  unfold filterTranslations
  obtain ⟨g1, h1, p1⟩ := rigidPart_ok (num := num) (o := o) hr (hm.oriented hr) hv
  have hr1 := p1.run hr
  have hm1 := hm.part p1
  obtain ⟨g2, h2, p2⟩ := translationPart_ok (o := o) hn hr1 (hm1.oriented hr1)
  have hr2 := p2.run hr1
  obtain ⟨g3, removed, h3, p3⟩ := removeDisconnected_ok hr2 ((hids.part p1).part p2)
  rw [h1]
  simp only [Outcome.ok_bind]
  rw [h2]
  simp only [Outcome.ok_bind]
  rw [h3]
  refine ⟨g3, _, rfl, (p1.trans p2).trans p3.part, p3.linked, p3.agree hr2 (hm1.part p2), ?_⟩
  intro v o ho
  rw [eraseAll_get] at ho
  split at ho
  · cases ho
  · exact ho

theorem filterPairs_ok (hn : GlobalWellBehaved num) (ho : 0 ≤ o.rotationTolerance) (hth : 1 ≤ o.numThreads)
    {g : ViewGraph (TwoView O X L)} (hr : IsRun g) (hids : ValidIds g) (m : AMap ViewId O)
    (hm : ∀ v ∈ m.keys, g.hasView v = true) (scene : Localize.Scene F P M O X)
    (hv : ∀ v, g.hasView v = true → ∃ V, scene.recon.view v = some V) :
    ∃ g' m', filterPairs num o scene m g = .ok (g', m') ∧ Part g g' ∧ Linked g' ∧ Agree num m' g' ∧
      ∀ v o, m'.get v = some o → m.get v = some o := by
  unfold filterPairs
  obtain ⟨g1, m1, h1, p1, a1, v1, s1⟩ := filterRotations_ok hn ho hr hids m hm
  have hr1 := p1.run hr
  obtain ⟨g2, h2, p2, v2⟩ := optimizeTranslations_ok (o := o) hn hth hr1 (a1.oriented hr1) scene
    fun v h => hv v (p1.views v h)
  obtain ⟨g3, m3, h3, p3, l3, a3, s3⟩ := filterTranslations_ok (o := o) hn (p2.run hr1) ((hids.part p1).part p2)
    (a1.part p2) (fun v hv => by rw [v2]; exact v1 v hv)
  rw [h1]
  simp only [Outcome.ok_bind]
  rw [h2]
  simp only [Outcome.ok_bind]
  rw [h3]
  exact ⟨g3, m3, rfl, (p1.trans p2).trans p3, l3, a3, fun v o h => s1 v o (s3 v o h)⟩

end Global
end Theia
