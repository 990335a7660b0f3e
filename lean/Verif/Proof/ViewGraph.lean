import Verif.Spec.ViewGraph
import Verif.Proof.ConnectedComponents

namespace Theia
open Spec

theorem ordPair_comm (a b : Nat) : ordPair a b = ordPair b a := by
  unfold ordPair
  by_cases h : a < b
  · have : ¬ b < a := by omega
    simp [h, this]
  · by_cases h' : b < a
    · simp [h, h']
    · have : a = b := by omega
      subst this; rfl

theorem ordPair_eq_iff {a b x y : Nat} : ordPair x y = ordPair a b ↔ SamePair x y a b := by
  unfold ordPair SamePair
  by_cases h1 : x < y <;> by_cases h2 : a < b <;> simp only [h1, h2, if_true, if_false, Prod.mk.injEq] <;> omega

theorem ordPair_of_lt {a b : Nat} (h : a < b) : ordPair a b = (a, b) := by simp [ordPair, h]

theorem ordPair_lt {a b : Nat} (h : a ≠ b) : (ordPair a b).1 < (ordPair a b).2 := by
  unfold ordPair; split <;> simp <;> omega

theorem mem_ordPair {a b v : Nat} : ((ordPair a b).1 = v ∨ (ordPair a b).2 = v) ↔ a = v ∨ b = v := by
  unfold ordPair; split <;> simp [or_comm]

namespace ViewGraph

variable {I : Type}

/-- Consistency of adjacency sets and edge map. -/
structure Inv (g : ViewGraph I) : Prop where
  wfV : g.vertices.WF
  wfE : g.edges.WF
  lt : ∀ p ∈ g.edges.keys, p.1 < p.2
  nd : ∀ a l, g.vertices.get a = some l → l.Nodup
  adj : ∀ a l b, g.vertices.get a = some l → (b ∈ l ↔ ordPair a b ∈ g.edges.keys)
  dom : ∀ a b, ordPair a b ∈ g.edges.keys → a ∈ g.vertices.keys

theorem inv_empty : Inv (empty : ViewGraph I) := by
  constructor <;> simp [empty]

theorem Inv.irrefl {g : ViewGraph I} (h : Inv g) (a : Nat) : ordPair a a ∉ g.edges.keys := by
  intro hm
  have := h.lt _ hm
  simp [ordPair] at this

theorem Inv.dom' {g : ViewGraph I} (h : Inv g) {a b : Nat} (hm : ordPair a b ∈ g.edges.keys) :
    b ∈ g.vertices.keys := h.dom b a (by rw [ordPair_comm]; exact hm)

theorem mem_setInsert {s : List Nat} {v w : Nat} : w ∈ setInsert s v ↔ w = v ∨ w ∈ s := by
  unfold setInsert
  split
  · constructor
    · exact Or.inr
    · rintro (rfl | h) <;> assumption
  · simp [or_comm]

theorem nodup_setInsert {s : List Nat} (h : s.Nodup) (v : Nat) : (setInsert s v).Nodup := by
  unfold setInsert
  split
  · exact h
  · rename_i hv
    rw [List.nodup_append]
    exact ⟨h, by simp, fun a ha b hb => by simp at hb; subst hb; rintro rfl; exact hv ha⟩

theorem mem_setErase {s : List Nat} {v w : Nat} : w ∈ setErase s v ↔ w ∈ s ∧ w ≠ v := by
  simp [setErase]

theorem nodup_setErase {s : List Nat} (h : s.Nodup) (v : Nat) : (setErase s v).Nodup :=
  h.sublist List.filter_sublist

/-! ### addEdge -/

theorem addEdge_edges (g : ViewGraph I) {a b : Nat} (hab : a ≠ b) (i : I) (p : Nat × Nat) :
    (g.addEdge a b i).edges.get p = if p = ordPair a b then some i else g.edges.get p := by
  simp [addEdge, hab, AMap.get_insert]

theorem addEdge_vertices (g : ViewGraph I) {a b : Nat} (hab : a ≠ b) (i : I) (v : Nat) :
    (g.addEdge a b i).vertices.get v =
      if v = b then some (setInsert ((g.vertices.get b).getD []) a)
      else if v = a then some (setInsert ((g.vertices.get a).getD []) b) else g.vertices.get v := by
  have hba : b ≠ a := fun e => hab e.symm
  simp [addEdge, hab, AMap.get_insert, hba]

theorem getD_nodup {g : ViewGraph I} (h : Inv g) (a : Nat) : ((g.vertices.get a).getD []).Nodup := by
  cases hg : g.vertices.get a with
  | none => simp
  | some l => exact h.nd a l hg

theorem mem_getD {g : ViewGraph I} (h : Inv g) (a b : Nat) :
    b ∈ (g.vertices.get a).getD [] ↔ ordPair a b ∈ g.edges.keys := by
  cases hg : g.vertices.get a with
  | some l => exact h.adj a l b hg
  | none =>
    simp only [Option.getD_none, List.not_mem_nil, false_iff]
    intro hm
    exact AMap.get_eq_none_iff.1 hg (h.dom a b hm)

theorem inv_addEdge {g : ViewGraph I} (h : Inv g) (a b : Nat) (i : I) : Inv (g.addEdge a b i) := by
  by_cases hab : a = b
  · simpa [addEdge, hab] using h
  · have hek : ∀ p, p ∈ (g.addEdge a b i).edges.keys ↔ p = ordPair a b ∨ p ∈ g.edges.keys := by
      intro p; simp only [addEdge, hab, if_false]; rw [AMap.mem_keys_insert]
    have hv := addEdge_vertices g hab i
    refine ⟨?_, ?_, ?_, ?_, ?_, ?_⟩
    · simp only [addEdge, hab, if_false]; exact AMap.wf_insert (AMap.wf_insert h.wfV _ _) _ _
    · simp only [addEdge, hab, if_false]; exact AMap.wf_insert h.wfE _ _
    · intro p hp
      rcases (hek p).1 hp with rfl | hp
      · exact ordPair_lt hab
      · exact h.lt p hp
    · intro x l hx
      rw [hv] at hx
      split at hx
      · cases hx; exact nodup_setInsert (getD_nodup h _) _
      · split at hx
        · cases hx; exact nodup_setInsert (getD_nodup h _) _
        · exact h.nd x l hx
    · intro x l y hx
      rw [hv] at hx
      rw [hek, ordPair_eq_iff]
      unfold SamePair
      split at hx
      · rename_i hxb
        cases hx
        rw [mem_setInsert, mem_getD h, hxb]
        have : ¬ b = a := fun e => hab e.symm
        simp [this]
      · split at hx
        · rename_i hxb hxa
          cases hx
          rw [mem_setInsert, mem_getD h, hxa]
          simp [hab]
        · rename_i hxb hxa
          rw [h.adj x l y hx]
          simp [hxa, hxb]
    · intro x y hm
      rw [hek, ordPair_eq_iff] at hm
      rw [← AMap.isSome_get_iff, hv]
      split
      · rfl
      · split
        · rfl
        · rename_i hxb hxa
          unfold SamePair at hm
          simp only [hxa, hxb, false_and, or_self, false_or] at hm
          rw [AMap.isSome_get_iff]; exact h.dom x y hm

/-! ### removeView -/

theorem removeViewLoop_spec (v : Nat) (ns : List Nat) (g : ViewGraph I) :
    (∀ p, (removeViewLoop v ns g).edges.get p = if ∃ n ∈ ns, p = ordPair v n then none else g.edges.get p) ∧
    (∀ x, (removeViewLoop v ns g).vertices.get x =
      if x ∈ ns then some (setErase ((g.vertices.get x).getD []) v) else g.vertices.get x) ∧
    (g.vertices.WF → (removeViewLoop v ns g).vertices.WF) ∧
    (g.edges.WF → (removeViewLoop v ns g).edges.WF) := by
  induction ns generalizing g with
  | nil => simp [removeViewLoop]
  | cons n ns ih =>
    obtain ⟨h1, h2, h3, h4⟩ := ih { vertices := g.vertices.insert n (setErase ((g.vertices.get n).getD []) v)
                                    edges := g.edges.erase (ordPair v n) }
    refine ⟨?_, ?_, ?_, ?_⟩
    · intro p
      simp only [removeViewLoop, h1, AMap.get_erase, List.mem_cons, exists_eq_or_imp]
      by_cases hp : p = ordPair v n
      · simp [hp]
      · simp [hp]
    · intro x
      simp only [removeViewLoop, h2, AMap.get_insert, List.mem_cons]
      by_cases hx : x = n
      · subst hx
        simp only [if_true, true_or, Option.getD_some]
        split
        · simp [setErase]
        · rfl
      · simp [hx]
    · intro hw; exact h3 (AMap.wf_insert hw _ _)
    · intro hw; exact h4 (AMap.wf_erase hw _)

theorem removeView_unknown {g : ViewGraph I} {v : Nat} (hv : v ∉ g.vertices.keys) :
    g.removeView v = (false, g) := by
  simp [removeView, AMap.get_eq_none_iff.2 hv]

theorem removeView_spec {g : ViewGraph I} (h : Inv g) {v : Nat} (hv : v ∈ g.vertices.keys) :
    (g.removeView v).1 = true ∧ Inv (g.removeView v).2 ∧
    (∀ p, (g.removeView v).2.edges.get p = if p.1 = v ∨ p.2 = v then none else g.edges.get p) ∧
    (∀ x, x ∈ (g.removeView v).2.vertices.keys ↔ x ≠ v ∧ x ∈ g.vertices.keys) := by
  obtain ⟨ns, hns⟩ := AMap.mem_keys_iff.1 hv
  obtain ⟨h1, h2, h3, h4⟩ := removeViewLoop_spec v ns g
  have hadj := fun b => h.adj v ns b hns
  have hE : ∀ p, (g.removeView v).2.edges.get p = if p.1 = v ∨ p.2 = v then none else g.edges.get p := by
    intro p
    simp only [removeView, hns, h1]
    by_cases hp : p ∈ g.edges.keys
    · have hlt := h.lt p hp
      have hiff : (∃ n, n ∈ ns ∧ p = ordPair v n) ↔ p.1 = v ∨ p.2 = v := by
        constructor
        · rintro ⟨n, _, rfl⟩
          exact mem_ordPair.2 (Or.inl rfl)
        · rintro (h1 | h1)
          · refine ⟨p.2, (hadj p.2).2 ?_, ?_⟩
            · rw [← h1, ordPair_of_lt hlt]; exact hp
            · rw [← h1, ordPair_of_lt hlt]
          · refine ⟨p.1, (hadj p.1).2 ?_, ?_⟩
            · rw [← h1, ordPair_comm, ordPair_of_lt hlt]; exact hp
            · rw [← h1, ordPair_comm, ordPair_of_lt hlt]
      simp only [hiff]
    · have := AMap.get_eq_none_iff.2 hp
      rw [this]; simp
  have hV : ∀ x, (g.removeView v).2.vertices.get x =
      if x = v then none else (g.vertices.get x).map (fun l => setErase l v) := by
    intro x
    simp only [removeView, hns, AMap.get_erase, h2]
    by_cases hx : x = v
    · simp [hx]
    · simp only [hx, if_false]
      by_cases hxn : x ∈ ns
      · have hk : x ∈ g.vertices.keys := h.dom' ((hadj x).1 hxn)
        obtain ⟨l, hl⟩ := AMap.mem_keys_iff.1 hk
        simp [hxn, hl]
      · simp only [hxn, if_false]
        cases hl : g.vertices.get x with
        | none => rfl
        | some l =>
          simp only [Option.map_some, Option.some.injEq]
          symm
          unfold setErase
          rw [List.filter_eq_self]
          intro y hy
          simp only [decide_eq_true_eq]
          rintro rfl
          apply hxn
          rw [hadj, ordPair_comm]
          exact (h.adj x l y hl).1 hy
  have hK : ∀ x, x ∈ (g.removeView v).2.vertices.keys ↔ x ≠ v ∧ x ∈ g.vertices.keys := by
    intro x
    rw [← AMap.isSome_get_iff, hV, ← AMap.isSome_get_iff]
    by_cases hx : x = v <;> simp [hx]
  have hEK : ∀ p, p ∈ (g.removeView v).2.edges.keys ↔ ¬ (p.1 = v ∨ p.2 = v) ∧ p ∈ g.edges.keys := by
    intro p
    rw [← AMap.isSome_get_iff, hE, ← AMap.isSome_get_iff]
    split <;> simp [*]
  refine ⟨by simp [removeView, hns], ?_, hE, hK⟩
  refine ⟨?_, ?_, ?_, ?_, ?_, ?_⟩
  · simp only [removeView, hns]; exact AMap.wf_erase (h3 h.wfV) _
  · simp only [removeView, hns]; exact h4 h.wfE
  · intro p hp; exact h.lt p ((hEK p).1 hp).2
  · intro a l ha
    rw [hV] at ha
    split at ha
    · cases ha
    · rw [Option.map_eq_some_iff] at ha
      obtain ⟨l', hl', rfl⟩ := ha
      exact nodup_setErase (h.nd a l' hl') v
  · intro a l b ha
    rw [hV] at ha
    split at ha
    · cases ha
    · rename_i hav
      rw [Option.map_eq_some_iff] at ha
      obtain ⟨l', hl', rfl⟩ := ha
      rw [mem_setErase, h.adj a l' b hl', hEK, mem_ordPair]
      constructor
      · rintro ⟨h1, h2⟩; exact ⟨by simp [hav, h2], h1⟩
      · rintro ⟨h1, h2⟩; exact ⟨h2, fun e => h1 (Or.inr e)⟩
  · intro a b hm
    rw [hEK, mem_ordPair] at hm
    rw [hK]
    exact ⟨fun e => hm.1 (Or.inl e), h.dom a b hm.2⟩

/-! ### removeEdge, setEdge -/

theorem removeEdge_unknown {g : ViewGraph I} {a b : Nat} (hm : ordPair a b ∉ g.edges.keys) :
    g.removeEdge a b = (false, g) := by
  simp [removeEdge, hm]

theorem removeEdge_spec {g : ViewGraph I} (h : Inv g) {a b : Nat} (hm : ordPair a b ∈ g.edges.keys) :
    (g.removeEdge a b).1 = true ∧ Inv (g.removeEdge a b).2 ∧
    (∀ p, (g.removeEdge a b).2.edges.get p = if p = ordPair a b then none else g.edges.get p) ∧
    (∀ x, x ∈ (g.removeEdge a b).2.vertices.keys ↔ x ∈ g.vertices.keys) := by
  have hab : a ≠ b := by rintro rfl; exact h.irrefl a hm
  have hba : b ≠ a := fun e => hab e.symm
  obtain ⟨la, hla⟩ := AMap.mem_keys_iff.1 (h.dom a b hm)
  obtain ⟨lb, hlb⟩ := AMap.mem_keys_iff.1 (h.dom' hm)
  have hb : b ∈ la := (h.adj a la b hla).2 hm
  have ha : a ∈ lb := (h.adj b lb a hlb).2 (by rw [ordPair_comm]; exact hm)
  have heq : g.removeEdge a b = (true,
      { vertices := (g.vertices.insert a (setErase la b)).insert b (setErase lb a)
        edges := g.edges.erase (ordPair a b) }) := by
    simp [removeEdge, hm, hla, hb, AMap.get_insert, hba, hlb, ha]
  have hV : ∀ x, (g.removeEdge a b).2.vertices.get x =
      if x = b then some (setErase lb a) else if x = a then some (setErase la b) else g.vertices.get x := by
    intro x; simp [heq, AMap.get_insert]
  have hE : ∀ p, (g.removeEdge a b).2.edges.get p = if p = ordPair a b then none else g.edges.get p := by
    intro p; simp [heq, AMap.get_erase]
  have hEK : ∀ p, p ∈ (g.removeEdge a b).2.edges.keys ↔ p ≠ ordPair a b ∧ p ∈ g.edges.keys := by
    intro p
    rw [← AMap.isSome_get_iff, hE, ← AMap.isSome_get_iff]
    split <;> simp [*]
  have hK : ∀ x, x ∈ (g.removeEdge a b).2.vertices.keys ↔ x ∈ g.vertices.keys := by
    intro x
    rw [← AMap.isSome_get_iff, hV, ← AMap.isSome_get_iff]
    by_cases h1 : x = b
    · simp [h1, hlb]
    · by_cases h2 : x = a
      · subst h2; simp [hab, hla]
      · simp [h1, h2]
  refine ⟨by simp [heq], ⟨?_, ?_, ?_, ?_, ?_, ?_⟩, hE, hK⟩
  · rw [heq]; exact AMap.wf_insert (AMap.wf_insert h.wfV _ _) _ _
  · rw [heq]; exact AMap.wf_erase h.wfE _
  · intro p hp; exact h.lt p ((hEK p).1 hp).2
  · intro x l hx
    rw [hV] at hx
    split at hx
    · cases hx; exact nodup_setErase (h.nd b lb hlb) _
    · split at hx
      · cases hx; exact nodup_setErase (h.nd a la hla) _
      · exact h.nd x l hx
  · intro x l y hx
    rw [hV] at hx
    rw [hEK, ne_eq, ordPair_eq_iff]
    unfold SamePair
    split at hx
    · rename_i hxb
      cases hx
      rw [mem_setErase, h.adj b lb y hlb, hxb]
      simp [hba, and_comm]
    · split at hx
      · rename_i hxb hxa
        cases hx
        rw [mem_setErase, h.adj a la y hla, hxa]
        simp [hab, and_comm]
      · rename_i hxb hxa
        rw [h.adj x l y hx]
        simp [hxa, hxb]
  · intro x y hxy
    rw [hEK] at hxy
    rw [hK]
    exact h.dom x y hxy.2

theorem setEdge_spec {g : ViewGraph I} (h : Inv g) (a b : Nat) (i : I) :
    Inv (g.setEdge a b i) ∧ (g.setEdge a b i).vertices = g.vertices ∧
    (∀ p, (g.setEdge a b i).edges.get p =
      if p = ordPair a b then (g.edges.get p).map (fun _ => i) else g.edges.get p) := by
  unfold setEdge
  cases hg : g.edges.get (ordPair a b) with
  | none =>
    refine ⟨h, rfl, ?_⟩
    intro p
    by_cases hp : p = ordPair a b
    · simp [hp, hg]
    · simp [hp]
  | some j =>
    have hm : ordPair a b ∈ g.edges.keys := AMap.mem_keys_iff.2 ⟨j, hg⟩
    have hk := CC.keys_insert_of_mem g.edges i hm
    refine ⟨⟨h.wfV, AMap.wf_insert h.wfE _ _, ?_, h.nd, ?_, ?_⟩, rfl, ?_⟩
    · simp only [hk]; exact h.lt
    · simp only [hk]; exact h.adj
    · simp only [hk]; exact h.dom
    · intro p
      simp only [AMap.get_insert]
      by_cases hp : p = ordPair a b
      · simp [hp, hg]
      · simp [hp]

/-! ### Histories -/

/-- The graph represents the abstract edge map. -/
structure Rep (g : ViewGraph I) (s : EdgeMap I) : Prop where
  inv : Inv g
  view : ∀ v, v ∈ g.vertices.keys ↔ s.view v
  edge : ∀ a b, g.getEdge a b = s.edge a b

theorem rep_step {g : ViewGraph I} {s : EdgeMap I} (h : Rep g s) (op : Op I) :
    Rep (g.step op).2 (s.step op) := by
  cases op with
  | addEdge a b i =>
    by_cases hab : a = b
    · simpa [step, addEdge, EdgeMap.step, hab] using h
    · refine ⟨inv_addEdge h.inv a b i, ?_, ?_⟩
      · intro v
        simp only [step, EdgeMap.step, hab, if_false, ← h.view]
        rw [← AMap.isSome_get_iff, addEdge_vertices g hab, ← AMap.isSome_get_iff]
        by_cases h1 : v = b
        · simp [h1]
        · by_cases h2 : v = a
          · simp [h2, hab]
          · simp [h1, h2]
      · intro x y
        simp only [step, EdgeMap.step, hab, if_false, getEdge, addEdge_edges g hab, ordPair_eq_iff,
          ← h.edge]
  | removeEdge a b =>
    by_cases hm : ordPair a b ∈ g.edges.keys
    · obtain ⟨_, hi, hE, hK⟩ := removeEdge_spec h.inv hm
      refine ⟨hi, ?_, ?_⟩
      · intro v; simp only [step, EdgeMap.step, hK, h.view]
      · intro x y; simp only [step, EdgeMap.step, getEdge, hE, ordPair_eq_iff, ← h.edge]
    · have hg := AMap.get_eq_none_iff.2 hm
      refine ⟨by simpa [step, removeEdge_unknown hm] using h.inv, ?_, ?_⟩
      · intro v; simp only [step, EdgeMap.step, removeEdge_unknown hm, h.view]
      · intro x y
        simp only [step, EdgeMap.step, removeEdge_unknown hm, ← ordPair_eq_iff, ← h.edge]
        split
        · rename_i he; rw [getEdge, he, hg]
        · rfl
  | removeView v =>
    by_cases hv : v ∈ g.vertices.keys
    · obtain ⟨_, hi, hE, hK⟩ := removeView_spec h.inv hv
      refine ⟨hi, ?_, ?_⟩
      · intro w; simp only [step, EdgeMap.step, hK, h.view]
      · intro x y; simp only [step, EdgeMap.step, getEdge, hE, mem_ordPair, ← h.edge]
    · refine ⟨by simpa [step, removeView_unknown hv] using h.inv, ?_, ?_⟩
      · intro w
        simp only [step, EdgeMap.step, removeView_unknown hv, ← h.view]
        constructor
        · intro hw; exact ⟨fun e => hv (e ▸ hw), hw⟩
        · exact fun h => h.2
      · intro x y
        simp only [step, EdgeMap.step, removeView_unknown hv, ← h.edge]
        split
        · rename_i he
          unfold getEdge
          rw [AMap.get_eq_none_iff]
          intro hm
          rcases he with rfl | rfl
          · exact hv (h.inv.dom _ _ hm)
          · exact hv (h.inv.dom' hm)
        · rfl
  | setEdge a b i =>
    obtain ⟨hi, hv, hE⟩ := setEdge_spec h.inv a b i
    refine ⟨hi, ?_, ?_⟩
    · intro v; simp only [step, EdgeMap.step, hv, h.view]
    · intro x y; simp only [step, EdgeMap.step, getEdge, hE, ordPair_eq_iff, ← h.edge]

theorem rep_run (ops : List (Op I)) : Rep (run ops) (EdgeMap.run ops) := by
  unfold run EdgeMap.run
  have : ∀ (ops : List (Op I)) (g : ViewGraph I) (s : EdgeMap I), Rep g s →
      Rep (ops.foldl (fun g op => (g.step op).2) g) (ops.foldl EdgeMap.step s) := by
    intro ops
    induction ops with
    | nil => intro g s h; exact h
    | cons op ops ih => intro g s h; exact ih _ _ (rep_step h op)
  apply this
  exact ⟨inv_empty, by simp [empty], by simp [empty, getEdge]⟩

end ViewGraph
end Theia
