import Mathlib.Data.List.Nodup
import Mathlib.Tactic.Tauto
import Verif.Model.TripletExtractor
import Verif.Proof.ConnectedComponents
import Verif.Spec.Triangles

/-! # Lemmas on the triplet extractor -/

namespace Theia
namespace Triplets

open Spec

variable {T : Type} [LinearOrder T]

/-- The three sides. -/
def sides (t : Triplet T) : List (T × T) := [(t.1, t.2.1), (t.1, t.2.2), (t.2.1, t.2.2)]

theorem sortTriplet_cases {a b c : T} (hab : a < b) (hca : c ≠ a) (hcb : c ≠ b) :
    (c < a ∧ sortTriplet (a, b, c) = (c, a, b)) ∨ (a < c ∧ c < b ∧ sortTriplet (a, b, c) = (a, c, b)) ∨
      (b < c ∧ sortTriplet (a, b, c) = (a, b, c)) := by
  rcases lt_or_gt_of_ne hca with h | h
  · left; refine ⟨h, ?_⟩
    have : c < b := lt_trans h hab
    simp [sortTriplet, this, h]
  · rcases lt_or_gt_of_ne hcb with h' | h'
    · right; left; refine ⟨h, h', ?_⟩
      simp [sortTriplet, h', not_lt.2 (le_of_lt h)]
    · right; right; refine ⟨h', ?_⟩
      simp [sortTriplet, not_lt.2 (le_of_lt h'), not_lt.2 (le_of_lt hab)]

theorem mem_sides {E : List (T × T)} {t : Triplet T} (ht : IsTriangle E t) {p : T × T} :
    p ∈ sides t ↔ p.1 < p.2 ∧ Corner t p.1 ∧ Corner t p.2 := by
  obtain ⟨h1, h2, -⟩ := ht
  have h3 := lt_trans h1 h2
  obtain ⟨x, y⟩ := p
  obtain ⟨a, b, c⟩ := t
  simp only [sides, List.mem_cons, Prod.mk.injEq, List.not_mem_nil, or_false, Corner] at *
  constructor
  · rintro (⟨rfl, rfl⟩ | ⟨rfl, rfl⟩ | ⟨rfl, rfl⟩) <;> simp [h1, h2, h3]
  · rintro ⟨hlt, rfl | rfl | rfl, rfl | rfl | rfl⟩
    all_goals first
      | exact absurd hlt (lt_irrefl _)
      | exact absurd hlt (lt_asymm h1)
      | exact absurd hlt (lt_asymm h2)
      | exact absurd hlt (lt_asymm h3)
      | simp

theorem shareEdge_iff {E : List (T × T)} {t u : Triplet T} (ht : IsTriangle E t)
    (hu : IsTriangle E u) : ShareEdge t u ↔ ∃ p, p ∈ sides t ∧ p ∈ sides u := by
  constructor
  · rintro ⟨x, y, hne, h1, h2, h3, h4⟩
    rcases lt_or_gt_of_ne hne with h | h
    · exact ⟨(x, y), (mem_sides ht).2 ⟨h, h1, h2⟩, (mem_sides hu).2 ⟨h, h3, h4⟩⟩
    · exact ⟨(y, x), (mem_sides ht).2 ⟨h, h2, h1⟩, (mem_sides hu).2 ⟨h, h4, h3⟩⟩
  · rintro ⟨p, h1, h2⟩
    obtain ⟨hlt, h1, h2'⟩ := (mem_sides ht).1 h1
    obtain ⟨_, h3, h4⟩ := (mem_sides hu).1 h2
    exact ⟨p.1, p.2, ne_of_lt hlt, h1, h2', h3, h4⟩

/-! ### The adjacency graph -/

/-- `adj` lists the neighbours with respect to `rem` of at least the nodes of `E`. -/
def AdjOk (E rem : List (T × T)) (adj : AMap T (List T)) : Prop :=
  ∀ x, IsNode E x → ∃ l, adj.get x = some l ∧ l.Nodup ∧ ∀ y, y ∈ l ↔ Adjacent rem x y

theorem adjAdd_get (adj : AMap T (List T)) (x y z : T) :
    (adjAdd adj x y).get z = if z = x then
      some (if y ∈ (adj.get x).getD [] then (adj.get x).getD [] else (adj.get x).getD [] ++ [y])
      else adj.get z := by
  unfold adjAdd
  rw [AMap.get_insert]

/-- Neighbour lists, with missing entries read as empty. -/
def nbrs (adj : AMap T (List T)) (x : T) : List T := (adj.get x).getD []

theorem nbrs_adjAdd (adj : AMap T (List T)) (x y z : T) :
    nbrs (adjAdd adj x y) z = if z = x then
      (if y ∈ nbrs adj x then nbrs adj x else nbrs adj x ++ [y]) else nbrs adj z := by
  unfold nbrs
  rw [adjAdd_get]
  split <;> simp

theorem mem_nbrs_adjAdd (adj : AMap T (List T)) (x y z w : T) :
    w ∈ nbrs (adjAdd adj x y) z ↔ w ∈ nbrs adj z ∨ (z = x ∧ w = y) := by
  rw [nbrs_adjAdd]
  by_cases hz : z = x
  · subst hz
    simp only [if_true, true_and]
    split
    · rename_i h
      exact ⟨Or.inl, fun h' => h'.elim id (fun h' => h' ▸ h)⟩
    · simp
  · simp [hz]

theorem nodup_nbrs_adjAdd (adj : AMap T (List T)) (x y : T) (h : ∀ z, (nbrs adj z).Nodup) (z : T) :
    (nbrs (adjAdd adj x y) z).Nodup := by
  rw [nbrs_adjAdd]
  split
  · split
    · exact h x
    · rename_i hy
      rw [List.nodup_append]
      exact ⟨h x, by simp, by simp; intro a ha hay; exact hy (hay ▸ ha)⟩
  · exact h z

theorem keys_adjAdd (adj : AMap T (List T)) (x y z : T) :
    z ∈ (adjAdd adj x y).keys ↔ z ∈ adj.keys ∨ z = x := by
  unfold adjAdd
  rw [AMap.mem_keys_insert, or_comm]

theorem buildAdj_aux (edges done : List (T × T)) (adj : AMap T (List T))
    (h1 : ∀ z, (nbrs adj z).Nodup) (h2 : ∀ z w, w ∈ nbrs adj z ↔ Adjacent done z w)
    (h3 : ∀ z, IsNode done z → z ∈ adj.keys) :
    let adj' := edges.foldl (fun adj e => adjAdd (adjAdd adj e.1 e.2) e.2 e.1) adj
    (∀ z, (nbrs adj' z).Nodup) ∧ (∀ z w, w ∈ nbrs adj' z ↔ Adjacent (done ++ edges) z w) ∧
      ∀ z, IsNode (done ++ edges) z → z ∈ adj'.keys := by
  induction edges generalizing done adj with
  | nil => simpa using ⟨h1, h2, h3⟩
  | cons e es ih =>
    have := ih (done ++ [e]) (adjAdd (adjAdd adj e.1 e.2) e.2 e.1)
      (nodup_nbrs_adjAdd _ _ _ (nodup_nbrs_adjAdd _ _ _ h1)) ?_ ?_
    · simpa using this
    · intro z w
      rw [mem_nbrs_adjAdd, mem_nbrs_adjAdd, h2]
      simp only [Adjacent, List.mem_append, List.mem_singleton, Prod.ext_iff]
      constructor
      · rintro ((h | h) | h)
        · rcases h with h | h
          · exact Or.inl (Or.inl h)
          · exact Or.inr (Or.inl h)
        · exact Or.inl (Or.inr h)
        · exact Or.inr (Or.inr ⟨h.2, h.1⟩)
      · rintro ((h | h) | (h | h))
        · exact Or.inl (Or.inl (Or.inl h))
        · exact Or.inl (Or.inr h)
        · exact Or.inl (Or.inl (Or.inr h))
        · exact Or.inr ⟨h.2, h.1⟩
    · intro z hz
      rw [keys_adjAdd, keys_adjAdd]
      rw [CC.isNode_append] at hz
      rcases hz with hz | hz
      · exact Or.inl (Or.inl (h3 z hz))
      · obtain ⟨e', he', h⟩ := hz
        rw [List.mem_singleton.1 he'] at h
        rcases h with h | h
        · exact Or.inl (Or.inr h.symm)
        · exact Or.inr h.symm

theorem adjOk_of_nbrs {E rem : List (T × T)} {adj : AMap T (List T)} (h1 : ∀ z, (nbrs adj z).Nodup)
    (h2 : ∀ z w, w ∈ nbrs adj z ↔ Adjacent rem z w) (h3 : ∀ z, IsNode E z → z ∈ adj.keys) :
    AdjOk E rem adj := by
  intro x hx
  obtain ⟨l, hl⟩ := AMap.mem_keys_iff.1 (h3 x hx)
  have hn : nbrs adj x = l := by simp [nbrs, hl]
  exact ⟨l, hl, hn ▸ h1 x, fun y => by rw [← h2, hn]⟩

theorem buildAdj_ok (edges : List (T × T)) : AdjOk edges edges (buildAdj edges) := by
  obtain ⟨h1, h2, h3⟩ := buildAdj_aux edges [] .empty (by simp [nbrs]) (by simp [nbrs, Adjacent])
    (by simp [IsNode])
  rw [List.nil_append] at h2 h3
  exact adjOk_of_nbrs h1 h2 h3

theorem adjErase_get (adj : AMap T (List T)) (x y z : T) :
    (adjErase adj x y).get z = if z = x then
      some (((adj.get x).getD []).filter (fun w => decide (w ≠ y))) else adj.get z := by
  unfold adjErase
  rw [AMap.get_insert]

theorem adjErase_ok {E rem : List (T × T)} {a b : T} {adj : AMap T (List T)}
    (h : AdjOk E ((a, b) :: rem) adj) (hab : a < b) (hord : ∀ e ∈ rem, e.1 < e.2)
    (hnin : (a, b) ∉ rem) (hE : (a, b) ∈ E) :
    AdjOk E rem (adjErase (adjErase adj a b) b a) := by
  have hba : (b, a) ∉ rem := fun hh => absurd (hord _ hh) (not_lt.2 (le_of_lt hab))
  have hadj : ∀ x y, Adjacent ((a, b) :: rem) x y ↔
      Adjacent rem x y ∨ (x = a ∧ y = b) ∨ (x = b ∧ y = a) := by
    intro x y
    simp only [Adjacent, List.mem_cons, Prod.mk.injEq]
    tauto
  have hnab : ¬ Adjacent rem a b := by rintro (h | h); exacts [hnin h, hba h]
  have hnba : ¬ Adjacent rem b a := fun h => hnab h.symm
  have hne : a ≠ b := ne_of_lt hab
  intro x hx
  obtain ⟨l, hl, hnd, hm⟩ := h x hx
  rw [adjErase_get]
  by_cases hxb : x = b
  · subst hxb
    rw [if_pos rfl, adjErase_get, if_neg hne.symm, hl]
    refine ⟨_, rfl, hnd.filter _, ?_⟩
    intro y
    simp only [Option.getD_some, List.mem_filter, hm, decide_eq_true_eq, hadj]
    constructor
    · rintro ⟨h | h | h, hy⟩
      · exact h
      · exact absurd h.1.symm hne
      · exact absurd h.2 hy
    · intro h
      exact ⟨Or.inl h, fun hy => hnba (hy ▸ h)⟩
  · rw [if_neg hxb, adjErase_get]
    by_cases hxa : x = a
    · subst hxa
      rw [if_pos rfl, hl]
      refine ⟨_, rfl, hnd.filter _, ?_⟩
      intro y
      simp only [Option.getD_some, List.mem_filter, hm, decide_eq_true_eq, hadj]
      constructor
      · rintro ⟨h | h | h, hy⟩
        · exact h
        · exact absurd h.2 hy
        · exact absurd h.1 hne
      · intro h
        exact ⟨Or.inl h, fun hy => hnab (hy ▸ h)⟩
    · rw [if_neg hxa]
      refine ⟨l, hl, hnd, fun y => ?_⟩
      rw [hm, hadj]
      simp [hxa, hxb]

/-! ### The index from edges to triplets -/

/-- `edges` lists under each pair exactly the numbers of the triplets with that side. -/
def IndexOk (s : Found T) : Prop :=
  s.edges.WF ∧ (∀ p l, s.edges.get p = some l → l ≠ []) ∧
    ∀ p i, (∃ l, s.edges.get p = some l ∧ i ∈ l) ↔ ∃ t, s.triplets[i]? = some t ∧ p ∈ sides t

theorem pushId_mem (m : AMap (T × T) (List Nat)) (q p : T × T) (i j : Nat) :
    (∃ l, (pushId m q i).get p = some l ∧ j ∈ l) ↔ (∃ l, m.get p = some l ∧ j ∈ l) ∨ (p = q ∧ j = i) := by
  unfold pushId
  rw [AMap.get_insert]
  by_cases h : p = q
  · subst h
    simp only [if_true, Option.some.injEq, exists_eq_left', List.mem_append, List.mem_singleton,
      true_and]
    cases hg : m.get p with
    | none => simp
    | some l => simp
  · simp [h]

theorem pushId_ne_nil (m : AMap (T × T) (List Nat)) (q : T × T) (i : Nat)
    (h : ∀ p l, m.get p = some l → l ≠ []) (p : T × T) (l : List Nat)
    (hl : (pushId m q i).get p = some l) : l ≠ [] := by
  unfold pushId at hl
  rw [AMap.get_insert] at hl
  split at hl
  · cases hl; simp
  · exact h p l hl

theorem store_ok (s : Found T) (a b c : T) (h : IndexOk s) : IndexOk (store s a b c) := by
  obtain ⟨hw, hne, hi⟩ := h
  refine ⟨AMap.wf_insert (AMap.wf_insert (AMap.wf_insert hw _ _) _ _) _ _,
    pushId_ne_nil _ _ _ (pushId_ne_nil _ _ _ (pushId_ne_nil _ _ _ hne)), ?_⟩
  intro p i
  simp only [store]
  rw [pushId_mem, pushId_mem, pushId_mem, hi]
  simp only [List.length_append, List.length_singleton, Nat.add_sub_cancel]
  constructor
  · rintro (((⟨t, ht, hp⟩ | h) | h) | h)
    · refine ⟨t, ?_, hp⟩
      rw [List.getElem?_append_left (List.getElem?_eq_some_iff.1 ht).1]
      exact ht
    all_goals
      obtain ⟨rfl, rfl⟩ := h
      refine ⟨sortTriplet (a, b, c), by simp, by simp [sides]⟩
  · rintro ⟨t, ht, hp⟩
    rcases Nat.lt_or_ge i s.triplets.length with hlt | hge
    · rw [List.getElem?_append_left hlt] at ht
      exact Or.inl (Or.inl (Or.inl ⟨t, ht, hp⟩))
    · rw [List.getElem?_append_right hge] at ht
      have hi0 : i - s.triplets.length = 0 := by
        have := (List.getElem?_eq_some_iff.1 ht).1
        simp at this; omega
      rw [hi0] at ht
      simp only [List.getElem?_cons_zero, Option.some.injEq] at ht
      subst ht
      have hieq : i = s.triplets.length := by omega
      simp only [sides, List.mem_cons, List.not_mem_nil, or_false] at hp
      rcases hp with hp | hp | hp
      · exact Or.inl (Or.inl (Or.inr ⟨hp, hieq⟩))
      · exact Or.inl (Or.inr ⟨hp, hieq⟩)
      · exact Or.inr ⟨hp, hieq⟩

theorem storeAll (cs : List T) (s : Found T) (a b : T) (h : IndexOk s) :
    IndexOk (cs.foldl (fun s c => store s a b c) s) ∧
      (cs.foldl (fun s c => store s a b c) s).triplets =
        s.triplets ++ cs.map (fun c => sortTriplet (a, b, c)) := by
  induction cs generalizing s with
  | nil => simpa using h
  | cons c cs ih =>
    obtain ⟨h1, h2⟩ := ih (store s a b c) (store_ok s a b c h)
    refine ⟨h1, ?_⟩
    rw [List.foldl_cons, h2]
    simp [store]

/-! ### The main loop -/

theorem sorted_of_adjacent {E : List (T × T)} (hord : ∀ e ∈ E, e.1 < e.2) {x y : T} (hxy : x < y)
    (h : Adjacent E x y) : (x, y) ∈ E := by
  rcases h with h | h
  · exact h
  · exact absurd (hord _ h) (not_lt.2 (le_of_lt hxy))

theorem findLoop_spec (E : List (T × T)) (hord : ∀ e ∈ E, e.1 < e.2) (hnd : E.Nodup)
    (rem done : List (T × T)) (hsplit : E = done ++ rem) (adj : AMap T (List T))
    (hadj : AdjOk E rem adj) (s : Found T) (hs : IndexOk s) (hsn : s.triplets.Nodup)
    (hsm : ∀ t, t ∈ s.triplets ↔ IsTriangle E t ∧ ∃ p ∈ sides t, p ∈ done) :
    ∃ s', findLoop rem adj s = .ok s' ∧ IndexOk s' ∧ s'.triplets.Nodup ∧
      ∀ t, t ∈ s'.triplets ↔ IsTriangle E t := by
  induction rem generalizing done adj s with
  | nil =>
    refine ⟨s, rfl, hs, hsn, fun t => ?_⟩
    rw [hsm]
    simp only [List.append_nil] at hsplit
    refine ⟨fun h => h.1, fun h => ⟨h, (t.1, t.2.1), by simp [sides], ?_⟩⟩
    rw [← hsplit]; exact h.2.2.1
  | cons e rem ih =>
    obtain ⟨a, b⟩ := e
    have hE : (a, b) ∈ E := by rw [hsplit]; simp
    have hab : a < b := hord _ hE
    have hremE : ∀ f ∈ (a, b) :: rem, f ∈ E := fun f hf => by rw [hsplit]; simp [List.mem_cons.1 hf]
    have hord' : ∀ f ∈ (a, b) :: rem, f.1 < f.2 := fun f hf => hord f (hremE f hf)
    have hnd' := hnd
    rw [hsplit, List.nodup_append, List.nodup_cons] at hnd'
    have hnin : (a, b) ∉ rem := hnd'.2.1.1
    have hdisj : ∀ f ∈ done, f ∉ (a, b) :: rem := fun f hf hf' => hnd'.2.2 f hf f hf' rfl
    obtain ⟨l1, hl1, hn1, hm1⟩ := hadj a ⟨_, hE, Or.inl rfl⟩
    obtain ⟨l2, hl2, hn2, hm2⟩ := hadj b ⟨_, hE, Or.inr rfl⟩
    have hadj' := adjErase_ok hadj hab (fun f hf => hord' f (by simp [hf])) hnin hE
    generalize hcs : l1.filter (fun z => decide (z ∈ l2)) = cs
    have hcm : ∀ c, c ∈ cs ↔ Adjacent ((a, b) :: rem) a c ∧ Adjacent ((a, b) :: rem) b c := by
      intro c
      rw [← hcs, List.mem_filter, decide_eq_true_eq, hm1, hm2]
    have hcn : cs.Nodup := hcs ▸ hn1.filter _
    have hirr : ∀ x, ¬ Adjacent ((a, b) :: rem) x x := by
      rintro x (h | h) <;> exact absurd (hord' _ h) (lt_irrefl _)
    have hcne : ∀ c ∈ cs, c ≠ a ∧ c ≠ b := by
      intro c hc
      obtain ⟨h1, h2⟩ := (hcm c).1 hc
      exact ⟨fun h => hirr a (h ▸ h1), fun h => hirr b (h ▸ h2)⟩
    obtain ⟨hst, hstt⟩ := storeAll cs s a b hs
    -- the new triplets
    have hnew : ∀ c ∈ cs, IsTriangle E (sortTriplet (a, b, c)) ∧
        (a, b) ∈ sides (sortTriplet (a, b, c)) ∧
        ∀ p ∈ sides (sortTriplet (a, b, c)), p ∈ (a, b) :: rem := by
      intro c hc
      obtain ⟨h1, h2⟩ := (hcm c).1 hc
      obtain ⟨hca, hcb⟩ := hcne c hc
      have key : (a, b) ∈ sides (sortTriplet (a, b, c)) ∧
          (sortTriplet (a, b, c)).1 < (sortTriplet (a, b, c)).2.1 ∧
          (sortTriplet (a, b, c)).2.1 < (sortTriplet (a, b, c)).2.2 ∧
          ∀ p ∈ sides (sortTriplet (a, b, c)), p ∈ (a, b) :: rem := by
        rcases sortTriplet_cases hab hca hcb with ⟨hlt, he⟩ | ⟨hlt, hlt', he⟩ | ⟨hlt, he⟩
        · rw [he]
          refine ⟨by simp [sides], hlt, hab, ?_⟩
          intro p hp
          simp only [sides, List.mem_cons, List.not_mem_nil, or_false] at hp
          rcases hp with rfl | rfl | rfl
          · exact sorted_of_adjacent hord' hlt h1.symm
          · exact sorted_of_adjacent hord' (lt_trans hlt hab) h2.symm
          · simp
        · rw [he]
          refine ⟨by simp [sides], hlt, hlt', ?_⟩
          intro p hp
          simp only [sides, List.mem_cons, List.not_mem_nil, or_false] at hp
          rcases hp with rfl | rfl | rfl
          · exact sorted_of_adjacent hord' hlt h1
          · simp
          · exact sorted_of_adjacent hord' hlt' h2.symm
        · rw [he]
          refine ⟨by simp [sides], hab, hlt, ?_⟩
          intro p hp
          simp only [sides, List.mem_cons, List.not_mem_nil, or_false] at hp
          rcases hp with rfl | rfl | rfl
          · simp
          · exact sorted_of_adjacent hord' (lt_trans hab hlt) h1
          · exact sorted_of_adjacent hord' hlt h2
      obtain ⟨k1, k2, k3, k4⟩ := key
      exact ⟨⟨k2, k3, hremE _ (k4 _ (by simp [sides])), hremE _ (k4 _ (by simp [sides])),
        hremE _ (k4 _ (by simp [sides]))⟩, k1, k4⟩
    unfold findLoop
    simp only [hl1, hl2, hcs]
    refine ih (done ++ [(a, b)]) (by rw [hsplit]; simp) _ hadj' _ hst ?_ ?_
    · rw [hstt, List.nodup_append]
      refine ⟨hsn, ?_, ?_⟩
      · refine List.Nodup.map_on ?_ hcn
        intro c hc d hd hcd
        obtain ⟨hca, hcb⟩ := hcne c hc
        obtain ⟨hda, hdb⟩ := hcne d hd
        have hci := sortTriplet_cases hab hca hcb
        have hdi := sortTriplet_cases hab hda hdb
        rcases hci with ⟨h1, he⟩ | ⟨h1, h1', he⟩ | ⟨h1, he⟩ <;>
          rcases hdi with ⟨h2, hf⟩ | ⟨h2, h2', hf⟩ | ⟨h2, hf⟩ <;>
          rw [he, hf] at hcd <;> simp only [Prod.mk.injEq] at hcd
        all_goals first
          | exact hcd.1
          | exact hcd.2.1
          | exact hcd.2.2
          | exact absurd hcd.1 hca
          | exact absurd hcd.1.symm hda
          | exact absurd hcd.2.1 hcb
          | exact absurd hcd.2.1.symm hdb
      · intro t ht u hu htu
        subst htu
        obtain ⟨c, hc, rfl⟩ := List.mem_map.1 hu
        obtain ⟨_, p, hp, hpd⟩ := (hsm _).1 ht
        exact hdisj p hpd ((hnew c hc).2.2 p hp)
    · intro t
      rw [hstt, List.mem_append, hsm, List.mem_map]
      constructor
      · rintro (⟨ht, p, hp, hpd⟩ | ⟨c, hc, rfl⟩)
        · exact ⟨ht, p, hp, by simp [hpd]⟩
        · exact ⟨(hnew c hc).1, (a, b), (hnew c hc).2.1, by simp⟩
      · rintro ⟨ht, p, hp, hpd⟩
        by_cases hex : ∃ q ∈ sides t, q ∈ done
        · exact Or.inl ⟨ht, hex⟩
        · right
          have hpab : p = (a, b) := by
            rcases List.mem_append.1 hpd with h | h
            · exact absurd ⟨p, hp, h⟩ hex
            · exact List.mem_singleton.1 h
          subst hpab
          have hrem : ∀ q ∈ sides t, q ∈ (a, b) :: rem := by
            intro q hq
            have : q ∈ E := by
              simp only [sides, List.mem_cons, List.not_mem_nil, or_false] at hq
              rcases hq with rfl | rfl | rfl
              exacts [ht.2.2.1, ht.2.2.2.1, ht.2.2.2.2]
            rw [hsplit] at this
            rcases List.mem_append.1 this with h | h
            · exact absurd ⟨q, hq, h⟩ hex
            · exact h
          obtain ⟨x, y, z⟩ := t
          obtain ⟨hxy, hyz, -⟩ := ht
          have q1 := hrem (x, y) (by simp [sides])
          have q2 := hrem (x, z) (by simp [sides])
          have q3 := hrem (y, z) (by simp [sides])
          simp only at hxy hyz
          simp only [sides, List.mem_cons, List.not_mem_nil, or_false, Prod.mk.injEq] at hp
          rcases hp with ⟨rfl, rfl⟩ | ⟨rfl, rfl⟩ | ⟨rfl, rfl⟩
          · refine ⟨z, (hcm z).2 ⟨Or.inl q2, Or.inl q3⟩, ?_⟩
            simp [sortTriplet, not_lt.2 (le_of_lt hyz), not_lt.2 (le_of_lt hxy)]
          · refine ⟨y, (hcm y).2 ⟨Or.inl q1, Or.inr q3⟩, ?_⟩
            simp [sortTriplet, hyz, not_lt.2 (le_of_lt hxy)]
          · refine ⟨x, (hcm x).2 ⟨Or.inr q1, Or.inr q2⟩, ?_⟩
            simp [sortTriplet, hxy, lt_trans hxy hyz]

/-! ### Grouping -/

theorem chain_mem {l : List Nat} {p : Nat × Nat} (h : p ∈ chain l) : p.1 ∈ l ∧ p.2 ∈ l := by
  induction l with
  | nil => simp [chain] at h
  | cons i l ih =>
    cases l with
    | nil => simp [chain] at h
    | cons j r =>
      rw [chain, List.mem_cons] at h
      rcases h with rfl | h
      · simp
      · obtain ⟨h1, h2⟩ := ih h
        exact ⟨List.mem_cons_of_mem _ h1, List.mem_cons_of_mem _ h2⟩

theorem chain_connected (i : Nat) (l : List Nat) : ∀ x ∈ i :: l, Connected (chain (i :: l)) i x := by
  induction l generalizing i with
  | nil => intro x hx; rw [List.mem_singleton.1 hx]; exact .refl
  | cons j r ih =>
    intro x hx
    rcases List.mem_cons.1 hx with rfl | hx
    · exact .refl
    · have h1 : Connected (chain (i :: j :: r)) i j := Connected.single (Or.inl (by simp [chain]))
      exact h1.trans ((ih j x hx).mono (fun e he => by simp [chain, he]))

theorem links_spec (l : List Nat) (h : l ≠ []) : ∃ ls, links l = .ok ls ∧
    (∀ p ∈ ls, p.1 ∈ l ∧ p.2 ∈ l) ∧ (∀ x ∈ l, IsNode ls x) ∧
    ∀ x ∈ l, ∀ y ∈ l, Connected ls x y := by
  match l, h with
  | [i], _ =>
    refine ⟨[(i, i)], rfl, by simp, by simp [IsNode], ?_⟩
    intro x hx y hy
    rw [List.mem_singleton.1 hx, List.mem_singleton.1 hy]; exact .refl
  | i :: j :: r, _ =>
    refine ⟨chain (i :: j :: r), rfl, fun p hp => chain_mem hp, ?_, ?_⟩
    · intro x hx
      by_cases hxi : x = i
      · exact ⟨(i, j), by simp [chain], Or.inl hxi.symm⟩
      · have h := chain_connected i (j :: r) x hx
        cases h with
        | refl => exact absurd rfl hxi
        | step _ h =>
          rcases h with h | h
          · exact ⟨_, h, Or.inr rfl⟩
          · exact ⟨_, h, Or.inl rfl⟩
    · intro x hx y hy
      exact (chain_connected i _ x hx).symm.trans (chain_connected i _ y hy)

theorem run_append (c : CC Nat) (a b : List (CC.Op Nat)) :
    CC.run c (a ++ b) = (CC.run c a).bind fun c' => CC.run c' b := by
  induction a generalizing c with
  | nil => rfl
  | cons op a ih =>
    simp only [List.cons_append, CC.run]
    cases h : c.step op with
    | ok c' => simp [Outcome.bind, ih]
    | abort => rfl
    | ub => rfl

theorem edgesOf_map (ls : List (Nat × Nat)) :
    CC.edgesOf (ls.map (fun p => CC.Op.addEdge p.1 p.2)) = ls := by
  induction ls with
  | nil => rfl
  | cons p ls ih => simp [CC.edgesOf, ih]

omit [LinearOrder T] in
/-- All `AddEdge` calls, as one list. -/
theorem linkAll_spec (es : List ((T × T) × List Nat)) (hne : ∀ e ∈ es, e.2 ≠ []) :
    ∃ L : List (Nat × Nat),
      (∀ c, linkAll es c = CC.run c (L.map (fun p => CC.Op.addEdge p.1 p.2))) ∧
      (∀ p ∈ L, ∃ e ∈ es, p.1 ∈ e.2 ∧ p.2 ∈ e.2) ∧
      (∀ e ∈ es, (∀ x ∈ e.2, IsNode L x) ∧ ∀ x ∈ e.2, ∀ y ∈ e.2, Connected L x y) := by
  induction es with
  | nil => exact ⟨[], fun c => rfl, by simp, by simp⟩
  | cons e es ih =>
    obtain ⟨L, hL, h1, h2⟩ := ih (fun f hf => hne f (by simp [hf]))
    obtain ⟨ls, hls, k1, k2, k3⟩ := links_spec e.2 (hne e (by simp))
    refine ⟨ls ++ L, ?_, ?_, ?_⟩
    · intro c
      rw [List.map_append, run_append]
      unfold linkAll
      simp only [hls]
      cases CC.run c (ls.map (fun p => CC.Op.addEdge p.1 p.2)) with
      | ok c' => simp [Outcome.bind, hL]
      | abort => rfl
      | ub => rfl
    · intro p hp
      rcases List.mem_append.1 hp with hp | hp
      · exact ⟨e, by simp, k1 p hp⟩
      · obtain ⟨f, hf, h⟩ := h1 p hp
        exact ⟨f, by simp [hf], h⟩
    · intro f hf
      rcases List.mem_cons.1 hf with rfl | hf
      · exact ⟨fun x hx => CC.isNode_append.2 (Or.inl (k2 x hx)),
          fun x hx y hy => (k3 x hx y hy).mono (fun e he => by simp [he])⟩
      · exact ⟨fun x hx => CC.isNode_append.2 (Or.inr ((h2 f hf).1 x hx)),
          fun x hx y hy => ((h2 f hf).2 x hx y hy).mono (fun e he => by simp [he])⟩

omit [LinearOrder T] in
theorem collect_spec (ts : List (Triplet T)) (is : List Nat) (h : ∀ i ∈ is, i < ts.length) :
    collect ts is = .ok (is.filterMap (fun i => ts[i]?)) := by
  induction is with
  | nil => rfl
  | cons i is ih =>
    have hi := h i (by simp)
    unfold collect
    rw [ih (fun j hj => h j (by simp [hj])), List.getElem?_eq_getElem hi]
    simp [List.getElem?_eq_getElem hi]

omit [LinearOrder T] in
theorem collectAll_spec (ts : List (Triplet T)) (es : List (Nat × List Nat))
    (h : ∀ e ∈ es, ∀ i ∈ e.2, i < ts.length) :
    collectAll ts es = .ok (es.map (fun e => e.2.filterMap (fun i => ts[i]?))) := by
  induction es with
  | nil => rfl
  | cons e es ih =>
    unfold collectAll
    rw [collect_spec ts e.2 (h e (by simp)), ih (fun f hf => h f (by simp [hf]))]
    rfl

end Triplets
end Theia
