import Verif.Model.ConnectedComponents
import Verif.Spec.Graph

namespace Theia
namespace CC
open Spec

variable {T : Type} [DecidableEq T]

/-- Number of keys with the same representative as `n`. -/
def csize (d : AMap T (CCRoot T)) (rep : T → T) (n : T) : Nat :=
  (d.keys.filter (fun x => decide (rep x = rep n))).length

/-- The parent links form a forest with representative function `rep`. -/
structure Forest (d : AMap T (CCRoot T)) (rep : T → T) (depth : T → Nat) : Prop where
  wf : d.WF
  out : ∀ n, n ∉ d.keys → rep n = n ∧ depth n = 0
  root : ∀ n, n ∈ d.keys → d.get (rep n) = some ⟨rep n, csize d rep n⟩
  par : ∀ n p, d.get n = some p → p.id ∈ d.keys ∧ rep p.id = rep n ∧ (p.id = n → rep n = n) ∧
    (p.id ≠ n → depth p.id < depth n)
  dep : ∀ n, n ∈ d.keys → depth n < csize d rep n

variable {d d' : AMap T (CCRoot T)} {rep : T → T} {depth : T → Nat}

theorem Forest.rep_mem (h : Forest d rep depth) {n : T} (hn : n ∈ d.keys) : rep n ∈ d.keys :=
  AMap.mem_keys_iff.2 ⟨_, h.root n hn⟩

theorem Forest.rep_rep (h : Forest d rep depth) (n : T) : rep (rep n) = rep n := by
  by_cases hn : n ∈ d.keys
  · exact (h.par (rep n) _ (h.root n hn)).2.2.1 rfl
  · rw [(h.out n hn).1, (h.out n hn).1]

theorem csize_congr (hk : d'.keys = d.keys) (n : T) : csize d' rep n = csize d rep n := by
  simp [csize, hk]

theorem csize_rep (m n : T) (h : rep m = rep n) : csize d rep m = csize d rep n := by
  simp [csize, h]

theorem csize_le (n : T) : csize d rep n ≤ d.size := by
  rw [AMap.size_eq_length_keys]; exact List.length_filter_le _ _

/-- Depth strictly decreases towards the root. -/
theorem Forest.depth_rep (h : Forest d rep depth) (k : Nat) (n : T) (hn : n ∈ d.keys)
    (hk : depth n ≤ k) (hne : rep n ≠ n) : depth (rep n) < depth n := by
  induction k generalizing n with
  | zero =>
    obtain ⟨p, hp⟩ := AMap.mem_keys_iff.1 hn
    obtain ⟨hpk, hpr, hpe, hpd⟩ := h.par n p hp
    have := hpd (fun e => hne (hpe e))
    omega
  | succ k ih =>
    obtain ⟨p, hp⟩ := AMap.mem_keys_iff.1 hn
    obtain ⟨hpk, hpr, hpe, hpd⟩ := h.par n p hp
    have hlt := hpd (fun e => hne (hpe e))
    by_cases hc : rep p.id = p.id
    · rw [← hpr, hc]; exact hlt
    · have := ih p.id hpk (by omega) hc
      rw [hpr] at this; omega

theorem keys_insert_of_mem {κ ν : Type} [DecidableEq κ] (m : AMap κ ν) {k : κ} (v : ν)
    (h : k ∈ m.keys) : (m.insert k v).keys = m.keys := by
  rw [AMap.keys_insert, if_pos h]

theorem findRoot_spec (h : Forest d rep depth) (fuel : Nat) (n : T) (hn : n ∈ d.keys)
    (hf : depth n < fuel) :
    ∃ d', findRoot fuel d n = .ok (rep n, d') ∧ Forest d' rep depth ∧ d'.keys = d.keys := by
  induction fuel generalizing n with
  | zero => omega
  | succ fuel ih =>
    obtain ⟨p, hp⟩ := AMap.mem_keys_iff.1 hn
    obtain ⟨hpk, hpr, hpe, hpd⟩ := h.par n p hp
    simp only [findRoot, hp]
    by_cases hnp : n = p.id
    · rw [if_pos hnp]
      exact ⟨d, by rw [hpe hnp.symm], h, rfl⟩
    · rw [if_neg hnp]
      have hlt := hpd (fun e => hnp e.symm)
      obtain ⟨d1, he, hF, hk⟩ := ih p.id hpk (by omega)
      have hn1 : n ∈ d1.keys := hk ▸ hn
      have hroot1 : d1.get (rep n) = some ⟨rep n, csize d1 rep n⟩ := hF.root n hn1
      have hnr : rep n ≠ n := by
        intro hc
        have h1 := h.root n hn
        rw [hc, hp] at h1
        injection h1 with h1
        rw [h1] at hnp
        exact hnp rfl
      rw [he, hpr]
      simp only [hroot1]
      have hk' := keys_insert_of_mem d1 ⟨rep n, csize d1 rep n⟩ hn1
      refine ⟨_, rfl, ?_, by rw [hk', hk]⟩
      constructor
      · exact AMap.wf_insert hF.wf _ _
      · intro m hm; rw [hk'] at hm; exact hF.out m hm
      · intro m hm
        rw [hk'] at hm
        rw [csize_congr hk']
        have hmn : rep m ≠ n := by
          intro hc
          have := hF.rep_rep m
          rw [hc] at this
          exact hnr this
        rw [AMap.get_insert_ne _ _ hmn]
        exact hF.root m hm
      · intro m q hq
        rw [hk']
        rw [AMap.get_insert] at hq
        split at hq
        · rename_i hmn
          subst hmn
          cases hq
          refine ⟨hF.rep_mem hn1, hF.rep_rep m, fun e => e, fun _ => ?_⟩
          exact hF.depth_rep _ m hn1 (Nat.le_refl _) hnr
        · exact hF.par m q hq
      · intro m hm
        rw [hk'] at hm
        rw [csize_congr hk']
        exact hF.dep m hm

theorem findRoot_spec' (h : Forest d rep depth) (n : T) (hn : n ∈ d.keys) :
    ∃ d', findRoot (d.size + 1) d n = .ok (rep n, d') ∧ Forest d' rep depth ∧ d'.keys = d.keys :=
  findRoot_spec h _ n hn (by have := h.dep n hn; have := csize_le (d := d) (rep := rep) n; omega)

theorem findOrInsert_spec (h : Forest d rep depth) (n : T) :
    ∃ d', findOrInsert d n = .ok (rep n, d') ∧ Forest d' rep depth ∧
      d'.keys = (if n ∈ d.keys then d.keys else d.keys ++ [n]) := by
  unfold findOrInsert
  cases hg : d.get n with
  | some v =>
    have hn : n ∈ d.keys := AMap.mem_keys_iff.2 ⟨v, hg⟩
    rw [if_pos hn]
    exact findRoot_spec' h n hn
  | none =>
    have hn : n ∉ d.keys := AMap.get_eq_none_iff.1 hg
    obtain ⟨hr, hd⟩ := h.out n hn
    have hk := AMap.keys_insert d n (⟨n, 1⟩ : CCRoot T)
    rw [if_neg hn] at hk
    rw [if_neg hn]
    refine ⟨_, by rw [hr], ?_, hk⟩
    have hrepne : ∀ m ∈ d.keys, rep m ≠ n := fun m hm hc => hn (hc ▸ h.rep_mem hm)
    have hcs : ∀ m ∈ d.keys, csize (d.insert n ⟨n, 1⟩) rep m = csize d rep m := by
      intro m hm
      simp only [csize, hk, List.filter_append, List.length_append]
      have : ¬ rep n = rep m := by rw [hr]; exact fun e => hrepne m hm e.symm
      simp [this]
    have hcn : csize (d.insert n ⟨n, 1⟩) rep n = 1 := by
      simp only [csize, hk, List.filter_append, List.length_append]
      have : d.keys.filter (fun x => decide (rep x = rep n)) = [] := by
        rw [List.filter_eq_nil_iff]
        intro m hm
        simp only [decide_eq_true_eq, hr]
        exact hrepne m hm
      simp [this]
    constructor
    · exact AMap.wf_insert h.wf _ _
    · intro m hm
      rw [hk] at hm
      exact h.out m (fun hc => hm (by simp [hc]))
    · intro m hm
      rw [hk] at hm
      simp only [List.mem_append, List.mem_singleton] at hm
      rcases hm with hm | rfl
      · rw [AMap.get_insert_ne _ _ (hrepne m hm), hcs m hm]; exact h.root m hm
      · rw [hcn, hr, AMap.get_insert_self]
    · intro m q hq
      rw [AMap.get_insert] at hq
      split at hq
      · rename_i hmn
        subst hmn
        cases hq
        exact ⟨by simp [hk], rfl, fun _ => hr, fun e => absurd rfl e⟩
      · obtain ⟨a, b⟩ := h.par m q hq
        exact ⟨by rw [hk]; simp [a], b⟩
    · intro m hm
      rw [hk] at hm
      simp only [List.mem_append, List.mem_singleton] at hm
      rcases hm with hm | rfl
      · rw [hcs m hm]; exact h.dep m hm
      · rw [hcn, hd]; omega

theorem length_filter_merge {l : List T} {x y : T} (hxy : x ≠ y) (rep : T → T) :
    (l.filter (fun n => decide ((if rep n = y then x else rep n) = x))).length =
      (l.filter (fun n => decide (rep n = x))).length + (l.filter (fun n => decide (rep n = y))).length := by
  have hyx : y ≠ x := fun e => hxy e.symm
  induction l with
  | nil => rfl
  | cons a l ih =>
    simp only [List.filter_cons]
    by_cases h1 : rep a = y
    · simp only [h1, if_true, decide_true, List.length_cons, ih, hyx, decide_false, Bool.false_eq_true,
        if_false]; omega
    · by_cases h2 : rep a = x
      · simp only [h2, hxy, if_true, decide_true, List.length_cons, ih, decide_false,
          Bool.false_eq_true, if_false]; omega
      · simp only [h1, h2, if_false, decide_false, Bool.false_eq_true, ih]

theorem length_filter_other {l : List T} {x y z : T} (hzx : z ≠ x) (hzy : z ≠ y) (rep : T → T) :
    l.filter (fun n => decide ((if rep n = y then x else rep n) = z)) =
      l.filter (fun n => decide (rep n = z)) := by
  apply List.filter_congr
  intro a _
  have hxz : x ≠ z := fun e => hzx e.symm
  have hyz : y ≠ z := fun e => hzy e.symm
  by_cases h1 : rep a = y
  · simp only [h1, if_true, hxz, hyz, decide_false]
  · simp only [h1, if_false]

/-- Merging the trees with roots `x` (kept) and `y`. -/
theorem merge_forest (h : Forest d rep depth) {x y : T} (hx : x ∈ d.keys) (hy : y ∈ d.keys)
    (hrx : rep x = x) (hry : rep y = y) (hxy : x ≠ y) :
    Forest ((d.insert x ⟨x, csize d rep x + csize d rep y⟩).insert y ⟨x, csize d rep x + csize d rep y⟩)
      (fun n => if rep n = y then x else rep n)
      (fun n => if rep n = y then depth n + csize d rep x else depth n) ∧
    ((d.insert x ⟨x, csize d rep x + csize d rep y⟩).insert y
      ⟨x, csize d rep x + csize d rep y⟩).keys = d.keys := by
  generalize hR : (⟨x, csize d rep x + csize d rep y⟩ : CCRoot T) = R
  have hk1 := keys_insert_of_mem d R hx
  have hk : ((d.insert x R).insert y R).keys = d.keys := by
    rw [keys_insert_of_mem _ _ (hk1 ▸ hy), hk1]
  refine ⟨?_, hk⟩
  have hyx : y ≠ x := fun e => hxy e.symm
  have hsplit := fun l : List T => length_filter_merge (l := l) hxy rep
  have hother : ∀ (l : List T) (z : T), z ≠ x → z ≠ y → _ := fun l z hzx hzy =>
    congrArg List.length (length_filter_other (l := l) (x := x) (y := y) hzx hzy rep)
  have hcs : ∀ n, csize ((d.insert x R).insert y R) (fun n => if rep n = y then x else rep n) n =
      if rep n = x ∨ rep n = y then csize d rep x + csize d rep y else csize d rep n := by
    intro n
    unfold csize
    rw [hk]
    by_cases h1 : rep n = y
    · simp only [h1, if_true, or_true]
      rw [hsplit, hrx, hry]
    · by_cases h2 : rep n = x
      · simp only [h2, if_neg hxy, true_or, if_true]
        rw [hsplit, hrx, hry]
      · simp only [h1, h2, if_false, or_self]
        exact hother _ _ h2 h1
  have hpos : ∀ n ∈ d.keys, 0 < csize d rep n := fun n hn => by have := h.dep n hn; omega
  constructor
  · exact AMap.wf_insert (AMap.wf_insert h.wf _ _) _ _
  · intro n hn
    rw [hk] at hn
    obtain ⟨a, b⟩ := h.out n hn
    have : rep n ≠ y := by rw [a]; rintro rfl; exact hn hy
    exact ⟨by rw [if_neg this]; exact a, by rw [if_neg this]; exact b⟩
  · intro n hn
    rw [hk] at hn
    rw [hcs]
    by_cases h1 : rep n = y
    · simp only [h1, if_true, or_true]
      rw [AMap.get_insert_ne _ _ hxy, AMap.get_insert_self, ← hR]
    · by_cases h2 : rep n = x
      · simp only [h2, if_neg hxy, true_or, if_true]
        rw [AMap.get_insert_ne _ _ hxy, AMap.get_insert_self, ← hR]
      · simp only [h1, h2, if_false, or_self]
        rw [AMap.get_insert_ne _ _ h1, AMap.get_insert_ne _ _ h2]
        exact h.root n hn
  · intro n q hq
    rw [hk]
    rw [AMap.get_insert] at hq
    split at hq
    · rename_i hny
      subst hny
      cases hq
      subst hR
      refine ⟨hx, by simp [hrx, hry, hxy], fun e => absurd e hxy, fun _ => ?_⟩
      have := h.dep x hx
      simp only [hrx, hry, if_neg hxy, if_true]
      omega
    · rename_i hny
      rw [AMap.get_insert] at hq
      split at hq
      · rename_i hnx
        subst hnx
        cases hq
        subst hR
        exact ⟨hx, rfl, fun _ => by simp [hrx, hxy], fun e => absurd rfl e⟩
      · obtain ⟨a, b, c, e⟩ := h.par n q hq
        refine ⟨a, by simp [b], ?_, ?_⟩
        · intro hqn
          have := c hqn
          simp only [this]
          rw [if_neg hny]
        · intro hqn
          have := e hqn
          simp only [b]
          split <;> omega
  · intro n hn
    rw [hk] at hn
    rw [hcs]
    have hd := h.dep n hn
    by_cases h1 : rep n = y
    · simp only [h1, if_true, or_true]
      rw [csize_rep n y (by rw [h1, hry])] at hd
      omega
    · by_cases h2 : rep n = x
      · simp only [h2, if_neg hxy, true_or, if_true]
        rw [csize_rep n x (by rw [h2, hrx])] at hd
        omega
      · simp only [h1, h2, if_false, or_self]
        exact hd

/-- Effect of `addEdge` on the partition. -/
theorem addEdge_spec (c : CC T) (h : Forest c.set rep depth) (a b : T) :
    ∃ c' rep' depth' d1, c.addEdge a b = .ok c' ∧ c'.maxSize = c.maxSize ∧
      Forest c'.set rep' depth' ∧ Forest d1 rep depth ∧ c'.set.keys = d1.keys ∧
      (∀ x, x ∈ d1.keys ↔ x ∈ c.set.keys ∨ x = a ∨ x = b) ∧
      ((rep a = rep b ∨ csize d1 rep a + csize d1 rep b > c.maxSize) ∧ rep' = rep ∨
       (rep a ≠ rep b ∧ csize d1 rep a + csize d1 rep b ≤ c.maxSize ∧
        ∃ x y, ((x = rep a ∧ y = rep b) ∨ (x = rep b ∧ y = rep a)) ∧
          rep' = fun n => if rep n = y then x else rep n)) := by
  obtain ⟨d0, e0, f0, k0⟩ := findOrInsert_spec h a
  obtain ⟨d1, e1, f1, k1⟩ := findOrInsert_spec f0 b
  have hmemIf : ∀ (l : List T) (z : T), z ∈ (if z ∈ l then l else l ++ [z]) := by
    intro l z; split
    · assumption
    · simp
  have ha0 : a ∈ d0.keys := by rw [k0]; exact hmemIf _ _
  have ha : a ∈ d1.keys := by rw [k1]; split <;> simp [ha0]
  have hb : b ∈ d1.keys := by rw [k1]; exact hmemIf _ _
  have hmem : ∀ x, x ∈ d1.keys ↔ x ∈ c.set.keys ∨ x = a ∨ x = b := by
    intro x
    rw [k1, k0]
    by_cases h1 : a ∈ c.set.keys <;> simp only [h1, if_true, if_false]
    · by_cases h2 : b ∈ c.set.keys <;> simp only [h2, if_true, if_false]
      · constructor
        · exact Or.inl
        · rintro (h | rfl | rfl) <;> assumption
      · simp only [List.mem_append, List.mem_singleton]
        constructor
        · rintro (h | h)
          · exact Or.inl h
          · exact Or.inr (Or.inr h)
        · rintro (h | rfl | h)
          · exact Or.inl h
          · exact Or.inl h1
          · exact Or.inr h
    · split
      · rename_i h2
        simp only [List.mem_append, List.mem_singleton] at *
        constructor
        · rintro (h | h)
          · exact Or.inl h
          · exact Or.inr (Or.inl h)
        · rintro (h | h | rfl)
          · exact Or.inl h
          · exact Or.inr h
          · exact h2
      · simp only [List.mem_append, List.mem_singleton, or_assoc]
  have ra := f1.root a ha
  have rb := f1.root b hb
  simp only [addEdge, e0, e1, ra, rb]
  by_cases hcond : rep a = rep b ∨ csize d1 rep a + csize d1 rep b > c.maxSize
  · rw [if_pos hcond]
    exact ⟨_, rep, depth, d1, rfl, rfl, f1, f1, rfl, hmem, Or.inl ⟨hcond, rfl⟩⟩
  · rw [if_neg hcond]
    simp only [not_or, Nat.not_lt, gt_iff_lt] at hcond
    have sa := csize_rep (d := d1) (rep := rep) (rep a) a (f1.rep_rep a)
    have sb := csize_rep (d := d1) (rep := rep) (rep b) b (f1.rep_rep b)
    by_cases hlt : csize d1 rep a < csize d1 rep b
    · rw [if_pos hlt]
      obtain ⟨hF, hK⟩ := merge_forest f1 (f1.rep_mem hb) (f1.rep_mem ha) (f1.rep_rep b) (f1.rep_rep a)
        (fun e => hcond.1 e.symm)
      rw [sa, sb] at hF hK
      exact ⟨_, _, _, d1, rfl, rfl, hF, f1, hK, hmem,
        Or.inr ⟨hcond.1, hcond.2, _, _, Or.inr ⟨rfl, rfl⟩, rfl⟩⟩
    · rw [if_neg hlt]
      obtain ⟨hF, hK⟩ := merge_forest f1 (f1.rep_mem ha) (f1.rep_mem hb) (f1.rep_rep a) (f1.rep_rep b)
        hcond.1
      rw [sa, sb] at hF hK
      exact ⟨_, _, _, d1, rfl, rfl, hF, f1, hK, hmem,
        Or.inr ⟨hcond.1, hcond.2, _, _, Or.inl ⟨rfl, rfl⟩, rfl⟩⟩

theorem nodesInSame_spec (c : CC T) (h : Forest c.set rep depth) (a b : T) :
    ∃ c', c.nodesInSame a b =
        .ok (decide (a ∈ c.set.keys ∧ b ∈ c.set.keys ∧ rep a = rep b), c') ∧
      c'.maxSize = c.maxSize ∧ Forest c'.set rep depth ∧ c'.set.keys = c.set.keys := by
  unfold nodesInSame
  by_cases ha : a ∈ c.set.keys
  · by_cases hb : b ∈ c.set.keys
    · rw [if_neg (by simp [AMap.contains_iff, ha, hb])]
      obtain ⟨d1, e1, f1, k1⟩ := findRoot_spec' h a ha
      obtain ⟨d2, e2, f2, k2⟩ := findRoot_spec' f1 b (k1 ▸ hb)
      have hka : a ∈ d2.keys := by rw [k2, k1]; exact ha
      have hkb : b ∈ d2.keys := by rw [k2, k1]; exact hb
      simp only [e1, e2, f2.root a hka, f2.root b hkb]
      exact ⟨{ c with set := d2 }, by simp [ha, hb], rfl, f2, by rw [← k1, ← k2]⟩
    · rw [if_pos (by simp [AMap.contains_iff, hb])]
      exact ⟨c, by simp [hb], rfl, h, rfl⟩
  · rw [if_pos (by simp [AMap.contains_iff, ha])]
    exact ⟨c, by simp [ha], rfl, h, rfl⟩

/-- State of the output map of `Extract` after processing the nodes `done`. -/
def Collected (rep : T → T) (done : List T) (out : AMap T (List T)) : Prop :=
  out.WF ∧ (∀ r, r ∈ out.keys ↔ ∃ x ∈ done, rep x = r) ∧
    ∀ r l, out.get r = some l → l = done.filter (fun x => decide (rep x = r))

theorem extractLoop_spec (nodes done : List T) (h : Forest d rep depth)
    (hn : ∀ x ∈ nodes, x ∈ d.keys) (hnd : (done ++ nodes).Nodup) (out : AMap T (List T))
    (hc : Collected rep done out) :
    ∃ out' d', extractLoop nodes d out = .ok (out', d') ∧ Forest d' rep depth ∧ d'.keys = d.keys ∧
      Collected rep (done ++ nodes) out' := by
  induction nodes generalizing d done out with
  | nil => exact ⟨out, d, rfl, h, rfl, by simpa using hc⟩
  | cons n nodes ih =>
    have hnk := hn n (by simp)
    obtain ⟨d1, e1, f1, k1⟩ := findRoot_spec' h n hnk
    simp only [extractLoop, e1, f1.root n (k1 ▸ hnk)]
    have hnotin : n ∉ done := by
      intro hc
      rw [List.nodup_append] at hnd
      exact hnd.2.2 n hc n (by simp) rfl
    have hmem : (out.get (rep n)).getD [] = done.filter (fun x => decide (rep x = rep n)) := by
      cases hg : out.get (rep n) with
      | some l => exact hc.2.2 _ _ hg
      | none =>
        have : rep n ∉ out.keys := AMap.get_eq_none_iff.1 hg
        rw [hc.2.1] at this
        symm
        simp only [Option.getD_none, List.filter_eq_nil_iff, decide_eq_true_eq]
        intro x hx hxr
        exact this ⟨x, hx, hxr⟩
    have hni : n ∉ (out.get (rep n)).getD [] := by
      rw [hmem]; simp [hnotin]
    rw [if_neg hni, hmem]
    have hcol : Collected rep (done ++ [n])
        (out.insert (rep n) (done.filter (fun x => decide (rep x = rep n)) ++ [n])) := by
      refine ⟨AMap.wf_insert hc.1 _ _, ?_, ?_⟩
      · intro r
        rw [AMap.mem_keys_insert, hc.2.1]
        constructor
        · rintro (rfl | ⟨x, hx, rfl⟩)
          · exact ⟨n, by simp, rfl⟩
          · exact ⟨x, by simp [hx], rfl⟩
        · rintro ⟨x, hx, rfl⟩
          simp only [List.mem_append, List.mem_singleton] at hx
          rcases hx with hx | rfl
          · exact Or.inr ⟨x, hx, rfl⟩
          · exact Or.inl rfl
      · intro r l hl
        rw [AMap.get_insert] at hl
        rw [List.filter_append]
        split at hl
        · rename_i hr
          subst hr
          cases hl
          simp
        · rename_i hr
          rw [hc.2.2 r l hl]
          have : ¬ rep n = r := fun e => hr e.symm
          simp [this]
    obtain ⟨out', d', e', f', k', c'⟩ := ih (d := d1) (done ++ [n]) f1
      (fun x hx => k1 ▸ hn x (by simp [hx])) (by simpa using hnd) _ hcol
    exact ⟨out', d', e', f', by rw [k', k1], by simpa using c'⟩

theorem extract_spec (c : CC T) (h : Forest c.set rep depth) :
    ∃ out c', c.extract = .ok (out, c') ∧ c'.maxSize = c.maxSize ∧ Forest c'.set rep depth ∧
      c'.set.keys = c.set.keys ∧ Collected rep c.set.keys out := by
  obtain ⟨out, d', e, f, k, hc⟩ := extractLoop_spec c.set.keys [] h (fun _ hx => hx)
    (by rw [List.nil_append]; exact h.wf) .empty ⟨AMap.wf_empty, by simp, by simp⟩
  refine ⟨out, { c with set := d' }, by simp only [extract, e], rfl, f, k, by simpa using hc⟩

theorem forest_empty : Forest (AMap.empty : AMap T (CCRoot T)) id (fun _ => 0) := by
  constructor
  · exact AMap.wf_empty
  · intro n _; exact ⟨rfl, rfl⟩
  · intro n hn; simp at hn
  · intro n p hp; simp at hp
  · intro n hn; simp at hn

/-! ## Histories -/

omit [DecidableEq T] in
theorem edgesOf_append (xs ys : List (Op T)) : edgesOf (xs ++ ys) = edgesOf xs ++ edgesOf ys := by
  induction xs with
  | nil => rfl
  | cons op xs ih => cases op <;> simp [edgesOf, ih]

/-- What is known after a history with edges `E`. -/
structure State (m : Nat) (E : List (T × T)) (c : CC T) (rep : T → T) (depth : T → Nat) : Prop where
  max : c.maxSize = m
  forest : Forest c.set rep depth
  keys : ∀ x, x ∈ c.set.keys ↔ IsNode E x
  connIn : ∀ x y, rep x = rep y → Connected (E.filter (fun e => decide (rep e.1 = rep e.2))) x y
  cap : ∀ x ∈ c.set.keys, csize c.set rep x ≤ m

theorem State.conn {m : Nat} {E : List (T × T)} {c : CC T} (h : State m E c rep depth) (x y : T)
    (hxy : rep x = rep y) : Connected E x y :=
  (h.connIn x y hxy).mono fun _ he => (List.mem_filter.1 he).1

omit [DecidableEq T] in
theorem isNode_append {E E' : List (T × T)} {x : T} : IsNode (E ++ E') x ↔ IsNode E x ∨ IsNode E' x := by
  simp [IsNode, or_and_right, exists_or]

omit [DecidableEq T] in
theorem isNode_single {a b x : T} : IsNode [(a, b)] x ↔ x = a ∨ x = b := by
  simp only [IsNode, List.mem_singleton, exists_eq_left, eq_comm]

theorem state_addEdge {m : Nat} {E : List (T × T)} {c : CC T} (hm : 0 < m)
    (h : State m E c rep depth) (a b : T) :
    ∃ c' rep' depth', c.addEdge a b = .ok c' ∧ State m (E ++ [(a, b)]) c' rep' depth' ∧
      (∀ x y, rep x = rep y → rep' x = rep' y) ∧
      (rep' a = rep' b ∨
        m < (c'.set.keys.filter (fun x => decide (rep' x = rep' a))).length +
          (c'.set.keys.filter (fun x => decide (rep' x = rep' b))).length) := by
  obtain ⟨c', rep', depth', d1, he, hmx, hF, hF1, hk, hmem, hcase⟩ := addEdge_spec c h.forest a b
  have hkeys : ∀ x, x ∈ c'.set.keys ↔ IsNode (E ++ [(a, b)]) x := by
    intro x
    rw [hk, hmem, h.keys, isNode_append, isNode_single]
  have hcs1 : ∀ x, csize d1 rep x ≤ m ∨ x ∉ d1.keys := by
    intro x
    by_cases hx : x ∈ d1.keys
    · left
      by_cases hx0 : x ∈ c.set.keys
      · refine Nat.le_trans ?_ (h.cap x hx0)
        -- new keys are their own representatives, so the class of an old key is unchanged
        unfold csize
        have hsub : ∀ z ∈ d1.keys.filter (fun z => decide (rep z = rep x)),
            z ∈ c.set.keys.filter (fun z => decide (rep z = rep x)) := by
          intro z hz
          simp only [List.mem_filter, decide_eq_true_eq] at hz ⊢
          refine ⟨?_, hz.2⟩
          apply Classical.byContradiction
          intro hzn
          have := (h.forest.out z hzn).1
          rw [this] at hz
          exact hzn (hz.2 ▸ h.forest.rep_mem hx0)
        exact List.Nodup.length_le_of_subset (hF1.wf.sublist List.filter_sublist) hsub
      · have hr := (h.forest.out x hx0).1
        have : d1.keys.filter (fun z => decide (rep z = rep x)) ⊆ [x] := by
          intro z hz
          simp only [List.mem_filter, decide_eq_true_eq, hr] at hz
          by_cases hz0 : z ∈ c.set.keys
          · exact absurd (hz.2 ▸ h.forest.rep_mem hz0) hx0
          · rw [(h.forest.out z hz0).1] at hz
            simp [hz.2]
        have := List.Nodup.length_le_of_subset (hF1.wf.sublist List.filter_sublist) this
        unfold csize
        simp only [List.length_singleton] at this
        omega
    · exact Or.inr hx
  refine ⟨c', rep', depth', he, ⟨by rw [hmx, h.max], hF, hkeys, ?_, ?_⟩, ?_, ?_⟩
  · intro x y hxy
    rcases hcase with ⟨_, rfl⟩ | ⟨_, _, p, q, hpq, rfl⟩
    · exact (h.connIn x y hxy).mono (fun e he => by
        rw [List.filter_append]; exact List.mem_append_left _ he)
    · generalize hE' : (E ++ [(a, b)]).filter (fun e => decide
        ((if rep e.1 = q then p else rep e.1) = (if rep e.2 = q then p else rep e.2))) = E'
      have hmono : ∀ x y, rep x = rep y → Connected E' x y := by
        intro x y hxy
        refine (h.connIn x y hxy).mono (fun e he => ?_)
        simp only [List.mem_filter, decide_eq_true_eq] at he
        rw [← hE']
        simp [he.1, he.2]
      have hmem' : (a, b) ∈ E' := by
        rw [← hE']
        rcases hpq with ⟨rfl, rfl⟩ | ⟨rfl, rfl⟩ <;> simp
      have hab : Connected E' (rep a) (rep b) := by
        have h1 := hmono (rep a) a (h.forest.rep_rep a)
        have h2 := hmono b (rep b) (h.forest.rep_rep b).symm
        exact (h1.trans (Connected.single (Or.inl hmem'))).trans h2
      have hpq' : Connected E' p q := by
        rcases hpq with ⟨rfl, rfl⟩ | ⟨rfl, rfl⟩
        · exact hab
        · exact hab.symm
      have toRep : ∀ z, Connected E' z (rep z) :=
        fun z => hmono z (rep z) (h.forest.rep_rep z).symm
      have toRep' : ∀ z, Connected E' z (if rep z = q then p else rep z) := by
        intro z
        split
        · rename_i hz; exact (hz ▸ toRep z).trans hpq'.symm
        · exact toRep z
      have hx := toRep' x
      rw [show (if rep x = q then p else rep x) = (if rep y = q then p else rep y) from hxy] at hx
      exact hx.trans (toRep' y).symm
  · intro x hx
    rw [hk] at hx
    unfold csize
    rw [hk]
    rcases hcase with ⟨_, rfl⟩ | ⟨hne, hle, p, q, hpq, rfl⟩
    · exact (hcs1 x).resolve_right (fun hn => hn hx)
    · have hpq' : p ≠ q := by
        rcases hpq with ⟨rfl, rfl⟩ | ⟨rfl, rfl⟩
        · exact hne
        · exact fun e => hne e.symm
      have hsum : (d1.keys.filter (fun z => decide (rep z = p))).length +
          (d1.keys.filter (fun z => decide (rep z = q))).length ≤ m := by
        rw [← h.max]
        unfold csize at hle
        rcases hpq with ⟨rfl, rfl⟩ | ⟨rfl, rfl⟩ <;> omega
      by_cases h1 : (if rep x = q then p else rep x) = p
      · simp only [h1]
        rw [length_filter_merge hpq']; exact hsum
      · have h2 : rep x ≠ q := by intro e; simp [e] at h1
        simp only [h2, if_false] at h1 ⊢
        have := length_filter_other (l := d1.keys) h1 h2 rep
        rw [this]
        exact (hcs1 x).resolve_right (fun hn => hn hx)
  · intro x y hxy
    rcases hcase with ⟨_, rfl⟩ | ⟨_, _, p, q, _, rfl⟩
    · exact hxy
    · simp [hxy]
  · rcases hcase with ⟨hab | hgt, rfl⟩ | ⟨_, _, p, q, hpq, rfl⟩
    · exact Or.inl hab
    · right
      rw [hk, ← h.max]
      unfold csize at hgt
      omega
    · left
      rcases hpq with ⟨rfl, rfl⟩ | ⟨rfl, rfl⟩
      · simp
      · simp

theorem state_step {m : Nat} {E : List (T × T)} {c : CC T} (hm : 0 < m)
    (h : State m E c rep depth) (op : Op T) :
    ∃ c' rep' depth', c.step op = .ok c' ∧ State m (E ++ edgesOf [op]) c' rep' depth' ∧
      (∀ x y, rep x = rep y → rep' x = rep' y) := by
  cases op with
  | addEdge a b =>
    obtain ⟨c', r', d', h1, h2, h3, _⟩ := state_addEdge hm h a b
    exact ⟨c', r', d', h1, h2, h3⟩
  | query a b =>
    obtain ⟨c', e, hmx, f, k⟩ := nodesInSame_spec c h.forest a b
    refine ⟨c', rep, depth, by simp [step, e, Outcome.bind], ⟨by rw [hmx, h.max], f, ?_, ?_, ?_⟩,
      fun _ _ h => h⟩
    · simpa [edgesOf, k] using h.keys
    · simpa [edgesOf] using h.connIn
    · intro x hx; rw [csize_congr k]; exact h.cap x (k ▸ hx)
  | extract =>
    obtain ⟨out, c', e, hmx, f, k, _⟩ := extract_spec c h.forest
    refine ⟨c', rep, depth, by simp [step, e, Outcome.bind], ⟨by rw [hmx, h.max], f, ?_, ?_, ?_⟩,
      fun _ _ h => h⟩
    · simpa [edgesOf, k] using h.keys
    · simpa [edgesOf] using h.connIn
    · intro x hx; rw [csize_congr k]; exact h.cap x (k ▸ hx)

theorem state_run {m : Nat} {E : List (T × T)} {c : CC T} (hm : 0 < m)
    (h : State m E c rep depth) (ops : List (Op T)) :
    ∃ c' rep' depth', run c ops = .ok c' ∧ State m (E ++ edgesOf ops) c' rep' depth' := by
  induction ops generalizing c rep depth E with
  | nil => exact ⟨c, rep, depth, rfl, by simpa [edgesOf] using h⟩
  | cons op ops ih =>
    obtain ⟨c1, r1, d1, e1, s1, _⟩ := state_step hm h op
    obtain ⟨c2, r2, d2, e2, s2⟩ := ih s1
    refine ⟨c2, r2, d2, by simp [run, e1, Outcome.bind, e2], ?_⟩
    rw [List.append_assoc, ← edgesOf_append] at s2
    exact s2

theorem state_empty (m : Nat) : State m [] (⟨m, .empty⟩ : CC T) id (fun _ => 0) := by
  refine ⟨rfl, forest_empty, ?_, ?_, ?_⟩
  · intro x; simp [IsNode]
  · intro x y hxy; change x = y at hxy; subst hxy; exact .refl
  · intro x hx; simp at hx

/-- If there are at most `m` nodes, no merge is ever refused. -/
theorem state_complete {m : Nat} {E : List (T × T)} {c : CC T} (hm : 0 < m)
    (h : State m E c rep depth) (hcomp : ∀ e ∈ E, rep e.1 = rep e.2) (ops : List (Op T))
    (nodes : List T) (hlen : nodes.length ≤ m)
    (hnodes : ∀ x, IsNode (E ++ edgesOf ops) x → x ∈ nodes) :
    ∃ c' rep' depth', run c ops = .ok c' ∧ State m (E ++ edgesOf ops) c' rep' depth' ∧
      ∀ e ∈ E ++ edgesOf ops, rep' e.1 = rep' e.2 := by
  induction ops generalizing c rep depth E with
  | nil => exact ⟨c, rep, depth, rfl, by simpa [edgesOf] using h, by simpa [edgesOf] using hcomp⟩
  | cons op ops ih =>
    have key : ∃ c1 r1 d1, c.step op = .ok c1 ∧ State m (E ++ edgesOf [op]) c1 r1 d1 ∧
        ∀ e ∈ E ++ edgesOf [op], r1 e.1 = r1 e.2 := by
      cases op with
      | addEdge a b =>
        obtain ⟨c', r', d', h1, h2, h3, h4⟩ := state_addEdge hm h a b
        refine ⟨c', r', d', h1, h2, ?_⟩
        intro e he
        simp only [edgesOf, List.mem_append, List.mem_singleton] at he
        rcases he with he | rfl
        · exact h3 _ _ (hcomp e he)
        · rcases h4 with h4 | h4
          · exact h4
          · apply Classical.byContradiction
            intro hne
            have hsub : ∀ x ∈ (c'.set.keys.filter (fun x => decide (r' x = r' a)) ++
                c'.set.keys.filter (fun x => decide (r' x = r' b))), x ∈ nodes := by
              intro x hx
              apply hnodes
              have : x ∈ c'.set.keys := by
                simp only [List.mem_append, List.mem_filter] at hx
                rcases hx with hx | hx <;> exact hx.1
              rw [h2.keys] at this
              simp only [edgesOf]
              rw [List.append_cons, isNode_append]
              exact Or.inl this
            have hnd : (c'.set.keys.filter (fun x => decide (r' x = r' a)) ++
                c'.set.keys.filter (fun x => decide (r' x = r' b))).Nodup := by
              rw [List.nodup_append]
              refine ⟨h2.forest.wf.sublist List.filter_sublist,
                h2.forest.wf.sublist List.filter_sublist, ?_⟩
              intro x hx y hy hxy
              subst hxy
              simp only [List.mem_filter, decide_eq_true_eq] at hx hy
              exact hne (hx.2.symm.trans hy.2)
            have := List.Nodup.length_le_of_subset hnd hsub
            rw [List.length_append] at this
            omega
      | query a b =>
        obtain ⟨c1, r1, d1, e1, s1, k1⟩ := state_step hm h (Op.query a b)
        exact ⟨c1, r1, d1, e1, s1, by intro e he; simp [edgesOf] at he; exact k1 _ _ (hcomp e he)⟩
      | extract =>
        obtain ⟨c1, r1, d1, e1, s1, k1⟩ := state_step hm h (Op.extract)
        exact ⟨c1, r1, d1, e1, s1, by intro e he; simp [edgesOf] at he; exact k1 _ _ (hcomp e he)⟩
    obtain ⟨c1, r1, d1, e1, s1, k1⟩ := key
    have hassoc : E ++ edgesOf (op :: ops) = (E ++ edgesOf [op]) ++ edgesOf ops := by
      rw [List.append_assoc, ← edgesOf_append]; rfl
    obtain ⟨c2, r2, d2, e2, s2, k2⟩ := ih s1 k1 (by rw [← hassoc]; exact hnodes)
    exact ⟨c2, r2, d2, by simp [run, e1, Outcome.bind, e2], by rw [hassoc]; exact s2,
      by rw [hassoc]; exact k2⟩

end CC
end Theia
