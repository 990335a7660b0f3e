import Mathlib.Data.List.Perm.Basic
import Mathlib.Data.List.Nodup
import Mathlib.Data.Rat.Cast.Order
import Mathlib.Tactic.Linarith
import Mathlib.Tactic.Ring
import Verif.Model.Samplers
import Verif.Spec.Samplers

namespace Theia
namespace RandomSampler

theorem swapAt_spec {l : List Nat} {i r : Nat} (hi : i ≤ r) (hr : r < l.length) :
    ∃ l', swapAt l i r = .ok l' ∧ l'.Perm l ∧ l'.take i = l.take i ∧ l'[i]? = l[r]? := by
  have hil : i < l.length := by omega
  refine ⟨(l.set i l[r]).set r l[i], ?_, List.set_set_perm hil hr, ?_, ?_⟩
  · unfold swapAt
    rw [List.getElem?_eq_getElem hil, List.getElem?_eq_getElem hr]
  · rw [List.take_set_of_le hi, List.take_set_of_le (le_refl i)]
  · rw [List.getElem?_eq_getElem hr]
    by_cases h : r = i
    · subst h
      simp [hr]
    · rw [List.getElem?_set_ne h, List.getElem?_set_self hil]

/-- The numbers drawn from iteration `i` on are in range. -/
def DrawsFrom (i n : Nat) (d : List Nat) : Prop :=
  ∀ (k r : Nat), d[k]? = some r → i + k ≤ r ∧ r < n

theorem DrawsFrom.cons {i n r : Nat} {d : List Nat} (h : DrawsFrom i n (r :: d)) :
    (i ≤ r ∧ r < n) ∧ DrawsFrom (i + 1) n d := by
  refine ⟨by simpa using h 0 r rfl, fun k x hx => ?_⟩
  have := h (k + 1) x (by simpa using hx)
  omega

theorem drawsFrom_cons {i n r : Nat} {d : List Nat} (h1 : i ≤ r ∧ r < n) (h2 : DrawsFrom (i + 1) n d) :
    DrawsFrom i n (r :: d) := by
  intro k x hx
  cases k with
  | zero => simp only [List.getElem?_cons_zero, Option.some.injEq] at hx; omega
  | succ k =>
    simp only [List.getElem?_cons_succ] at hx
    have := h2 k x hx
    omega

theorem drop_perm_of_take {l l' : List Nat} {i : Nat} (hp : l'.Perm l) (ht : l'.take i = l.take i) :
    (l'.drop i).Perm (l.drop i) := by
  rw [← List.take_append_drop i l', ← List.take_append_drop i l, ht] at hp
  exact (List.perm_append_left_iff _).1 hp

theorem sampleFrom_spec (d : List Nat) : ∀ (i : Nat) (l : List Nat), DrawsFrom i l.length d →
    ∃ s l', sampleFrom i d l = .ok (s, l') ∧ l'.Perm l ∧ l'.take i = l.take i ∧
      s.length = d.length ∧ s = (l'.drop i).take d.length := by
  induction d with
  | nil =>
    intro i l _
    exact ⟨[], l, rfl, List.Perm.refl l, rfl, rfl, by simp⟩
  | cons r d ih =>
    intro i l hd
    obtain ⟨⟨h1, h2⟩, hd'⟩ := hd.cons
    obtain ⟨l1, hs1, hp1, ht1, hx1⟩ := swapAt_spec h1 h2
    have hlen : l1.length = l.length := hp1.length_eq
    rw [← hlen] at hd'
    obtain ⟨s, l', hs, hp, ht, hl, he⟩ := ih (i + 1) l1 hd'
    have hi : i < l1.length := by omega
    refine ⟨l1[i] :: s, l', ?_, hp.trans hp1, ?_, by simp [hl], ?_⟩
    · simp only [sampleFrom, hs1, List.getElem?_eq_getElem hi, hs]
    · rw [← ht1]
      have := congrArg (List.take i) ht
      rwa [List.take_take, List.take_take, min_eq_left (by omega)] at this
    · have hi' : i < l'.length := by rw [hp.length_eq]; exact hi
      have hget : l'[i] = l1[i] := by
        have e1 : (l'.take (i + 1))[i]? = (l1.take (i + 1))[i]? := by rw [ht]
        rw [List.getElem?_take_of_lt (by omega), List.getElem?_take_of_lt (by omega),
          List.getElem?_eq_getElem hi, List.getElem?_eq_getElem hi'] at e1
        exact Option.some.inj e1
      rw [List.drop_eq_getElem_cons hi', List.length_cons, List.take_succ_cons, ← he, hget]

theorem sampleFrom_unique (t : List Nat) : ∀ (i : Nat) (l : List Nat), l.Nodup → t.Nodup →
    (∀ x ∈ t, x ∈ l.drop i) →
    ∃! d, (d.length = t.length ∧ DrawsFrom i l.length d) ∧ ∃ l', sampleFrom i d l = .ok (t, l') := by
  induction t with
  | nil =>
    intro i l _ _ _
    refine ⟨[], ⟨⟨rfl, fun k r h => by simp at h⟩, l, rfl⟩, ?_⟩
    rintro d ⟨⟨h, _⟩, _⟩
    exact List.length_eq_zero_iff.1 h
  | cons x t ih =>
    intro i l hl ht hsub
    have hx := hsub x List.mem_cons_self
    obtain ⟨k, hk, hkx⟩ := List.getElem_of_mem hx
    rw [List.length_drop] at hk
    rw [List.getElem_drop] at hkx
    have hr : i + k < l.length := by omega
    obtain ⟨l1, hs1, hp1, ht1, hx1⟩ := swapAt_spec (Nat.le_add_right i k) hr
    rw [List.getElem?_eq_getElem hr, hkx] at hx1
    have hlen : l1.length = l.length := hp1.length_eq
    have hi : i < l1.length := by omega
    have hget : l1[i] = x := by
      rw [List.getElem?_eq_getElem hi] at hx1
      exact Option.some.inj hx1
    obtain ⟨hxt, ht'⟩ := List.nodup_cons.1 ht
    have hsub' : ∀ y ∈ t, y ∈ l1.drop (i + 1) := by
      intro y hy
      have h1 := (drop_perm_of_take hp1 ht1).mem_iff.2 (hsub y (List.mem_cons_of_mem _ hy))
      rw [List.drop_eq_getElem_cons hi, hget] at h1
      rcases List.mem_cons.1 h1 with h | h
      · exact absurd (h ▸ hy) hxt
      · exact h
    obtain ⟨d, ⟨⟨hdl, hdr⟩, l', hd⟩, huniq⟩ := ih (i + 1) l1 (hp1.nodup_iff.2 hl) ht' hsub'
    rw [hlen] at hdr
    refine ⟨(i + k) :: d, ⟨⟨by simp [hdl], drawsFrom_cons ⟨by omega, hr⟩ hdr⟩, l', ?_⟩, ?_⟩
    · simp only [sampleFrom, hs1, List.getElem?_eq_getElem hi, hd, hget]
    · rintro d' ⟨⟨hd'l, hd'r⟩, l'', hd'⟩
      cases d' with
      | nil => simp at hd'l
      | cons r d' =>
        obtain ⟨⟨g1, g2⟩, g3⟩ := hd'r.cons
        obtain ⟨l2, hs2, hp2, ht2, hx2⟩ := swapAt_spec g1 g2
        have hi2 : i < l2.length := by rw [hp2.length_eq]; omega
        simp only [sampleFrom, hs2, List.getElem?_eq_getElem hi2] at hd'
        split at hd'
        · cases hd'
        · cases hd'
        · next xs ind hrec =>
          simp only [Outcome.ok.injEq, Prod.mk.injEq, List.cons.injEq] at hd'
          obtain ⟨⟨e1, e2⟩, e3⟩ := hd'
          rw [List.getElem?_eq_getElem hi2, List.getElem?_eq_getElem g2] at hx2
          have e4 : l[r] = l[i + k] := by rw [hkx, ← e1, Option.some.inj hx2]
          have hrk : r = i + k := (List.Nodup.getElem_inj_iff hl).1 e4
          subst hrk
          rw [hs1] at hs2
          cases hs2
          rw [huniq d' ⟨⟨by simpa using hd'l, by rw [hlen]; exact g3⟩, ind, by rw [hrec, e2]⟩]

theorem drawsFrom_of {m n : Nat} {d : List Nat} (h : Spec.DrawsInRange m n d) : DrawsFrom 0 n d :=
  fun k r hk => by have := h.2 k r hk; omega

theorem minimal_of_perm {m n : Nat} {l : List Nat} (hp : l.Perm (List.range n)) (hm : m ≤ n) :
    Spec.MinimalSample m n (l.take m) := by
  have hl : l.length = n := by rw [hp.length_eq, List.length_range]
  refine ⟨by rw [List.length_take, hl, min_eq_left hm],
    (hp.nodup_iff.2 List.nodup_range).sublist (List.take_sublist _ _), fun x hx => ?_⟩
  exact List.mem_range.1 (hp.mem_iff.1 (List.mem_of_mem_take hx))

theorem samples_spec {m n : Nat} (hm : m ≤ n) (ds : List (List Nat)) : ∀ (l : List Nat),
    l.Perm (List.range n) → (∀ d ∈ ds, Spec.DrawsInRange m n d) →
    ∃ ss, samples ds l = .ok ss ∧ ss.length = ds.length ∧ ∀ s ∈ ss, Spec.MinimalSample m n s := by
  induction ds with
  | nil => intro l _ _; exact ⟨[], rfl, rfl, by simp⟩
  | cons d ds ih =>
    intro l hl hd
    have hlen : l.length = n := by rw [hl.length_eq, List.length_range]
    have hd0 := hd d List.mem_cons_self
    obtain ⟨s, l', hs, hp, _, _, he⟩ := sampleFrom_spec d 0 l (by rw [hlen]; exact drawsFrom_of hd0)
    obtain ⟨ss, hss, hl2, hall⟩ := ih l' (hp.trans hl) (fun d' h => hd d' (List.mem_cons_of_mem _ h))
    refine ⟨s :: ss, ?_, by simp [hl2], ?_⟩
    · simp only [samples, hs, hss]
    · intro x hx
      rcases List.mem_cons.1 hx with h | h
      · subst h
        rw [he, List.drop_zero, hd0.1]
        exact minimal_of_perm (hp.trans hl) hm
      · exact hall x h

theorem samples_last {m n : Nat} (hm : m ≤ n) (t : List Nat) (ht : Spec.MinimalSample m n t)
    (ds : List (List Nat)) : ∀ (l : List Nat), l.Perm (List.range n) →
    (∀ d ∈ ds, Spec.DrawsInRange m n d) →
    ∃! d, Spec.DrawsInRange m n d ∧ ∃ ss, samples (ds ++ [d]) l = .ok (ss ++ [t]) := by
  induction ds with
  | nil =>
    intro l hl _
    have hlen : l.length = n := by rw [hl.length_eq, List.length_range]
    obtain ⟨d, ⟨⟨h1, h2⟩, l', h3⟩, h4⟩ := sampleFrom_unique t 0 l (hl.nodup_iff.2 List.nodup_range) ht.2.1
      (fun x hx => by
        rw [List.drop_zero]
        exact hl.mem_iff.2 (List.mem_range.2 (ht.2.2 x hx)))
    rw [hlen] at h2
    refine ⟨d, ⟨⟨h1.trans ht.1, fun i r h => by have := h2 i r h; omega⟩, [], ?_⟩, ?_⟩
    · simp only [List.nil_append, samples, h3]
    · rintro d' ⟨hd', ss, hss⟩
      apply h4
      refine ⟨⟨hd'.1.trans ht.1.symm, by rw [hlen]; exact drawsFrom_of hd'⟩, ?_⟩
      obtain ⟨s, l'', hs, _⟩ := sampleFrom_spec d' 0 l (by rw [hlen]; exact drawsFrom_of hd')
      simp only [List.nil_append, samples, hs, Outcome.ok.injEq] at hss
      have : ss = [] := by
        cases ss with
        | nil => rfl
        | cons a b => simp at hss
      subst this
      simp only [List.nil_append, List.cons.injEq, and_true] at hss
      exact ⟨l'', by rw [hs, hss]⟩
  | cons d0 ds ih =>
    intro l hl hds
    have hlen : l.length = n := by rw [hl.length_eq, List.length_range]
    have hd0 := hds d0 List.mem_cons_self
    have hds' : ∀ d ∈ ds, Spec.DrawsInRange m n d := fun d h => hds d (List.mem_cons_of_mem _ h)
    obtain ⟨s, l', hs, hp, _⟩ := sampleFrom_spec d0 0 l (by rw [hlen]; exact drawsFrom_of hd0)
    obtain ⟨d, ⟨h1, ss, h2⟩, h3⟩ := ih l' (hp.trans hl) hds'
    refine ⟨d, ⟨h1, s :: ss, ?_⟩, ?_⟩
    · simp only [List.cons_append, samples, hs, h2]
    · rintro d' ⟨hd', ss', hss'⟩
      apply h3
      refine ⟨hd', ?_⟩
      obtain ⟨ss2, e1, e2, _⟩ := samples_spec hm (ds ++ [d']) l' (hp.trans hl) (fun x hx => by
        rcases List.mem_append.1 hx with h | h
        · exact hds' x h
        · rw [List.mem_singleton.1 h]; exact hd')
      simp only [List.cons_append, samples, hs, e1, Outcome.ok.injEq] at hss'
      cases ss' with
      | nil =>
        simp only [List.nil_append, List.cons.injEq] at hss'
        rw [hss'.2] at e2
        simp at e2
      | cons a b =>
        simp only [List.cons_append, List.cons.injEq] at hss'
        exact ⟨b, by rw [e1, hss'.2]⟩

end RandomSampler

namespace ExhaustiveSampler

theorem samples_add (a b : Nat) : ∀ s : ExhaustiveSampler, samples (a + b) s =
    ((samples a s).1 ++ (samples b (samples a s).2).1, (samples b (samples a s).2).2) := by
  induction a with
  | zero => intro s; simp [samples]
  | succ a ih =>
    intro s
    rw [Nat.succ_add]
    simp only [samples, ih, List.cons_append]

/-- The rest of one row. -/
theorem samples_row (n : Nat) (k : Nat) : ∀ i j, j + k + 1 = n → i < j →
    samples (k + 1) ⟨i, j, n⟩ = ((List.range' j (k + 1)).map fun j => (i, j),
      ⟨if i + 1 ≥ n - 1 then 0 else i + 1, (if i + 1 ≥ n - 1 then 0 else i + 1) + 1, n⟩) := by
  induction k with
  | zero =>
    intro i j h hij
    simp only [samples, sample]
    rw [if_pos (by omega)]
    simp
  | succ k ih =>
    intro i j h hij
    rw [samples]
    simp only [sample]
    rw [if_neg (by omega), ih i (j + 1) (by omega) (by omega)]
    simp [List.range'_succ]

/-- The pairs of rows `i`, `i + 1`, ..., `n - 2`. -/
def rows (n : Nat) : Nat → Nat → List (Nat × Nat)
  | 0, _ => []
  | c + 1, i => (List.range' (i + 1) (n - 1 - i)).map (fun j => (i, j)) ++ rows n c (i + 1)

theorem samples_rows (n : Nat) (c : Nat) : ∀ i, i + c + 1 = n → 1 ≤ c →
    samples (rows n c i).length ⟨i, i + 1, n⟩ = (rows n c i, ⟨0, 1, n⟩) := by
  induction c with
  | zero => intro i _ h; omega
  | succ c ih =>
    intro i h _
    have hrow : n - 1 - i = c + 1 := by omega
    rw [rows, List.length_append, List.length_map, List.length_range', samples_add, hrow,
      samples_row n c i (i + 1) (by omega) (by omega)]
    by_cases hc : c = 0
    · subst hc
      have hi : i + 1 ≥ n - 1 := by omega
      simp only [rows, if_pos hi, List.length_nil, samples]
    · have hi : ¬ i + 1 ≥ n - 1 := by omega
      simp only [if_neg hi]
      rw [ih (i + 1) (by omega) (by omega)]

theorem mem_rows (n : Nat) (c : Nat) : ∀ i, i + c + 1 = n → ∀ p : Nat × Nat,
    p ∈ rows n c i ↔ i ≤ p.1 ∧ p.1 < p.2 ∧ p.2 < n := by
  induction c with
  | zero =>
    intro i h p
    simp only [rows, List.not_mem_nil, false_iff]
    omega
  | succ c ih =>
    intro i h p
    obtain ⟨a, b⟩ := p
    simp only [rows, List.mem_append, ih (i + 1) (by omega), List.mem_map, List.mem_range'_1,
      Prod.mk.injEq, exists_eq_right_right]
    omega

theorem nodup_rows (n : Nat) (c : Nat) : ∀ i, i + c + 1 = n → (rows n c i).Nodup := by
  induction c with
  | zero => intro i _; simp [rows]
  | succ c ih =>
    intro i h
    rw [rows, List.nodup_append']
    refine ⟨?_, ih (i + 1) (by omega), ?_⟩
    · exact (List.nodup_range' (step := 1) (by omega)).map (fun a b hab => (Prod.mk.inj hab).2)
    · intro p hp hq
      rw [mem_rows n c (i + 1) (by omega)] at hq
      obtain ⟨j, _, rfl⟩ := List.mem_map.1 hp
      simp at hq

theorem length_rows (n : Nat) (c : Nat) : ∀ i, i + c + 1 = n → 2 * (rows n c i).length = (c + 1) * c := by
  induction c with
  | zero => intro i _; simp [rows]
  | succ c ih =>
    intro i h
    rw [rows, List.length_append, List.length_map, List.length_range', Nat.mul_add, ih (i + 1) (by omega)]
    have : n - 1 - i = c + 1 := by omega
    rw [this]
    ring

theorem samples_cycles {s : ExhaustiveSampler} {L : Nat} {P : List (Nat × Nat)}
    (h : samples L s = (P, s)) (c : Nat) : samples (c * L) s = ((List.replicate c P).flatten, s) := by
  induction c with
  | zero => simp [samples]
  | succ c ih =>
    rw [Nat.succ_mul, Nat.add_comm, samples_add, h]
    simp only
    rw [ih, List.replicate_succ, List.flatten_cons]

end ExhaustiveSampler

namespace ProsacSampler

theorem grow_bounds (m n k : Nat) (hm : m ≤ n) : m ≤ (grow m n k).1 ∧ (grow m n k).1 ≤ n := by
  unfold grow
  generalize (List.range k).map (· + 1) = ts
  generalize hs : (m, initialTn m n, (1 : ℚ)) = s
  have h : m ≤ s.1 ∧ s.1 ≤ n := by rw [← hs]; exact ⟨le_refl m, hm⟩
  clear hs
  induction ts generalizing s with
  | nil => exact h
  | cons t ts ih =>
    rw [List.foldl_cons]
    apply ih
    unfold growStep
    split
    · simp only; omega
    · exact h

theorem reject_spec {used draws rest : List Nat} {r : Nat} (h : reject used draws = some (r, rest)) :
    r ∉ used ∧ r ∈ draws ∧ ∀ x ∈ rest, x ∈ draws := by
  induction draws with
  | nil => simp [reject] at h
  | cons a draws ih =>
    rw [reject] at h
    split at h
    · obtain ⟨h1, h2, h3⟩ := ih h
      exact ⟨h1, List.mem_cons_of_mem _ h2, fun x hx => List.mem_cons_of_mem _ (h3 x hx)⟩
    · next hn =>
      cases h
      exact ⟨hn, List.mem_cons_self, fun x hx => List.mem_cons_of_mem _ hx⟩

theorem drawUnique_spec (c : Nat) : ∀ (used draws : List Nat) (b : Nat) (out : List Nat),
    used.Nodup → (∀ x ∈ used, x < b) → (∀ x ∈ draws, x < b) → drawUnique c used draws = some out →
    out.length = used.length + c ∧ out.Nodup ∧ ∀ x ∈ out, x < b := by
  induction c with
  | zero =>
    intro used draws b out h1 h2 _ h
    cases h
    exact ⟨rfl, h1, h2⟩
  | succ c ih =>
    intro used draws b out h1 h2 h3 h
    rw [drawUnique] at h
    cases hr : reject used draws with
    | none => rw [hr] at h; cases h
    | some q =>
      obtain ⟨r, rest⟩ := q
      rw [hr] at h
      obtain ⟨g1, g2, g3⟩ := reject_spec hr
      obtain ⟨e1, e2, e3⟩ := ih (used ++ [r]) rest b out
        (by
          rw [List.nodup_append']
          refine ⟨h1, by simp, ?_⟩
          intro x hx hx'
          rw [List.mem_singleton.1 hx'] at hx
          exact g1 hx)
        (by
          intro x hx
          rcases List.mem_append.1 hx with hx | hx
          · exact h2 x hx
          · rw [List.mem_singleton.1 hx]; exact h3 r g2)
        (fun x hx => h3 x (g3 x hx)) h
      refine ⟨?_, e2, e3⟩
      rw [e1, List.length_append, List.length_singleton]
      omega

/-- Any list of different numbers is drawn if the generator happens to return it. -/
theorem drawUnique_exact (ds : List Nat) : ∀ used : List Nat, (used ++ ds).Nodup →
    drawUnique ds.length used ds = some (used ++ ds) := by
  induction ds with
  | nil => intro used _; simp [drawUnique]
  | cons d ds ih =>
    intro used h
    have hd : d ∉ used := by
      intro hd
      exact (List.nodup_append'.1 h).2.2 hd List.mem_cons_self
    rw [List.length_cons, drawUnique, reject, if_neg hd]
    simp only
    rw [ih (used ++ [d]) (by simpa using h)]
    simp

end ProsacSampler
end Theia
