import Mathlib.Algebra.Order.Field.Basic
import Mathlib.Algebra.Order.Ring.Defs
import Mathlib.Data.List.Forall2
import Mathlib.Data.List.Nodup
import Mathlib.Data.List.Perm.Subperm
import Mathlib.Data.Nat.Bitwise
import Mathlib.Tactic.FieldSimp
import Mathlib.Tactic.Linarith
import Mathlib.Tactic.Ring
import Verif.Spec.GuidedMatcher

/-!
# Lemmas about guided matching
-/

namespace Theia
namespace Guided

open Spec

theorem pack_eq {x1 y1 x2 y2 : Nat} (h1 : x1 < 65536) (h2 : y1 < 65536) (h3 : x2 < 65536) (h4 : y2 < 65536) :
    pack x1 y1 x2 y2 = x1 * 2 ^ 48 + y1 * 2 ^ 32 + x2 * 2 ^ 16 + y2 := by
  unfold pack
  simp only [Nat.shiftLeft_eq]
  rw [Nat.mod_eq_of_lt (show x1 * 2 ^ 48 < 2 ^ 64 by omega), Nat.mod_eq_of_lt (show y1 * 2 ^ 32 < 2 ^ 64 by omega),
    Nat.mod_eq_of_lt (show x2 * 2 ^ 16 < 2 ^ 64 by omega), Nat.mod_eq_of_lt (show y2 * 2 ^ 0 < 2 ^ 64 by omega),
    Nat.zero_or]
  have e1 : x1 * 2 ^ 48 ||| y1 * 2 ^ 32 = 2 ^ 32 * (x1 * 2 ^ 16 + y1) := by
    rw [Nat.mul_comm x1, ← Nat.two_pow_add_eq_or_of_lt (show y1 * 2 ^ 32 < 2 ^ 48 by omega)]
    omega
  rw [e1, ← Nat.two_pow_add_eq_or_of_lt (show x2 * 2 ^ 16 < 2 ^ 32 by omega)]
  have e2 : 2 ^ 32 * (x1 * 2 ^ 16 + y1) + x2 * 2 ^ 16 = 2 ^ 16 * ((x1 * 2 ^ 16 + y1) * 2 ^ 16 + x2) := by omega
  rw [e2, ← Nat.two_pow_add_eq_or_of_lt (show y2 * 2 ^ 0 < 2 ^ 16 by omega)]
  omega

theorem decode_eq (e : Nat) :
    decode e = ((e / 2 ^ 48 % 65536, e / 2 ^ 32 % 65536), (e / 2 ^ 16 % 65536, e % 65536)) := by
  have hs : ((2 ^ 64 - 1) >>> 48 : Nat) = 2 ^ 16 - 1 := by decide
  unfold decode
  simp only [hs]
  have hm : ∀ n : Nat, (2 ^ 16 - 1) &&& n = n % 2 ^ 16 := by
    intro n
    rw [Nat.land_comm, Nat.and_two_pow_sub_one_eq_mod]
  simp only [hm, Nat.shiftRight_eq_div_pow]
  have hmm : ∀ n : Nat, n % 2 ^ 16 % 65536 = n % 65536 := by intro n; omega
  simp only [hmm, pow_zero, Nat.div_one]

variable {K : Type} [Field K] [LinearOrder K] [FloorRing K]

theorem toU16_ok [IsStrictOrderedRing K] {x : K} (h : InRange x) : toU16 x = .ok ⌊x⌋.toNat ∧ ⌊x⌋.toNat < 65536 := by
  obtain ⟨h0, h1⟩ := h
  constructor
  · unfold toU16
    rw [if_pos ⟨by linarith, h1⟩]
  · have : ⌊x⌋ < 65536 := Int.floor_lt.2 (by exact_mod_cast h1)
    have := Int.floor_nonneg.2 h0
    omega

theorem encode_ok [IsStrictOrderedRing K] {p q : Pt K} (hp : PtInRange p) (hq : PtInRange q) :
    encode p q = .ok ((pixel p).1 * 2 ^ 48 + (pixel p).2 * 2 ^ 32 + (pixel q).1 * 2 ^ 16 + (pixel q).2) ∧
      (pixel p).1 < 65536 ∧ (pixel p).2 < 65536 ∧ (pixel q).1 < 65536 ∧ (pixel q).2 < 65536 := by
  obtain ⟨a1, a2⟩ := toU16_ok hp.1
  obtain ⟨b1, b2⟩ := toU16_ok hp.2
  obtain ⟨c1, c2⟩ := toU16_ok hq.1
  obtain ⟨d1, d2⟩ := toU16_ok hq.2
  refine ⟨?_, a2, b2, c2, d2⟩
  unfold encode
  rw [a1, b1, c1, d1]
  simp only
  rw [pack_eq a2 b2 c2 d2]
  rfl

theorem decode_encoded {a b c d : Nat} (ha : a < 65536) (hb : b < 65536) (hc : c < 65536) (hd : d < 65536) :
    decode (a * 2 ^ 48 + b * 2 ^ 32 + c * 2 ^ 16 + d) = ((a, b), (c, d)) := by
  rw [decode_eq]
  refine Prod.ext (Prod.ext ?_ ?_) (Prod.ext ?_ ?_) <;> simp only <;> omega

/-! ### Grouping -/

theorem mean_average [IsStrictOrderedRing K] (f : Nat → Pt K) (l : List Nat) (i : Nat) (hl : l ≠ []) :
    mean (l.length + 1) (average f l) (f i) = average f (l ++ [i]) := by
  have h1 : (l.length : K) ≠ 0 := by
    have := List.length_pos_of_ne_nil hl
    exact_mod_cast Nat.pos_iff_ne_zero.1 this
  have h2 : ((l.length : K) + 1) ≠ 0 := by
    have := Nat.cast_nonneg (α := K) l.length
    intro h
    linarith
  unfold mean average
  simp only [List.map_append, List.map_cons, List.map_nil, List.sum_append, List.sum_cons, List.sum_nil,
    List.length_append, List.length_cons, List.length_nil, Nat.cast_add, Nat.cast_one, add_zero, zero_add]
  refine Prod.ext ?_ ?_ <;> simp only <;> field_simp <;> ring

theorem mean_one (p q : Pt K) : mean (K := K) 1 p q = q := by
  unfold mean
  simp

omit [LinearOrder K] [FloorRing K] in
theorem average_one (f : Nat → Pt K) (i : Nat) : average f [i] = f i := by
  unfold average
  simp

/-- The group of one feature. -/
def fresh1 (e i : Nat) : LineGroup K :=
  LineGroup.add ⟨toPt (decode e).1, toPt (decode e).2, []⟩ (toPt (decode e).1) (toPt (decode e).2) i

theorem good_fresh1 (maxDist : K) (ends : Nat → Pt K × Pt K) (e i : Nat)
    (h : ends i = (toPt (decode e).1, toPt (decode e).2)) : GoodGroup maxDist ends (fresh1 e i) := by
  refine ⟨by simp [fresh1, LineGroup.add], ?_, ?_, ?_⟩
  · simp only [fresh1, LineGroup.add, List.length_nil, Nat.zero_add, mean_one, List.nil_append, average_one, h]
  · simp only [fresh1, LineGroup.add, List.length_nil, Nat.zero_add, mean_one, List.nil_append, average_one, h]
  · intro a j b hab hne
    simp only [fresh1, LineGroup.add, List.nil_append] at hab
    cases a with
    | nil => exact absurd rfl hne
    | cons x a => simp at hab

theorem good_add [IsStrictOrderedRing K] (maxDist : K) (ends : Nat → Pt K × Pt K) (g : LineGroup K) (e i : Nat)
    (hg : GoodGroup maxDist ends g) (h : ends i = (toPt (decode e).1, toPt (decode e).2))
    (hd : ¬ maxDist * maxDist < sqDist g.p (toPt (decode e).1)) :
    GoodGroup maxDist ends (g.add (toPt (decode e).1) (toPt (decode e).2) i) := by
  obtain ⟨g1, g2, g3, g4⟩ := hg
  refine ⟨by simp [LineGroup.add], ?_, ?_, ?_⟩
  · have := mean_average (fun i => (ends i).1) g.features i g1
    simp only [h] at this
    simp only [LineGroup.add]
    rw [← this, g2]
  · have := mean_average (fun i => (ends i).2) g.features i g1
    simp only [h] at this
    simp only [LineGroup.add]
    rw [← this, g3]
  · intro a j b hab hne
    simp only [LineGroup.add] at hab
    rcases List.eq_nil_or_concat b with rfl | ⟨b', x, rfl⟩
    · have hab' := List.append_inj' hab rfl
      obtain ⟨rfl, hx⟩ := hab'
      simp only [List.cons.injEq, and_true] at hx
      subst hx
      rw [← g2, h]
      exact not_lt.1 hd
    · rw [List.concat_eq_append, ← List.cons_append, ← List.append_assoc] at hab
      obtain ⟨h5, _⟩ := List.append_inj' hab rfl
      exact g4 a j b' h5 hne

theorem groupLoop_ok [IsStrictOrderedRing K] (maxDist : K) (ends : Nat → Pt K × Pt K) (es : List (Nat × Nat)) :
    (∀ e ∈ es, ends e.2 = (toPt (decode e.1).1, toPt (decode e.1).2)) →
    ((groupLoop (maxDist * maxDist) es none).flatMap (·.features) = es.map (·.2) ∧
      Clustered maxDist ends (groupLoop (maxDist * maxDist) es none)) ∧
    ∀ g : LineGroup K, GoodGroup maxDist ends g →
      (groupLoop (maxDist * maxDist) es (some g)).flatMap (·.features) = g.features ++ es.map (·.2) ∧
      Clustered maxDist ends (groupLoop (maxDist * maxDist) es (some g)) ∧
      ∃ g' gs, groupLoop (maxDist * maxDist) es (some g) = g' :: gs ∧ g'.features.head? = g.features.head? := by
  induction es with
  | nil =>
    intro _
    refine ⟨⟨rfl, trivial⟩, ?_⟩
    intro g hg
    refine ⟨by simp [groupLoop], ?_, g, [], rfl, rfl⟩
    simpa [groupLoop, Clustered] using hg
  | cons ei es ih =>
    obtain ⟨e, i⟩ := ei
    intro h
    have he := h (e, i) List.mem_cons_self
    simp only at he
    obtain ⟨ih1, ih2⟩ := ih (fun x hx => h x (List.mem_cons_of_mem _ hx))
    obtain ⟨f1, f2, f3⟩ := ih2 (fresh1 e i) (good_fresh1 maxDist ends e i he)
    have hff : (fresh1 (K := K) e i).features = [i] := rfl
    constructor
    · have hr : groupLoop (K := K) (maxDist * maxDist) ((e, i) :: es) none =
          groupLoop (maxDist * maxDist) es (some (fresh1 e i)) := rfl
      rw [hr]
      refine ⟨?_, f2⟩
      rw [f1, hff]
      rfl
    · intro g hg
      by_cases hc : maxDist * maxDist < sqDist g.p (toPt (decode e).1)
      · have hr : groupLoop (maxDist * maxDist) ((e, i) :: es) (some g) =
            g :: groupLoop (maxDist * maxDist) es (some (fresh1 e i)) := by
          show (if _ then _ else _) = _
          rw [if_pos hc]
          rfl
        rw [hr]
        refine ⟨?_, ?_, g, _, rfl, rfl⟩
        · rw [List.flatMap_cons, f1, hff]
          rfl
        · obtain ⟨g', gs, e1, e2⟩ := f3
          rw [e1] at f2 ⊢
          refine ⟨hg, ?_, f2⟩
          intro j hj
          rw [e2, hff] at hj
          simp only [List.head?_cons, Option.some.injEq] at hj
          subst hj
          rw [he]
          exact hc
      · have hr : groupLoop (maxDist * maxDist) ((e, i) :: es) (some g) =
            groupLoop (maxDist * maxDist) es (some (g.add (toPt (decode e).1) (toPt (decode e).2) i)) := by
          show (if _ then _ else _) = _
          rw [if_neg hc]
        rw [hr]
        obtain ⟨k1, k2, g', gs, k3, k4⟩ := ih2 _ (good_add maxDist ends g e i hg he hc)
        refine ⟨?_, k2, g', gs, k3, ?_⟩
        · rw [k1]
          simp [LineGroup.add]
        · rw [k4]
          simp only [LineGroup.add]
          obtain ⟨hne, _⟩ := hg
          cases hgf : g.features with
          | nil => exact absurd hgf hne
          | cons x xs => simp

/-! ### Intersections -/

theorem mem_ite_singleton {α : Type} {c : Prop} [Decidable c] {x y : α} : x ∈ (if c then [y] else []) ↔ c ∧ x = y := by
  split <;> simp_all

omit [FloorRing K] in
theorem mem_intersections [IsStrictOrderedRing K] (b : Box K) (l : Line K) (p : Pt K) (hb : b.left ≤ b.right) (hb' : b.top ≤ b.bottom) :
    p ∈ intersections b l ↔ OnLine l p ∧ InBox b p ∧
      ((l.2.1 ≠ 0 ∧ (p.1 = b.left ∨ p.1 = b.right)) ∨ (l.1 ≠ 0 ∧ (p.2 = b.top ∨ p.2 = b.bottom))) := by
  obtain ⟨l1, l2, l3⟩ := l
  obtain ⟨x, y⟩ := p
  have hy : ∀ (u t : K), l2 ≠ 0 → (t = -(l3 + l1 * u) / l2 ↔ l1 * u + l2 * t + l3 = 0) := by
    intro u t h
    rw [eq_div_iff h]
    constructor
    · intro h'; linarith
    · intro h'; linarith
  have hx : ∀ (u t : K), l1 ≠ 0 → (t = -(l3 + l2 * u) / l1 ↔ l1 * t + l2 * u + l3 = 0) := by
    intro u t h
    rw [eq_div_iff h]
    constructor
    · intro h'; linarith
    · intro h'; linarith
  unfold intersections OnLine InBox
  simp only [List.mem_append, mem_ite_singleton, Prod.mk.injEq]
  constructor
  · rintro (((⟨⟨h1, h2, h3⟩, rfl, rfl⟩ | ⟨⟨h1, h2, h3⟩, rfl, rfl⟩) | ⟨⟨h1, h2, h3⟩, rfl, rfl⟩) |
      ⟨⟨h1, h2, h3⟩, rfl, rfl⟩)
    · exact ⟨(hy _ _ h1).1 rfl, ⟨le_refl _, hb, h2, h3⟩, Or.inl ⟨h1, Or.inl rfl⟩⟩
    · exact ⟨(hx _ _ h1).1 rfl, ⟨h2, h3, le_refl _, hb'⟩, Or.inr ⟨h1, Or.inl rfl⟩⟩
    · exact ⟨(hy _ _ h1).1 rfl, ⟨hb, le_refl _, h2, h3⟩, Or.inl ⟨h1, Or.inr rfl⟩⟩
    · exact ⟨(hx _ _ h1).1 rfl, ⟨h2, h3, hb', le_refl _⟩, Or.inr ⟨h1, Or.inr rfl⟩⟩
  · rintro ⟨hl, ⟨h1, h2, h3, h4⟩, ⟨hne, rfl | rfl⟩ | ⟨hne, rfl | rfl⟩⟩
    · have := (hy _ _ hne).2 hl
      exact Or.inl (Or.inl (Or.inl ⟨⟨hne, this ▸ h3, this ▸ h4⟩, rfl, this⟩))
    · have := (hy _ _ hne).2 hl
      exact Or.inl (Or.inr ⟨⟨hne, this ▸ h3, this ▸ h4⟩, rfl, this⟩)
    · have := (hx _ _ hne).2 hl
      exact Or.inl (Or.inl (Or.inr ⟨⟨hne, this ▸ h1, this ▸ h2⟩, this, rfl⟩))
    · have := (hx _ _ hne).2 hl
      exact Or.inr ⟨⟨hne, this ▸ h1, this ▸ h2⟩, this, rfl⟩

/-- The box fits 16 bits. -/
def BoxInRange (b : Box K) : Prop :=
  b.left ≤ b.right ∧ b.top ≤ b.bottom ∧ 0 ≤ b.left ∧ 0 ≤ b.top ∧ b.right < 65536 ∧ b.bottom < 65536

omit [FloorRing K] in
theorem ptInRange_of_mem [IsStrictOrderedRing K] {b : Box K} {l : Line K} {p : Pt K} (hb : BoxInRange b) (h : p ∈ intersections b l) :
    PtInRange p := by
  obtain ⟨b1, b2, b3, b4, b5, b6⟩ := hb
  obtain ⟨_, ⟨h1, h2, h3, h4⟩, _⟩ := (mem_intersections b l p b1 b2).1 h
  exact ⟨⟨b3.trans h1, h2.trans_lt b5⟩, b4.trans h3, h4.trans_lt b6⟩

/-- The code of two points. -/
def code (u v : Pt K) : Nat := (pixel u).1 * 2 ^ 48 + (pixel u).2 * 2 ^ 32 + (pixel v).1 * 2 ^ 16 + (pixel v).2

theorem endpointLoop_ok [IsStrictOrderedRing K] (line : Pt K → Line K) (b : Box K) (hb : BoxInRange b) (matched1 : List Nat)
    (ps : List (Pt K)) : ∀ i0 : Nat, ∃ es, endpointLoop line b matched1 i0 ps = .ok es ∧
      (es.map (·.2)).Pairwise (· < ·) ∧
      ∀ e i, (e, i) ∈ es ↔ ∃ (k : Nat) (p : Pt K) (u v : Pt K), i = i0 + k ∧ ps[k]? = some p ∧ i ∉ matched1 ∧
        intersections b (line p) = [u, v] ∧ e = code u v := by
  induction ps with
  | nil => intro i0; exact ⟨[], rfl, by simp, by simp⟩
  | cons p ps ih =>
    intro i0
    obtain ⟨es, h1, h2, h3⟩ := ih (i0 + 1)
    have hge : ∀ e i, (e, i) ∈ es → i0 < i := by
      intro e i h
      obtain ⟨k, _, _, _, rfl, _⟩ := (h3 e i).1 h
      omega
    have hskip : (∀ u v, i0 ∉ matched1 → intersections b (line p) ≠ [u, v]) → ∀ e i, (e, i) ∈ es ↔
        ∃ (k : Nat) (p' : Pt K) (u v : Pt K), i = i0 + k ∧ (p :: ps)[k]? = some p' ∧ i ∉ matched1 ∧
        intersections b (line p') = [u, v] ∧ e = code u v := by
      intro hno e i
      rw [h3]
      constructor
      · rintro ⟨k, p', u, v, rfl, h4, h5⟩
        exact ⟨k + 1, p', u, v, by omega, by simpa using h4, h5⟩
      · rintro ⟨k, p', u, v, rfl, h4, h5, h6, h7⟩
        cases k with
        | zero =>
          simp only [List.getElem?_cons_zero, Option.some.injEq] at h4
          subst h4
          exact absurd h6 (hno u v h5)
        | succ k => exact ⟨k, p', u, v, by omega, by simpa using h4, h5, h6, h7⟩
    unfold endpointLoop
    rw [h1]
    simp only
    split
    · rename_i hm
      exact ⟨es, rfl, h2, hskip (fun u v h => absurd hm h)⟩
    · rename_i hm
      split
      · rename_i u v huv
        have hu := ptInRange_of_mem hb (show u ∈ intersections b (line p) by simp [huv])
        have hv := ptInRange_of_mem hb (show v ∈ intersections b (line p) by simp [huv])
        rw [(encode_ok hu hv).1]
        refine ⟨(code u v, i0) :: es, rfl, ?_, ?_⟩
        · rw [List.map_cons, List.pairwise_cons]
          refine ⟨?_, h2⟩
          intro j hj
          rw [List.mem_map] at hj
          obtain ⟨⟨e, j'⟩, hj', rfl⟩ := hj
          exact hge e j' hj'
        · intro e i
          rw [List.mem_cons, h3]
          constructor
          · rintro (h | ⟨k, p', u', v', rfl, h4, h5⟩)
            · simp only [Prod.mk.injEq] at h
              obtain ⟨rfl, rfl⟩ := h
              exact ⟨0, p, u, v, rfl, rfl, hm, huv, rfl⟩
            · exact ⟨k + 1, p', u', v', by omega, by simpa using h4, h5⟩
          · rintro ⟨k, p', u', v', rfl, h4, h5, h6, h7⟩
            cases k with
            | zero =>
              simp only [List.getElem?_cons_zero, Option.some.injEq] at h4
              subst h4
              rw [huv] at h6
              simp only [List.cons.injEq, and_true] at h6
              obtain ⟨rfl, rfl⟩ := h6
              exact Or.inl (by rw [h7]; rfl)
            | succ k => exact Or.inr ⟨k, p', u', v', by omega, by simpa using h4, h5, h6, h7⟩
      · rename_i hno
        exact ⟨es, rfl, h2, hskip (fun u v _ h => hno u v h)⟩

theorem decode_code [IsStrictOrderedRing K] {u v : Pt K} (hu : PtInRange u) (hv : PtInRange v) :
    decode (code u v) = (pixel u, pixel v) := by
  obtain ⟨_, a, b, c, d⟩ := encode_ok hu hv
  exact decode_encoded a b c d

/-! ### Candidates -/

theorem mem_foldl_insertSet (xs : List Nat) : ∀ (s : List Nat) (x : Nat), x ∈ xs.foldl insertSet s ↔ x ∈ s ∨ x ∈ xs := by
  induction xs with
  | nil => simp
  | cons a xs ih =>
    intro s x
    rw [List.foldl_cons, ih]
    unfold insertSet
    split
    · rename_i h
      simp only [List.mem_cons]
      constructor
      · rintro (h' | h')
        · exact Or.inl h'
        · exact Or.inr (Or.inr h')
      · rintro (h' | rfl | h')
        · exact Or.inl h'
        · exact Or.inl h
        · exact Or.inr h'
    · simp [or_assoc]

theorem nodup_foldl_insertSet (xs : List Nat) : ∀ s : List Nat, s.Nodup → (xs.foldl insertSet s).Nodup := by
  induction xs with
  | nil => intro s h; exact h
  | cons a xs ih =>
    intro s h
    rw [List.foldl_cons]
    apply ih
    unfold insertSet
    split
    · exact h
    · rename_i hn
      rw [List.nodup_append]
      refine ⟨h, by simp, ?_⟩
      intro x hx y hy
      rw [List.mem_singleton] at hy
      subst hy
      rintro rfl
      exact hn hx

theorem cell_lt {size : K} {off : Pt K} {matched2 : List Nat} {kps2 : List (Pt K)} {c : Int × Int} {x : Nat}
    (h : x ∈ cell size off matched2 kps2 c) : x < kps2.length ∧ x ∉ matched2 := by
  unfold cell at h
  rw [List.mem_filter, List.mem_range] at h
  obtain ⟨h1, h2⟩ := h
  refine ⟨h1, ?_⟩
  rw [List.getElem?_eq_getElem h1] at h2
  simp only [Bool.and_eq_true, decide_eq_true_eq] at h2
  exact h2.1

theorem walk_spec (size : K) (matched2 : List Nat) (kps2 : List (Pt K)) (delta : Pt K) (k : Nat) :
    ∀ (pt : Pt K) (s : List Nat), s.Nodup → (∀ x ∈ s, x < kps2.length ∧ x ∉ matched2) →
      (walk size matched2 kps2 delta k pt s).Nodup ∧
      ∀ x ∈ walk size matched2 kps2 delta k pt s, x < kps2.length ∧ x ∉ matched2 := by
  induction k with
  | zero => intro pt s h1 h2; exact ⟨h1, h2⟩
  | succ k ih =>
    intro pt s h1 h2
    simp only [walk]
    apply ih
    · exact nodup_foldl_insertSet _ _ h1
    · intro x hx
      rw [mem_foldl_insertSet] at hx
      rcases hx with h | h
      · exact h2 x h
      · exact cell_lt h

theorem near_spec (steps : Pt K → Pt K → Nat) (size : K) (matched2 : List Nat) (kps2 : List (Pt K)) (draws : List Nat)
    (g : LineGroup K) : (near steps size matched2 kps2 draws g).Nodup ∧
      ∀ x ∈ near steps size matched2 kps2 draws g, (x < kps2.length ∧ x ∉ matched2) ∨ x ∈ draws := by
  have := walk_spec size matched2 kps2 ((g.p.1 - g.q.1) / (steps g.p g.q : K), (g.p.2 - g.q.2) / (steps g.p g.q : K))
    (steps g.p g.q) g.q [] List.nodup_nil (by simp)
  unfold near addRandom
  simp only
  refine ⟨nodup_foldl_insertSet _ _ this.1, ?_⟩
  intro x hx
  rw [mem_foldl_insertSet] at hx
  rcases hx with h | h
  · exact Or.inl (this.2 x h)
  · exact Or.inr (List.mem_of_mem_take h)

theorem length_foldl_insertSet (xs : List Nat) : ∀ s : List Nat, s.length ≤ (xs.foldl insertSet s).length := by
  induction xs with
  | nil => intro s; exact le_refl _
  | cons a xs ih =>
    intro s
    rw [List.foldl_cons]
    refine le_trans ?_ (ih _)
    unfold insertSet
    split <;> simp

theorem near_two (steps : Pt K → Pt K → Nat) (size : K) (matched2 : List Nat) (kps2 : List (Pt K)) (a b : Nat)
    (draws : List Nat) (g : LineGroup K) (hab : a ≠ b) :
    2 ≤ (near steps size matched2 kps2 (a :: b :: draws) g).length := by
  have hnd := (near_spec steps size matched2 kps2 (a :: b :: draws) g).1
  unfold near addRandom at hnd ⊢
  simp only at hnd ⊢
  generalize walk size matched2 kps2 ((g.p.1 - g.q.1) / (steps g.p g.q : K), (g.p.2 - g.q.2) / (steps g.p g.q : K))
    (steps g.p g.q) g.q [] = s at *
  by_cases hs : 2 ≤ s.length
  · exact hs.trans (length_foldl_insertSet _ _)
  · have h2 : 50 - s.length = (48 - s.length) + 1 + 1 := by omega
    rw [h2, List.take_succ_cons, List.take_succ_cons] at hnd ⊢
    have hsub : [a, b].Subperm ((a :: b :: draws.take (48 - s.length)).foldl insertSet s) := by
      apply List.subperm_of_subset (by simp [hab])
      intro x hx
      rw [mem_foldl_insertSet]
      right
      simp only [List.mem_cons, List.not_mem_nil, or_false] at hx
      rcases hx with rfl | rfl <;> simp
    simpa using hsub.length_le

/-! ### Reading the results -/

omit [FloorRing K] in
theorem readRow_ok (ratio : K) (dist : Nat → Nat → K) (cands : List Nat) (q : Nat) (row : List (K × Nat))
    (h : ∃ (i j : Nat) (c d : Nat), i ≠ j ∧ cands[i]? = some c ∧ cands[j]? = some d ∧
      row = [(dist q c, i), (dist q d, j)] ∧ dist q c ≤ dist q d ∧
      ∀ (k : Nat) e, cands[k]? = some e → k ≠ i → dist q d ≤ dist q e) :
    ∃ m, readRow ratio cands q row = .ok m ∧ ∀ r, m = some r → ∃ c ∈ cands, r = ⟨q, c, dist q c⟩ ∧
      (∀ e ∈ cands, dist q c ≤ dist q e) ∧ ∃ d ∈ cands, dist q c < dist q d * (ratio * ratio) ∧
        ∀ e ∈ cands, e ≠ c → dist q d ≤ dist q e := by
  obtain ⟨i, j, c, d, hij, hc, hd, rfl, hle, hall⟩ := h
  have hcm : c ∈ cands := List.mem_iff_getElem?.2 ⟨i, hc⟩
  have hdm : d ∈ cands := List.mem_iff_getElem?.2 ⟨j, hd⟩
  have hmin : ∀ e ∈ cands, dist q c ≤ dist q e := by
    intro e he
    obtain ⟨k, hk⟩ := List.mem_iff_getElem?.1 he
    by_cases hki : k = i
    · subst hki
      rw [hc] at hk
      cases hk
      exact le_refl _
    · exact hle.trans (hall k e hk hki)
  unfold readRow
  simp only [hc, hd]
  split
  · rename_i hlt
    refine ⟨_, rfl, ?_⟩
    intro r hr
    simp only [Option.some.injEq] at hr
    subst hr
    refine ⟨c, hcm, rfl, hmin, d, hdm, hlt, ?_⟩
    intro e he hne
    obtain ⟨k, hk⟩ := List.mem_iff_getElem?.1 he
    refine hall k e hk ?_
    rintro rfl
    rw [hc] at hk
    cases hk
    exact hne rfl
  · exact ⟨none, rfl, by simp⟩

/-- What is known of an added match. -/
def Added (ratio : K) (dist : Nat → Nat → K) (cands : List Nat) (fs : List Nat) (r : Matcher.FMatch K) : Prop :=
  ∃ q ∈ fs, ∃ c ∈ cands, r = ⟨q, c, dist q c⟩ ∧
      (∀ e ∈ cands, dist q c ≤ dist q e) ∧ ∃ d ∈ cands, dist q c < dist q d * (ratio * ratio) ∧
        ∀ e ∈ cands, e ≠ c → dist q d ≤ dist q e

omit [FloorRing K] in
theorem readRows_ok (ratio : K) (dist : Nat → Nat → K) (cands : List Nat) (fs : List Nat)
    (rows : List (List (K × Nat)))
    (h : List.Forall₂ (fun q row => ∃ (i j : Nat) (c d : Nat), i ≠ j ∧ cands[i]? = some c ∧
      cands[j]? = some d ∧ row = [(dist q c, i), (dist q d, j)] ∧ dist q c ≤ dist q d ∧
      ∀ (k : Nat) e, cands[k]? = some e → k ≠ i → dist q d ≤ dist q e) fs rows) :
    ∃ ms, readRows ratio cands fs rows = .ok ms ∧
      (ms.map (fun m => m.feature1)).Sublist (fs.map (fun f : Nat => (f : Int))) ∧
      ∀ r ∈ ms, Added ratio dist cands fs r := by
  induction h with
  | nil => exact ⟨[], rfl, by simp, by simp⟩
  | @cons q row fs rows hq _ ih =>
    obtain ⟨m, h1, h2⟩ := readRow_ok ratio dist cands q row hq
    obtain ⟨ms, h3, h4, h5⟩ := ih
    refine ⟨m.toList ++ ms, ?_, ?_, ?_⟩
    · unfold readRows
      rw [h1]
      simp only
      rw [h3]
    · cases m with
      | none =>
        simp only [Option.toList_none, List.nil_append]
        exact h4.cons _
      | some r =>
        obtain ⟨c, _, rfl, _⟩ := h2 r rfl
        simp only [Option.toList_some, List.singleton_append, List.map_cons]
        exact h4.cons_cons _
    · intro r hr
      rw [List.mem_append, Option.mem_toList] at hr
      rcases hr with hr | hr
      · obtain ⟨c, hc, rest⟩ := h2 r hr
        exact ⟨q, List.mem_cons_self, c, hc, rest⟩
      · obtain ⟨q', hq', rest⟩ := h5 r hr
        exact ⟨q', List.mem_cons_of_mem _ hq', rest⟩

theorem matchGroups_ok (env : Env K) (maxDist ratio : K) (dist : Nat → Nat → K) (hknn : IsKnn dist env.knn)
    (matched2 : List Nat) (kps2 : List (Pt K)) (gs : List (LineGroup K)) : ∀ k : Nat,
    (∀ (j : Nat) g, gs[j]? = some g → 2 ≤ (near env.steps maxDist matched2 kps2 (env.draws (k + j)) g).length) →
    ∃ ms, matchGroups env maxDist ratio matched2 kps2 k gs = .ok ms ∧
      (ms.map (fun m => m.feature1)).Sublist ((gs.flatMap (fun g => g.features)).map (fun f : Nat => (f : Int))) ∧
      ∀ r ∈ ms, ∃ (j : Nat) (g : LineGroup K), gs[j]? = some g ∧
        Added ratio dist (near env.steps maxDist matched2 kps2 (env.draws (k + j)) g) g.features r := by
  induction gs with
  | nil => intro k _; exact ⟨[], rfl, by simp, by simp⟩
  | cons g gs ih =>
    intro k h
    obtain ⟨ms1, a1, a2, a3⟩ := readRows_ok ratio dist (near env.steps maxDist matched2 kps2 (env.draws k) g) g.features _
      (hknn g.features _ (h 0 g rfl))
    obtain ⟨ms2, b1, b2, b3⟩ := ih (k + 1) (fun j g' hj => by
      have := h (j + 1) g' (by simpa using hj)
      rwa [show k + (j + 1) = k + 1 + j by omega] at this)
    refine ⟨ms1 ++ ms2, ?_, ?_, ?_⟩
    · unfold matchGroups
      simp only
      rw [a1]
      simp only
      rw [b1]
    · rw [List.map_append, List.flatMap_cons, List.map_append]
      exact a2.append b2
    · intro r hr
      rw [List.mem_append] at hr
      rcases hr with hr | hr
      · exact ⟨0, g, rfl, a3 r hr⟩
      · obtain ⟨j, g', e1, e2⟩ := b3 r hr
        refine ⟨j + 1, g', by simpa using e1, ?_⟩
        rwa [show k + (j + 1) = k + 1 + j by omega]

/-! ### The bounding box -/

omit [FloorRing K] in
theorem boundingBox_fold [IsStrictOrderedRing K] (ps : List (Pt K)) : ∀ b : Box K, b.left ≤ b.right → b.top ≤ b.bottom →
    ∃ b', ps.foldl (fun b q => (⟨min b.left q.1, min b.top q.2, max b.right q.1, max b.bottom q.2⟩ : Box K)) b = b' ∧
      b'.left ≤ b.left ∧ b'.top ≤ b.top ∧ b.right ≤ b'.right ∧ b.bottom ≤ b'.bottom ∧
      (∀ q ∈ ps, InBox b' q) ∧
      (b'.left = b.left ∨ ∃ q ∈ ps, b'.left = q.1) ∧ (b'.right = b.right ∨ ∃ q ∈ ps, b'.right = q.1) ∧
      (b'.top = b.top ∨ ∃ q ∈ ps, b'.top = q.2) ∧ (b'.bottom = b.bottom ∨ ∃ q ∈ ps, b'.bottom = q.2) := by
  induction ps with
  | nil =>
    intro b _ _
    exact ⟨b, rfl, le_refl _, le_refl _, le_refl _, le_refl _, by simp, Or.inl rfl, Or.inl rfl, Or.inl rfl, Or.inl rfl⟩
  | cons q ps ih =>
    intro b h1 h2
    obtain ⟨b', e, c1, c2, c3, c4, c5, c6, c7, c8, c9⟩ :=
      ih ⟨min b.left q.1, min b.top q.2, max b.right q.1, max b.bottom q.2⟩
        ((min_le_left _ _).trans (h1.trans (le_max_left _ _))) ((min_le_left _ _).trans (h2.trans (le_max_left _ _)))
    simp only at c1 c2 c3 c4 c6 c7 c8 c9
    refine ⟨b', by rw [List.foldl_cons]; exact e, c1.trans (min_le_left _ _), c2.trans (min_le_left _ _),
      (le_max_left _ _).trans c3, (le_max_left _ _).trans c4, ?_, ?_, ?_, ?_, ?_⟩
    · intro q' hq'
      rcases List.mem_cons.1 hq' with rfl | h
      · exact ⟨c1.trans (min_le_right _ _), (le_max_right _ _).trans c3, c2.trans (min_le_right _ _),
          (le_max_right _ _).trans c4⟩
      · exact c5 q' h
    · rcases c6 with h | ⟨p, hp, h⟩
      · rcases min_choice b.left q.1 with h' | h'
        · exact Or.inl (h.trans h')
        · exact Or.inr ⟨q, List.mem_cons_self, h.trans h'⟩
      · exact Or.inr ⟨p, List.mem_cons_of_mem _ hp, h⟩
    · rcases c7 with h | ⟨p, hp, h⟩
      · rcases max_choice b.right q.1 with h' | h'
        · exact Or.inl (h.trans h')
        · exact Or.inr ⟨q, List.mem_cons_self, h.trans h'⟩
      · exact Or.inr ⟨p, List.mem_cons_of_mem _ hp, h⟩
    · rcases c8 with h | ⟨p, hp, h⟩
      · rcases min_choice b.top q.2 with h' | h'
        · exact Or.inl (h.trans h')
        · exact Or.inr ⟨q, List.mem_cons_self, h.trans h'⟩
      · exact Or.inr ⟨p, List.mem_cons_of_mem _ hp, h⟩
    · rcases c9 with h | ⟨p, hp, h⟩
      · rcases max_choice b.bottom q.2 with h' | h'
        · exact Or.inl (h.trans h')
        · exact Or.inr ⟨q, List.mem_cons_self, h.trans h'⟩
      · exact Or.inr ⟨p, List.mem_cons_of_mem _ hp, h⟩

omit [FloorRing K] in
theorem boundingBox_ok [IsStrictOrderedRing K] (ps : List (Pt K)) (hne : ps ≠ []) (hr : ∀ p ∈ ps, PtInRange p) :
    ∃ b, boundingBox ps = .ok b ∧ BoxInRange b ∧ (∀ p ∈ ps, InBox b p) ∧
      (∃ p ∈ ps, p.1 = b.left) ∧ (∃ p ∈ ps, p.1 = b.right) ∧ (∃ p ∈ ps, p.2 = b.top) ∧ ∃ p ∈ ps, p.2 = b.bottom := by
  cases ps with
  | nil => exact absurd rfl hne
  | cons p ps =>
    obtain ⟨b, e, c1, c2, c3, c4, c5, c6, c7, c8, c9⟩ := boundingBox_fold ps ⟨p.1, p.2, p.1, p.2⟩ (le_refl _) (le_refl _)
    simp only at c1 c2 c3 c4 c6 c7 c8 c9
    have hpm : p ∈ p :: ps := List.mem_cons_self
    have w1 : ∃ q ∈ p :: ps, q.1 = b.left := by
      rcases c6 with h | ⟨q, hq, h⟩
      · exact ⟨p, hpm, h.symm⟩
      · exact ⟨q, List.mem_cons_of_mem _ hq, h.symm⟩
    have w2 : ∃ q ∈ p :: ps, q.1 = b.right := by
      rcases c7 with h | ⟨q, hq, h⟩
      · exact ⟨p, hpm, h.symm⟩
      · exact ⟨q, List.mem_cons_of_mem _ hq, h.symm⟩
    have w3 : ∃ q ∈ p :: ps, q.2 = b.top := by
      rcases c8 with h | ⟨q, hq, h⟩
      · exact ⟨p, hpm, h.symm⟩
      · exact ⟨q, List.mem_cons_of_mem _ hq, h.symm⟩
    have w4 : ∃ q ∈ p :: ps, q.2 = b.bottom := by
      rcases c9 with h | ⟨q, hq, h⟩
      · exact ⟨p, hpm, h.symm⟩
      · exact ⟨q, List.mem_cons_of_mem _ hq, h.symm⟩
    refine ⟨b, congrArg Outcome.ok e, ⟨c1.trans c3, c2.trans c4, ?_, ?_, ?_, ?_⟩, ?_, w1, w2, w3, w4⟩
    · obtain ⟨q, hq, h⟩ := w1
      rw [← h]; exact (hr q hq).1.1
    · obtain ⟨q, hq, h⟩ := w3
      rw [← h]; exact (hr q hq).2.1
    · obtain ⟨q, hq, h⟩ := w2
      rw [← h]; exact (hr q hq).1.2
    · obtain ⟨q, hq, h⟩ := w4
      rw [← h]; exact (hr q hq).2.2
    · intro q hq
      rcases List.mem_cons.1 hq with rfl | h
      · exact ⟨c1, c3, c2, c4⟩
      · exact c5 q h

omit [Field K] [LinearOrder K] [FloorRing K] in
theorem mem_unmatchedPts {matched2 : List Nat} {kps2 : List (Pt K)} {p : Pt K} :
    p ∈ unmatchedPts matched2 kps2 ↔ ∃ i : Nat, i ∉ matched2 ∧ kps2[i]? = some p := by
  unfold unmatchedPts
  rw [List.mem_filterMap]
  constructor
  · rintro ⟨i, _, h⟩
    split at h
    · simp at h
    · rename_i hm
      exact ⟨i, hm, h⟩
  · rintro ⟨i, h1, h2⟩
    refine ⟨i, List.mem_range.2 (List.getElem?_eq_some_iff.1 h2).1, ?_⟩
    rw [if_neg h1]
    exact h2

end Guided
end Theia
