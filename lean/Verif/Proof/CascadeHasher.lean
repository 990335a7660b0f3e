import Mathlib.Algebra.Order.Ring.Defs
import Mathlib.Algebra.Order.GroupWithZero.Basic
import Mathlib.Data.List.Nodup
import Mathlib.Data.List.Perm.Subperm
import Mathlib.Tactic.Linarith
import Verif.Spec.CascadeHasher
import Verif.Proof.FeatureMatcher

/-!
# Lemmas about cascade hashing
-/

namespace Theia
namespace Cascade

open Spec

variable {D K : Type}

theorem binary_lt (bit : Nat → Bool) : ∀ n, binary bit n < 2 ^ n
  | 0 => by simp [binary]
  | n + 1 => by
    have := binary_lt bit n
    simp only [binary]
    have h2 : 2 ^ (n + 1) = 2 * 2 ^ n := by rw [pow_succ]; omega
    rw [h2]
    split <;> omega

theorem binary_inj (b1 b2 : Nat → Bool) : ∀ n, binary b1 n = binary b2 n ↔ ∀ k < n, b1 k = b2 k
  | 0 => by simp [binary]
  | n + 1 => by
    have ih := binary_inj b1 b2 n
    constructor
    · intro h
      simp only [binary] at h
      have h1 : binary b1 n = binary b2 n := by
        revert h
        cases b1 n <;> cases b2 n <;> simp <;> omega
      have h2 : b1 n = b2 n := by
        revert h
        cases b1 n <;> cases b2 n <;> simp <;> omega
      intro k hk
      rcases Nat.lt_succ_iff_lt_or_eq.1 hk with h | h
      · exact ih.1 h1 k h
      · rw [h]; exact h2
    · intro h
      simp only [binary]
      rw [ih.2 (fun k hk => h k (by omega)), h n (by omega)]

theorem bucketId_eq (bit : Nat → Bool) : ∀ n, n ≤ 16 → bucketId bit n = binary bit n
  | 0, _ => rfl
  | n + 1, h => by
    simp only [bucketId, binary]
    rw [bucketId_eq bit n (by omega), Nat.shiftLeft_eq]
    have h1 := binary_lt bit (n + 1)
    simp only [binary] at h1
    have h2 : 2 ^ (n + 1) ≤ 2 ^ 16 := Nat.pow_le_pow_right (by omega) h
    rw [Nat.mod_eq_of_lt]
    · omega
    · have : (2 : Nat) ^ 16 = 65536 := by norm_num
      omega

/-- The id of one group. -/
def idOf (s : Signs D) (x : D) (g : Nat) : Nat := bucketId (s.secondary x g) numBucketBits

theorem idOf_lt (s : Signs D) (x : D) (g : Nat) : idOf s x g < numBucketsPerGroup := by
  unfold idOf
  rw [bucketId_eq _ _ (by decide)]
  exact binary_lt _ _

theorem idOf_eq_iff (s1 s2 : Signs D) (x y : D) (g : Nat) :
    idOf s1 x g = idOf s2 y g ↔ SameBucket s1 s2 x y g := by
  unfold idOf
  rw [bucketId_eq _ _ (by decide), bucketId_eq _ _ (by decide), binary_inj]
  rfl

theorem hashDesc_bucketIds (s : Signs D) (x : D) (g : Nat) (hg : g < 6) :
    (hashDesc s x).bucketIds[g]? = some (idOf s x g) := by
  unfold hashDesc
  simp only
  rw [List.getElem?_map, List.getElem?_range (show g < numBucketGroups from hg)]
  rfl

/-- The descriptors, from number `j` on, with id `b` in group `g`. -/
def sel (s : Signs D) (g b : Nat) : Nat → List D → List Nat
  | _, [] => []
  | j, x :: xs => if idOf s x g = b then j :: sel s g b (j + 1) xs else sel s g b (j + 1) xs

theorem mem_sel (s : Signs D) (g b : Nat) (xs : List D) : ∀ (j c : Nat),
    c ∈ sel s g b j xs ↔ ∃ (i : Nat) (x : D), c = j + i ∧ xs[i]? = some x ∧ idOf s x g = b := by
  induction xs with
  | nil => intro j c; simp [sel]
  | cons x xs ih =>
    intro j c
    have key : c ∈ sel s g b j (x :: xs) ↔ (c = j ∧ idOf s x g = b) ∨ c ∈ sel s g b (j + 1) xs := by
      simp only [sel]
      split
      · rename_i h; simp [h]
      · rename_i h; simp [h]
    rw [key, ih]
    constructor
    · rintro (⟨rfl, h⟩ | ⟨i, y, rfl, h1, h2⟩)
      · exact ⟨0, x, rfl, rfl, h⟩
      · exact ⟨i + 1, y, by omega, by simpa using h1, h2⟩
    · rintro ⟨i, y, rfl, h1, h2⟩
      cases i with
      | zero =>
        simp only [List.getElem?_cons_zero, Option.some.injEq] at h1
        subst h1
        exact Or.inl ⟨rfl, h2⟩
      | succ i => exact Or.inr ⟨i, y, by omega, by simpa using h1, h2⟩

theorem nodup_sel (s : Signs D) (g b : Nat) (xs : List D) : ∀ j, (sel s g b j xs).Nodup := by
  induction xs with
  | nil => intro j; simp [sel]
  | cons x xs ih =>
    intro j
    simp only [sel]
    split
    · refine List.nodup_cons.2 ⟨?_, ih _⟩
      rw [mem_sel]
      rintro ⟨i, y, h, _⟩
      omega
    · exact ih _

theorem fillGroup_ok (s : Signs D) (g : Nat) (hg : g < 6) (xs : List D) : ∀ (j : Nat) (bs : List (List Nat)),
    bs.length = numBucketsPerGroup →
    ∃ bs', fillGroup g j (xs.map (hashDesc s)) bs = .ok bs' ∧ bs'.length = numBucketsPerGroup ∧
      ∀ b : Nat, bs'[b]? = (bs[b]?).map (· ++ sel s g b j xs) := by
  induction xs with
  | nil =>
    intro j bs hl
    refine ⟨bs, rfl, hl, fun b => ?_⟩
    simp [sel]
  | cons x xs ih =>
    intro j bs hl
    have hlt := idOf_lt s x g
    rw [← hl] at hlt
    obtain ⟨bs', h1, h2, h3⟩ := ih (j + 1) (bs.set (idOf s x g) (bs[idOf s x g] ++ [j])) (by simpa using hl)
    refine ⟨bs', ?_, h2, ?_⟩
    · rw [List.map_cons]
      unfold fillGroup
      rw [hashDesc_bucketIds s x g hg]
      simp only
      unfold pushBucket
      rw [List.getElem?_eq_getElem hlt]
      exact h1
    · intro b
      rw [h3, List.getElem?_set]
      simp only [sel]
      by_cases hb : idOf s x g = b
      · subst hb
        rw [if_pos rfl, if_pos hlt, if_pos rfl, List.getElem?_eq_getElem hlt]
        simp
      · rw [if_neg hb, if_neg hb]

theorem fillGroups_ok (s : Signs D) (xs : List D) : ∀ (n g : Nat), g + n ≤ 6 →
    ∃ bss, fillGroups (xs.map (hashDesc s)) g n = .ok bss ∧ bss.length = n ∧
      ∀ k < n, ∃ bs, bss[k]? = some bs ∧ bs.length = numBucketsPerGroup ∧
        ∀ b < numBucketsPerGroup, bs[b]? = some (sel s (g + k) b 0 xs) := by
  intro n
  induction n with
  | zero => intro g _; exact ⟨[], rfl, rfl, by omega⟩
  | succ n ih =>
    intro g hg
    obtain ⟨bs, h1, h2, h3⟩ := fillGroup_ok s g (by omega) xs 0 (List.replicate numBucketsPerGroup []) (by simp)
    obtain ⟨bss, e1, e2, e3⟩ := ih (g + 1) (by omega)
    refine ⟨bs :: bss, ?_, by simp [e2], ?_⟩
    · unfold fillGroups
      rw [h1]
      simp only
      rw [e1]
    · intro k hk
      cases k with
      | zero =>
        refine ⟨bs, rfl, h2, fun b hb => ?_⟩
        rw [h3, List.getElem?_replicate, if_pos hb]
        simp
      | succ k =>
        obtain ⟨b', f1, f2, f3⟩ := e3 k (by omega)
        refine ⟨b', by simpa using f1, f2, ?_⟩
        intro b hb
        rw [f3 b hb]
        congr 2
        omega

/-- What `createHashed` returns. -/
structure Hashed (s : Signs D) (xs : List D) (img : HashedImage) : Prop where
  descs : img.descs = xs.map (hashDesc s)
  len : img.buckets.length = 6
  buckets : ∀ g < 6, ∃ bs, img.buckets[g]? = some bs ∧ bs.length = numBucketsPerGroup ∧
    ∀ b < numBucketsPerGroup, bs[b]? = some (sel s g b 0 xs)

theorem createHashed_ok (s : Signs D) (xs : List D) : ∃ img, createHashed s xs = .ok img ∧ Hashed s xs img := by
  obtain ⟨bss, h1, h2, h3⟩ := fillGroups_ok s xs 6 0 (by omega)
  refine ⟨⟨xs.map (hashDesc s), bss⟩, ?_, ⟨rfl, h2, ?_⟩⟩
  · unfold createHashed
    have : numBucketGroups = 6 := rfl
    rw [this, h1]
  · intro g hg
    have := h3 g hg
    simpa using this

theorem addCandidates_ok (fs : List Nat) : ∀ (cands : List Nat) (used : List Bool), (∀ f ∈ fs, f < used.length) →
    ∃ used', addCandidates fs (cands, used) = .ok (cands ++ fs, used') ∧ used'.length = used.length ∧
      ∀ c < used.length, used'[c]? = if c ∈ fs then some false else used[c]? := by
  induction fs with
  | nil => intro cands used _; exact ⟨used, by simp [addCandidates], rfl, by simp⟩
  | cons f fs ih =>
    intro cands used h
    have hf := h f List.mem_cons_self
    obtain ⟨u', h1, h2, h3⟩ := ih (cands ++ [f]) (used.set f false) (by
      intro a ha
      rw [List.length_set]
      exact h a (List.mem_cons_of_mem _ ha))
    rw [List.length_set] at h2 h3
    refine ⟨u', ?_, h2, ?_⟩
    · simp only [addCandidates]
      rw [if_pos hf, h1]
      simp
    · intro c hc
      rw [h3 c hc, List.getElem?_set]
      by_cases h5 : c ∈ fs
      · simp [h5]
      · by_cases h6 : f = c
        · subst h6
          simp [h5, hc]
        · have : c ≠ f := fun e => h6 e.symm
          simp [h5, h6, this]

/-- The candidates of the groups `gs`. -/
def candsOf (s1 s2 : Signs D) (x : D) (ys : List D) (gs : List Nat) : List Nat :=
  gs.flatMap (fun g => sel s2 g (idOf s1 x g) 0 ys)

theorem sel_lt {s : Signs D} {g b : Nat} {xs : List D} {c : Nat} (h : c ∈ sel s g b 0 xs) : c < xs.length := by
  rw [mem_sel] at h
  obtain ⟨i, x, rfl, h1, _⟩ := h
  obtain ⟨h2, _⟩ := List.getElem?_eq_some_iff.1 h1
  omega

theorem gather_ok (s1 s2 : Signs D) (x : D) (ys : List D) (img : HashedImage) (hi : Hashed s2 ys img)
    (gs : List Nat) : ∀ (cands : List Nat) (used : List Bool), used.length = ys.length → (∀ g ∈ gs, g < 6) →
    ∃ used', gather (hashDesc s1 x) img.buckets gs (cands, used) = .ok (cands ++ candsOf s1 s2 x ys gs, used') ∧
      used'.length = ys.length ∧
      ∀ c < ys.length, used'[c]? = if c ∈ candsOf s1 s2 x ys gs then some false else used[c]? := by
  induction gs with
  | nil => intro cands used hl _; exact ⟨used, by simp [gather, candsOf], hl, by simp [candsOf]⟩
  | cons g gs ih =>
    intro cands used hl hg
    have hg0 := hg g List.mem_cons_self
    obtain ⟨bs, b1, b2, b3⟩ := hi.buckets g hg0
    obtain ⟨u1, h1, h2, h3⟩ := addCandidates_ok (sel s2 g (idOf s1 x g) 0 ys) cands used (by
      intro f hf
      rw [hl]
      exact sel_lt hf)
    obtain ⟨u2, e1, e2, e3⟩ := ih (cands ++ sel s2 g (idOf s1 x g) 0 ys) u1 (h2.trans hl)
      (fun a ha => hg a (List.mem_cons_of_mem _ ha))
    refine ⟨u2, ?_, e2, ?_⟩
    · unfold gather
      rw [hashDesc_bucketIds s1 x g hg0]
      simp only
      rw [b1]
      simp only
      rw [b3 _ (idOf_lt s1 x g)]
      simp only
      rw [h1]
      simp only
      rw [e1]
      simp [candsOf]
    · intro c hc
      rw [e3 c hc, h3 c (by omega)]
      have : c ∈ candsOf s1 s2 x ys (g :: gs) ↔ c ∈ sel s2 g (idOf s1 x g) 0 ys ∨ c ∈ candsOf s1 s2 x ys gs := by
        simp [candsOf]
      by_cases h5 : c ∈ candsOf s1 s2 x ys gs
      · simp [this, h5]
      · by_cases h6 : c ∈ sel s2 g (idOf s1 x g) 0 ys
        · simp [this, h5, h6]
        · simp [this, h5, h6]

theorem sharedGroups_pos (s1 s2 : Signs D) (x y : D) :
    0 < sharedGroups s1 s2 x y ↔ ∃ g < 6, SameBucket s1 s2 x y g := by
  unfold sharedGroups
  rw [List.length_pos_iff_exists_mem]
  simp [List.mem_filter]

theorem mem_candsOf (s1 s2 : Signs D) (x : D) (ys : List D) (c : Nat) :
    c ∈ candsOf s1 s2 x ys (List.range numBucketGroups) ↔
      ∃ y, ys[c]? = some y ∧ 0 < sharedGroups s1 s2 x y := by
  unfold candsOf
  rw [List.mem_flatMap]
  constructor
  · rintro ⟨g, hg, h⟩
    rw [mem_sel] at h
    obtain ⟨i, y, rfl, h1, h2⟩ := h
    rw [Nat.zero_add]
    refine ⟨y, h1, ?_⟩
    rw [sharedGroups_pos]
    exact ⟨g, List.mem_range.1 hg, (idOf_eq_iff s1 s2 x y g).1 h2.symm⟩
  · rintro ⟨y, h1, h2⟩
    rw [sharedGroups_pos] at h2
    obtain ⟨g, hg, h⟩ := h2
    refine ⟨g, List.mem_range.2 hg, ?_⟩
    rw [mem_sel]
    exact ⟨c, y, by omega, h1, ((idOf_eq_iff s1 s2 x y g).2 h).symm⟩

theorem length_sel_cons (s : Signs D) (g b j : Nat) (x : D) (xs : List D) :
    (sel s g b j (x :: xs)).length = (if idOf s x g = b then 1 else 0) + (sel s g b 0 xs).length := by
  have hj : ∀ (xs : List D) (j j' : Nat), (sel s g b j xs).length = (sel s g b j' xs).length := by
    intro xs
    induction xs with
    | nil => intro j j'; rfl
    | cons x xs ih =>
      intro j j'
      simp only [sel]
      split
      · simp [ih (j + 1) (j' + 1)]
      · exact ih _ _
  simp only [sel]
  split
  · simp [hj xs (j + 1) 0]; omega
  · rw [hj xs (j + 1) 0]; omega

theorem length_filter_eq_sum {α : Type} (p : α → Bool) (l : List α) :
    (l.filter p).length = (l.map (fun a => if p a then 1 else 0)).sum := by
  induction l with
  | nil => rfl
  | cons a l ih =>
    by_cases h : p a
    · simp [h, ih]; omega
    · simp [h, ih]

theorem length_candsOf (s1 s2 : Signs D) (x : D) (ys : List D) :
    (candsOf s1 s2 x ys (List.range numBucketGroups)).length = candidateCount s1 s2 x ys := by
  unfold candsOf candidateCount
  rw [List.length_flatMap]
  induction ys with
  | nil =>
    simp [sel]
  | cons y ys ih =>
    simp only [length_sel_cons, List.map_cons, List.sum_cons]
    rw [List.sum_map_add, ih]
    congr 1
    unfold sharedGroups
    rw [length_filter_eq_sum]
    apply congrArg
    apply List.map_congr_left
    intro g _
    by_cases h : SameBucket s1 s2 x y g
    · simp [h, (idOf_eq_iff s1 s2 x y g).2 h]
    · have : ¬ idOf s2 y g = idOf s1 x g := fun e => h ((idOf_eq_iff s1 s2 x y g).1 e.symm)
      simp [h, this]

theorem length_candsOf_le (s1 s2 : Signs D) (x : D) (ys : List D) (L : List Nat)
    (hL : ∀ c ∈ candsOf s1 s2 x ys (List.range numBucketGroups), c ∈ L) :
    (candsOf s1 s2 x ys (List.range numBucketGroups)).length ≤ 6 * L.length := by
  have key : ∀ gs : List Nat, (∀ c ∈ candsOf s1 s2 x ys gs, c ∈ L) →
      (candsOf s1 s2 x ys gs).length ≤ gs.length * L.length := by
    intro gs
    induction gs with
    | nil => intro _; simp [candsOf]
    | cons g gs ih =>
      intro h
      have e : candsOf s1 s2 x ys (g :: gs) = sel s2 g (idOf s1 x g) 0 ys ++ candsOf s1 s2 x ys gs := by
        simp [candsOf]
      rw [e] at h ⊢
      rw [List.length_append, List.length_cons, Nat.succ_mul]
      have h1 := ih (fun c hc => h c (List.mem_append_right _ hc))
      have h2 : (sel s2 g (idOf s1 x g) 0 ys).length ≤ L.length :=
        (List.subperm_of_subset (nodup_sel _ _ _ _ _) (fun c hc => h c (List.mem_append_left _ hc))).length_le
      omega
  have := key _ hL
  simpa [numBucketGroups] using this

/-- The candidates in the order in which they are first seen. -/
def fresh : List Bool → List Nat → List Nat
  | _, [] => []
  | used, c :: cs => if used[c]? = some false then c :: fresh (used.set c true) cs else fresh used cs

theorem mem_fresh (cs : List Nat) : ∀ used : List Bool, ∀ c,
    c ∈ fresh used cs ↔ c ∈ cs ∧ used[c]? = some false := by
  induction cs with
  | nil => intro used c; simp [fresh]
  | cons a cs ih =>
    intro used c
    simp only [fresh]
    split
    · rename_i h
      rw [List.mem_cons, ih, List.mem_cons, List.getElem?_set]
      by_cases hc : c = a
      · subst hc
        simp [h]
      · have : ¬ a = c := fun e => hc e.symm
        simp [hc, this]
    · rename_i h
      rw [ih, List.mem_cons]
      constructor
      · rintro ⟨h1, h2⟩; exact ⟨Or.inr h1, h2⟩
      · rintro ⟨rfl | h1, h2⟩
        · exact absurd h2 h
        · exact ⟨h1, h2⟩

theorem nodup_fresh (cs : List Nat) : ∀ used : List Bool, (fresh used cs).Nodup := by
  induction cs with
  | nil => intro used; simp [fresh]
  | cons a cs ih =>
    intro used
    simp only [fresh]
    split
    · refine List.nodup_cons.2 ⟨?_, ih _⟩
      rw [mem_fresh, List.getElem?_set]
      simp only [if_true]
      split <;> simp
    · exact ih _

theorem hamming_map (f g : Nat → Bool) (l : List Nat) :
    hamming (l.map f) (l.map g) = (l.filter (fun j => f j != g j)).length := by
  induction l with
  | nil => rfl
  | cons a l ih =>
    simp only [List.map_cons, hamming, ih]
    by_cases h : (f a != g a) = true
    · rw [if_pos h, List.filter_cons_of_pos (by exact h), List.length_cons]; omega
    · rw [if_neg h, List.filter_cons_of_neg (by exact h)]; omega

theorem hamming_hashDesc (s1 s2 : Signs D) (x y : D) :
    hamming (hashDesc s1 x).code (hashDesc s2 y).code = codeDistance s1 s2 x y := by
  unfold hashDesc codeDistance
  simp only
  rw [hamming_map]
  rfl

theorem codeDistance_le (s1 s2 : Signs D) (x y : D) : codeDistance s1 s2 x y ≤ 128 := by
  unfold codeDistance
  refine (List.length_filter_le _ _).trans ?_
  simp

theorem hammingLoop_ok (s1 s2 : Signs D) (x : D) (ys : List D) (ham : Nat → Nat)
    (hham : ∀ (c : Nat) y, ys[c]? = some y → ham c = codeDistance s1 s2 x y)
    (cs : List Nat) : ∀ (used : List Bool) (cols : List (List Nat)), used.length = ys.length →
    (∀ c ∈ cs, c < ys.length) → cols.length = hashCodeSize + 1 →
    (∀ d col, cols[d]? = some col → col.length + ((fresh used cs).filter (fun c => ham c == d)).length ≤ ys.length) →
    ∃ used' cols', hammingLoop ys.length (hashDesc s1 x) (ys.map (hashDesc s2)) cs (used, cols) = .ok (used', cols') ∧
      used'.length = ys.length ∧ cols'.length = hashCodeSize + 1 ∧
      ∀ d : Nat, cols'[d]? = (cols[d]?).map (· ++ (fresh used cs).filter (fun c => ham c == d)) := by
  induction cs with
  | nil =>
    intro used cols hu _ hc _
    exact ⟨used, cols, rfl, hu, hc, by simp [fresh]⟩
  | cons c cs ih =>
    intro used cols hu hlt hc hroom
    have hcl := hlt c List.mem_cons_self
    have hlt' : ∀ a ∈ cs, a < ys.length := fun a ha => hlt a (List.mem_cons_of_mem _ ha)
    have huc : used[c]? = some used[c] := List.getElem?_eq_getElem (by omega)
    cases hv : used[c] with
    | true =>
      have hfr : fresh used (c :: cs) = fresh used cs := by
        simp only [fresh]
        rw [huc, hv]
        simp
      rw [hfr] at hroom
      obtain ⟨u', k', h1, h2, h3, h4⟩ := ih used cols hu hlt' hc hroom
      refine ⟨u', k', ?_, h2, h3, ?_⟩
      · simp only [hammingLoop]
        rw [huc, hv]
        exact h1
      · rw [hfr]; exact h4
    | false =>
      have hfr : fresh used (c :: cs) = c :: fresh (used.set c true) cs := by
        simp only [fresh]
        rw [huc, hv]
        simp
      have hy : ys[c]? = some ys[c] := List.getElem?_eq_getElem hcl
      have hd := hham c _ hy
      have hle := codeDistance_le s1 s2 x ys[c]
      have hhc : ham c < cols.length := by
        rw [hc, hd]
        have : hashCodeSize = 128 := rfl
        omega
      have hcol : cols[ham c]? = some cols[ham c] := List.getElem?_eq_getElem hhc
      have hr := hroom _ _ hcol
      rw [hfr] at hr
      simp only [List.filter_cons, beq_self_eq_true, if_true, List.length_cons] at hr
      obtain ⟨u', k', h1, h2, h3, h4⟩ := ih (used.set c true) (cols.set (ham c) (cols[ham c] ++ [c]))
        (by simpa using hu) hlt' (by simpa using hc) (by
          intro d col hdcol
          rw [List.getElem?_set] at hdcol
          split at hdcol
          · rename_i e
            subst e
            simp only [Option.some.injEq] at hdcol
            subst hdcol
            simp only [List.length_append, List.length_cons, List.length_nil]
            omega
          · rename_i e
            have := hroom d col hdcol
            rw [hfr] at this
            have hne : (ham c == d) = false := by simpa using e
            rw [List.filter_cons, hne] at this
            simpa using this)
      refine ⟨u', k', ?_, h2, h3, ?_⟩
      · simp only [hammingLoop]
        rw [huc, hv]
        simp only
        rw [List.getElem?_map, hy]
        simp only [Option.map_some]
        rw [hamming_hashDesc, ← hd]
        unfold pushColumn
        rw [hcol]
        simp only
        rw [if_pos (by omega)]
        exact h1
      · intro d
        rw [h4, hfr, List.getElem?_set]
        by_cases e : ham c = d
        · subst e
          rw [if_pos rfl, hcol]
          have : ham c < cols.length := (List.getElem?_eq_some_iff.1 hcol).1
          simp [this]
        · rw [if_neg e]
          have hne : (ham c == d) = false := by simpa using e
          rw [List.filter_cons, hne]
          simp

theorem takeColumn_ok (dist : D → D → K) (x : D) (ys : List D) (val : Nat → K × Nat)
    (hval : ∀ (c : Nat) y, ys[c]? = some y → val c = (dist y x, c)) (col : List Nat) :
    ∀ acc : List (K × Nat), (∀ c ∈ col, c < ys.length) → acc.length ≤ 10 →
      takeColumn dist x ys col acc = .ok (acc ++ (col.take (11 - acc.length)).map val) := by
  induction col with
  | nil => intro acc _ _; simp [takeColumn]
  | cons c cs ih =>
    intro acc hlt hacc
    have hcl := hlt c List.mem_cons_self
    have hy : ys[c]? = some ys[c] := List.getElem?_eq_getElem hcl
    have hv := hval c _ hy
    simp only [takeColumn]
    rw [hy]
    simp only
    rw [← hv]
    have htk : (c :: cs).take (11 - acc.length) = c :: cs.take (11 - (acc ++ [val c]).length) := by
      rw [List.length_append, List.length_singleton]
      have : 11 - acc.length = (11 - (acc.length + 1)) + 1 := by omega
      rw [this, List.take_succ_cons]
    split
    · rename_i h
      have hl : (acc ++ [val c]).length = 11 := by
        have : numTopCandidates = 10 := rfl
        simp only [List.length_append, List.length_singleton] at h ⊢
        omega
      rw [htk, hl]
      simp
    · rename_i h
      have h10 : (acc ++ [val c]).length ≤ 10 := by
        have : numTopCandidates = 10 := rfl
        omega
      rw [ih (acc ++ [val c]) (fun a ha => hlt a (List.mem_cons_of_mem _ ha)) h10, htk]
      simp

theorem takeColumns_ok (dist : D → D → K) (x : D) (ys : List D) (val : Nat → K × Nat)
    (hval : ∀ (c : Nat) y, ys[c]? = some y → val c = (dist y x, c)) (cols : List (List Nat)) :
    ∀ acc : List (K × Nat), (∀ c ∈ cols.flatten, c < ys.length) → acc.length ≤ 10 →
      takeColumns dist x ys cols acc = .ok (acc ++ (cols.flatten.take (11 - acc.length)).map val) := by
  induction cols with
  | nil => intro acc _ _; simp [takeColumns]
  | cons col cols ih =>
    intro acc hlt hacc
    simp only [takeColumns]
    rw [takeColumn_ok dist x ys val hval col acc (fun c hc => hlt c (by simp [hc])) hacc]
    simp only
    rw [List.flatten_cons, List.take_append]
    have hl : (acc ++ (col.take (11 - acc.length)).map val).length = acc.length + min (11 - acc.length) col.length := by
      simp
    split
    · rename_i h
      rw [hl] at h
      have : numTopCandidates = 10 := rfl
      have hz : 11 - acc.length - col.length = 0 := by omega
      rw [hz]
      simp
    · rename_i h
      rw [hl] at h
      have : numTopCandidates = 10 := rfl
      rw [ih _ (fun c hc => hlt c (by
        rw [List.flatten_cons]
        exact List.mem_append_right _ hc)) (by rw [hl]; omega), hl]
      have e1 : col.take (11 - acc.length) = col := List.take_of_length_le (by omega)
      have e2 : 11 - (acc.length + min (11 - acc.length) col.length) = 11 - acc.length - col.length := by omega
      rw [e1, e2, List.map_append, List.append_assoc]

/-- The candidates by Hamming distance. -/
def byHam (ham : Nat → Nat) (L : List Nat) : List Nat :=
  (List.range 129).flatMap (fun d => L.filter (fun c => ham c == d))

theorem mem_byHam {ham : Nat → Nat} {L : List Nat} {c : Nat} : c ∈ byHam ham L ↔ c ∈ L ∧ ham c ≤ 128 := by
  unfold byHam
  rw [List.mem_flatMap]
  constructor
  · rintro ⟨d, hd, h⟩
    rw [List.mem_filter] at h
    have : ham c = d := by simpa using h.2
    exact ⟨h.1, by rw [this]; have := List.mem_range.1 hd; omega⟩
  · rintro ⟨h1, h2⟩
    exact ⟨ham c, List.mem_range.2 (by omega), List.mem_filter.2 ⟨h1, by simp⟩⟩

theorem nodup_byHam {ham : Nat → Nat} {L : List Nat} (h : L.Nodup) : (byHam ham L).Nodup := by
  unfold byHam
  rw [List.Nodup, List.pairwise_flatMap]
  refine ⟨fun d _ => h.filter _, ?_⟩
  apply (List.nodup_range (n := 129)).imp
  intro d e hde a ha b hb hab
  subst hab
  rw [List.mem_filter] at ha hb
  have h1 : ham a = d := by simpa using ha.2
  have h2 : ham a = e := by simpa using hb.2
  exact hde (h1.symm.trans h2)

theorem sorted_byHam {ham : Nat → Nat} {L : List Nat} : (byHam ham L).Pairwise (fun a b => ham a ≤ ham b) := by
  unfold byHam
  rw [List.pairwise_flatMap]
  constructor
  · intro d _
    rw [List.pairwise_iff_forall_sublist]
    intro a b hab
    have ha := hab.subset (List.mem_cons_self)
    have hb := hab.subset (List.mem_cons_of_mem _ (List.mem_singleton.2 rfl))
    rw [List.mem_filter] at ha hb
    have h1 : ham a = d := by simpa using ha.2
    have h2 : ham b = d := by simpa using hb.2
    omega
  · apply (List.pairwise_lt_range (n := 129)).imp
    intro d e hde a ha b hb
    rw [List.mem_filter] at ha hb
    have h1 : ham a = d := by simpa using ha.2
    have h2 : ham b = e := by simpa using hb.2
    omega

theorem flatten_cols {ham : Nat → Nat} {L : List Nat} {cols : List (List Nat)}
    (h : ∀ d : Nat, cols[d]? = ((List.replicate 129 ([] : List Nat))[d]?).map (· ++ L.filter (fun c => ham c == d))) :
    cols.flatten = byHam ham L := by
  unfold byHam
  rw [List.flatMap_def]
  congr 1
  apply List.ext_getElem?
  intro d
  rw [h, List.getElem?_map, List.getElem?_replicate]
  by_cases hd : d < 129
  · rw [if_pos hd, List.getElem?_range hd]
    simp
  · rw [if_neg hd, List.getElem?_eq_none (by simpa using hd)]
    rfl

variable [Field K] [LinearOrder K] [IsStrictOrderedRing K]

omit [Field K] [IsStrictOrderedRing K] in
theorem pairLe_trans {a b c : K × Nat} (h1 : a.1 < b.1 ∨ (a.1 = b.1 ∧ a.2 ≤ b.2))
    (h2 : b.1 < c.1 ∨ (b.1 = c.1 ∧ b.2 ≤ c.2)) : a.1 < c.1 ∨ (a.1 = c.1 ∧ a.2 ≤ c.2) := by
  rcases h1 with h1 | ⟨h1, h1'⟩ <;> rcases h2 with h2 | ⟨h2, h2'⟩
  · exact Or.inl (h1.trans h2)
  · exact Or.inl (h2 ▸ h1)
  · exact Or.inl (h1 ▸ h2)
  · exact Or.inr ⟨h1.trans h2, h1'.trans h2'⟩

theorem pick_ok {ps : List (K × Nat) → List (K × Nat)} (hps : IsPairPartialSort ps) (dist : D → D → K) (ratio : K)
    (i : Nat) (x : D) (ys : List D) (val : Nat → K × Nat)
    (hval : ∀ (c : Nat) y, ys[c]? = some y → val c = (dist y x, c)) (T : List Nat) (hT : T.Nodup)
    (hlt : ∀ c ∈ T, c < ys.length) (h2 : 2 ≤ T.length) :
    ∃ m, pick ps ratio i (T.map val) = .ok m ∧
      ∀ r, m = some r ↔ ∃ (j : Nat) (y : D), ys[j]? = some y ∧ r = ⟨i, j, dist y x⟩ ∧ Accepts dist ratio x ys T j := by
  obtain ⟨a, b, rest, e1, e2, hab, hrest⟩ := hps (T.map val) (by simpa using h2)
  have hval2 : ∀ c ∈ T, (val c).2 = c := by
    intro c hc
    rw [hval c _ (List.getElem?_eq_getElem (hlt c hc))]
  have hmemT : ∀ p, p ∈ a :: b :: rest ↔ ∃ c ∈ T, val c = p := by
    intro p
    rw [e2.mem_iff, List.mem_map]
  obtain ⟨ja, ja1, ja2⟩ := (hmemT a).1 (by simp)
  obtain ⟨jb, jb1, jb2⟩ := (hmemT b).1 (by simp)
  have hnd : (a :: b :: rest).Nodup := by
    rw [e2.nodup_iff]
    apply List.Nodup.map_on _ hT
    intro c hc d hd hcd
    rw [← hval2 c hc, hcd, hval2 d hd]
  have hne : ja ≠ jb := by
    rintro rfl
    rw [ja2] at jb2
    rw [jb2] at hnd
    simp at hnd
  have hle_a : ∀ t ∈ T, t ≠ ja → (a.1 < (val t).1 ∨ (a.1 = (val t).1 ∧ a.2 ≤ (val t).2)) ∧ b.1 ≤ (val t).1 := by
    intro t ht htne
    have hm := (hmemT (val t)).2 ⟨t, ht, rfl⟩
    rw [List.mem_cons, List.mem_cons] at hm
    rcases hm with h | h | h
    · exfalso
      apply htne
      rw [← hval2 t ht, h, ← ja2, hval2 ja ja1]
    · rw [h]; exact ⟨hab, le_refl _⟩
    · have h3 := hrest _ h
      exact ⟨pairLe_trans hab h3, by rcases h3 with h3 | h3; exact h3.le; exact h3.1.le⟩
  have hla := hlt ja ja1
  have hlb := hlt jb jb1
  have hya : ys[ja]? = some ys[ja] := List.getElem?_eq_getElem hla
  have hyb : ys[jb]? = some ys[jb] := List.getElem?_eq_getElem hlb
  have hva := hval ja _ hya
  have hvb := hval jb _ hyb
  have ha1 : a.1 = dist ys[ja] x := by rw [← ja2, hva]
  have ha2 : a.2 = ja := by rw [← ja2, hva]
  have hb1 : b.1 = dist ys[jb] x := by rw [← jb2, hvb]
  have hsq : 0 ≤ ratio * ratio := mul_self_nonneg ratio
  unfold pick
  rw [if_neg (by rw [List.length_map]; omega), e1]
  simp only
  -- every accepted candidate is the first one
  have huniq : ∀ j, Accepts dist ratio x ys T j → j = ja := by
    rintro j ⟨hj, y, hy, hacc⟩
    by_contra hjne
    have h3 := (hacc ja ja1 (fun e => hjne e.symm) _ hya).1
    have h4 := (hle_a j hj hjne).1
    rw [hval j y hy, ha1, ha2] at h4
    simp only at h4
    rcases h3 with h3 | ⟨h3, h3'⟩ <;> rcases h4 with h4 | ⟨h4, h4'⟩
    · exact absurd h3 (not_lt.2 h4.le)
    · exact absurd h3 (by rw [h4]; exact lt_irrefl _)
    · exact absurd h4 (by rw [h3]; exact lt_irrefl _)
    · exact hjne (by omega)
  split
  · rename_i hlt'
    refine ⟨none, rfl, ?_⟩
    intro r
    constructor
    · intro h; simp at h
    · rintro ⟨j, y, hy, _, hacc⟩
      exfalso
      have hj := huniq j hacc
      subst hj
      obtain ⟨_, y', hy', hacc⟩ := hacc
      have h3 := (hacc jb jb1 hne.symm _ hyb).2
      rw [hya] at hy'
      cases hy'
      rw [← ha1, ← hb1] at h3
      exact absurd hlt' (not_lt.2 h3)
  · rename_i hnlt
    have hnlt := not_lt.1 hnlt
    refine ⟨some ⟨i, a.2, a.1⟩, rfl, ?_⟩
    intro r
    constructor
    · intro h
      simp only [Option.some.injEq] at h
      subst h
      refine ⟨ja, _, hya, by rw [ha2, ha1], ja1, _, hya, ?_⟩
      intro t ht htne yt hyt
      obtain ⟨h3, h4⟩ := hle_a t ht htne
      rw [hval t yt hyt] at h3 h4
      rw [ha1, ha2] at h3
      refine ⟨h3, ?_⟩
      rw [← ha1]
      exact hnlt.trans (mul_le_mul_of_nonneg_right h4 hsq)
    · rintro ⟨j, y, hy, rfl, hacc⟩
      have hj := huniq j hacc
      subst hj
      rw [hya] at hy
      cases hy
      rw [ha2, ha1]

theorem matchDesc_ok {ps : List (K × Nat) → List (K × Nat)} (hps : IsPairPartialSort ps) (dist : D → D → K) (ratio : K)
    (i : Nat) (s1 s2 : Signs D) (x : D) (ys : List D) (img : HashedImage) (hi : Hashed s2 ys img) (used : List Bool)
    (hu : used.length = ys.length) :
    ∃ m used', matchDesc ps dist ratio i (hashDesc s1 x) x img ys used = .ok (m, used') ∧ used'.length = ys.length ∧
      ∃ T, TopEleven s1 s2 x ys T ∧ (10 < candidateCount s1 s2 x ys → 2 ≤ T.length) ∧
        ∀ r, m = some r ↔ 10 < candidateCount s1 s2 x ys ∧
          ∃ (j : Nat) (y : D), ys[j]? = some y ∧ r = ⟨i, j, dist y x⟩ ∧ Accepts dist ratio x ys T j := by
  classical
  obtain ⟨u1, g1, g2, g3⟩ := gather_ok s1 s2 x ys img hi (List.range numBucketGroups) [] used hu (by
    intro g hg
    exact List.mem_range.1 hg)
  rw [List.nil_append] at g1
  generalize hC : candsOf s1 s2 x ys (List.range numBucketGroups) = C at *
  have hlenC : C.length = candidateCount s1 s2 x ys := by rw [← hC]; exact length_candsOf s1 s2 x ys
  have hmemC : ∀ c, c ∈ C ↔ ∃ y, ys[c]? = some y ∧ 0 < sharedGroups s1 s2 x y := by
    intro c; rw [← hC]; exact mem_candsOf s1 s2 x ys c
  have hltC : ∀ c ∈ C, c < ys.length := by
    intro c hc
    obtain ⟨y, hy, _⟩ := (hmemC c).1 hc
    exact (List.getElem?_eq_some_iff.1 hy).1
  let ham : Nat → Nat := fun c => match ys[c]? with
    | some y => codeDistance s1 s2 x y
    | none => 0
  have hham : ∀ (c : Nat) y, ys[c]? = some y → ham c = codeDistance s1 s2 x y := by
    intro c y hy
    simp only [ham, hy]
  have hham128 : ∀ c, ham c ≤ 128 := by
    intro c
    simp only [ham]
    split
    · exact codeDistance_le _ _ _ _
    · omega
  have hmemF : ∀ c, c ∈ fresh u1 C ↔ c ∈ C := by
    intro c
    rw [mem_fresh]
    constructor
    · exact fun h => h.1
    · intro h
      refine ⟨h, ?_⟩
      rw [g3 c (hltC c h), if_pos h]
  have hndF := nodup_fresh C u1
  have hFle : (fresh u1 C).length ≤ ys.length := by
    have := (List.subperm_of_subset hndF (l₂ := List.range ys.length) (by
      intro c hc
      exact List.mem_range.2 (hltC c ((hmemF c).1 hc)))).length_le
    simpa using this
  obtain ⟨u2, cols, c1, c2, c3, c4⟩ := hammingLoop_ok s1 s2 x ys ham hham C u1
    (List.replicate (hashCodeSize + 1) []) g2 hltC (by simp) (by
      intro d col hd
      rw [List.getElem?_replicate] at hd
      split at hd
      · simp only [Option.some.injEq] at hd
        subst hd
        have := List.length_filter_le (fun c => ham c == d) (fresh u1 C)
        simp only [List.length_nil]
        omega
      · simp at hd)
  have hflat : cols.flatten = byHam ham (fresh u1 C) := flatten_cols c4
  have hmemB : ∀ c, c ∈ byHam ham (fresh u1 C) ↔ ∃ y, ys[c]? = some y ∧ 0 < sharedGroups s1 s2 x y := by
    intro c
    rw [mem_byHam, hmemF, hmemC]
    exact ⟨fun h => h.1, fun h => ⟨h, hham128 c⟩⟩
  have hndB : (byHam ham (fresh u1 C)).Nodup := nodup_byHam hndF
  have hsB := sorted_byHam (ham := ham) (L := fresh u1 C)
  generalize hB : byHam ham (fresh u1 C) = B at *
  have htop : TopEleven s1 s2 x ys (B.take 11) := by
    refine ⟨hndB.sublist (List.take_sublist _ _), ?_, ?_, ?_, ?_⟩
    · intro c hc
      exact (hmemB c).1 (List.mem_of_mem_take hc)
    · rw [List.length_take]; omega
    · intro hl c y hy hs
      rw [List.length_take] at hl
      rw [List.take_of_length_le (by omega)]
      exact (hmemB c).2 ⟨y, hy, hs⟩
    · intro t ht yt hyt c y hy hs hc
      rw [← hham t yt hyt, ← hham c y hy]
      have hcB := (hmemB c).2 ⟨y, hy, hs⟩
      rw [← List.take_append_drop 11 B, List.mem_append] at hcB
      rcases hcB with h | h
      · exact absurd h hc
      · rw [← List.take_append_drop 11 B, List.pairwise_append] at hsB
        exact hsB.2.2 t ht c h
  have htwo : 10 < candidateCount s1 s2 x ys → 2 ≤ (B.take 11).length := by
    intro h
    have h1 : C.length ≤ 6 * B.length := by
      rw [← hC]
      apply length_candsOf_le
      intro c hc
      rw [hC] at hc
      exact (hmemB c).2 ((hmemC c).1 hc)
    rw [List.length_take]
    omega
  by_cases hbig : 10 < candidateCount s1 s2 x ys
  · let val : Nat → K × Nat := fun c => match ys[c]? with
      | some y => (dist y x, c)
      | none => (0, c)
    have hval : ∀ (c : Nat) y, ys[c]? = some y → val c = (dist y x, c) := by
      intro c y hy
      simp only [val, hy]
    have hltB : ∀ c ∈ B, c < ys.length := by
      intro c hc
      obtain ⟨y, hy, _⟩ := (hmemB c).1 hc
      exact (List.getElem?_eq_some_iff.1 hy).1
    have htake := takeColumns_ok dist x ys val hval cols [] (by rw [hflat]; exact hltB) (by simp)
    rw [hflat] at htake
    simp only [List.nil_append, List.length_nil, Nat.sub_zero] at htake
    obtain ⟨m, p1, p2⟩ := pick_ok hps dist ratio i x ys val hval (B.take 11) htop.nodup
      (fun c hc => hltB c (List.mem_of_mem_take hc)) (htwo hbig)
    refine ⟨m, u2, ?_, c2, B.take 11, htop, htwo, ?_⟩
    · unfold matchDesc
      rw [g1]
      simp only
      rw [if_neg (by rw [hlenC]; have : numTopCandidates = 10 := rfl; omega), hi.descs, c1]
      simp only
      rw [htake]
      simp only
      rw [p1]
    · intro r
      rw [p2]
      exact ⟨fun h => ⟨hbig, h⟩, fun h => h.2⟩
  · refine ⟨none, u1, ?_, g2, B.take 11, htop, htwo, ?_⟩
    · unfold matchDesc
      rw [g1]
      simp only
      rw [if_pos (by rw [hlenC]; have : numTopCandidates = 10 := rfl; omega)]
    · intro r
      constructor
      · intro h; simp at h
      · rintro ⟨h, _⟩; exact absurd h hbig

theorem matchLoop_ok {ps : List (K × Nat) → List (K × Nat)} (hps : IsPairPartialSort ps) (dist : D → D → K) (ratio : K)
    (s1 s2 : Signs D) (ys : List D) (img : HashedImage) (hi : Hashed s2 ys img) (tl : List D) :
    ∀ (pre : List D) (used : List Bool), used.length = ys.length →
    ∃ ms, matchLoop ps dist ratio img ys (pre ++ tl) pre.length (tl.map (hashDesc s1)) used = .ok ms ∧
      (ms.map (·.feature1)).Pairwise (· < ·) ∧
      (∀ r ∈ ms, ∃ i : Nat, r.feature1 = i ∧ pre.length ≤ i ∧ i < (pre ++ tl).length) ∧
      ∀ (i : Nat) (x : D), pre.length ≤ i → (pre ++ tl)[i]? = some x →
        ∃ T, TopEleven s1 s2 x ys T ∧ (10 < candidateCount s1 s2 x ys → 2 ≤ T.length) ∧
          ∀ r : Matcher.FMatch K, (r ∈ ms ∧ r.feature1 = i) ↔ 10 < candidateCount s1 s2 x ys ∧
            ∃ (j : Nat) (y : D), ys[j]? = some y ∧ r = ⟨i, j, dist y x⟩ ∧ Accepts dist ratio x ys T j := by
  induction tl with
  | nil =>
    intro pre used _
    refine ⟨[], rfl, by simp, by simp, ?_⟩
    intro i x h1 h2
    rw [List.append_nil] at h2
    have := (List.getElem?_eq_some_iff.1 h2).1
    omega
  | cons z tl ih =>
    intro pre used hu
    obtain ⟨m, u', d1, d2, T, d3, d4, d5⟩ := matchDesc_ok hps dist ratio pre.length s1 s2 z ys img hi used hu
    obtain ⟨ms, e1, e2, e3, e4⟩ := ih (pre ++ [z]) u' d2
    have hassoc : pre ++ [z] ++ tl = pre ++ z :: tl := by simp
    rw [hassoc] at e1 e3 e4
    have hlen : (pre ++ [z]).length = pre.length + 1 := by simp
    rw [hlen] at e1 e3 e4
    have hmf : ∀ r, m = some r → r.feature1 = pre.length := by
      intro r hr
      obtain ⟨_, j, y, _, rfl, _⟩ := (d5 r).1 hr
      rfl
    refine ⟨m.toList ++ ms, ?_, ?_, ?_, ?_⟩
    · rw [List.map_cons]
      unfold matchLoop
      have : (pre ++ z :: tl)[pre.length]? = some z := by simp
      rw [this]
      simp only
      rw [d1]
      simp only
      rw [e1]
    · rw [List.map_append, List.pairwise_append]
      refine ⟨?_, e2, ?_⟩
      · cases m <;> simp
      · intro a ha b hb
        rw [List.mem_map] at ha hb
        obtain ⟨r, hr, rfl⟩ := ha
        obtain ⟨r', hr', rfl⟩ := hb
        rw [Option.mem_toList] at hr
        rw [hmf r hr]
        obtain ⟨i, h1, h2, _⟩ := e3 r' hr'
        rw [h1]
        omega
    · intro r hr
      rw [List.mem_append, Option.mem_toList] at hr
      rcases hr with hr | hr
      · exact ⟨pre.length, hmf r hr, le_refl _, by simp⟩
      · obtain ⟨i, h1, h2, h3⟩ := e3 r hr
        exact ⟨i, h1, by omega, h3⟩
    · intro i x hle hx
      rcases Nat.lt_or_ge pre.length i with h | h
      · obtain ⟨T', f1, f2, f3⟩ := e4 i x (by omega) hx
        refine ⟨T', f1, f2, ?_⟩
        intro r
        rw [← f3, List.mem_append, Option.mem_toList]
        constructor
        · rintro ⟨hr | hr, hi'⟩
          · have := hmf r hr
            omega
          · exact ⟨hr, hi'⟩
        · rintro ⟨hr, hi'⟩; exact ⟨Or.inr hr, hi'⟩
      · have hie : i = pre.length := by omega
        subst hie
        have hz : (pre ++ z :: tl)[pre.length]? = some z := by simp
        rw [hz] at hx
        cases hx
        refine ⟨T, d3, d4, ?_⟩
        intro r
        rw [← d5, List.mem_append, Option.mem_toList]
        constructor
        · rintro ⟨hr | hr, hi'⟩
          · exact hr
          · obtain ⟨i, h1, h2, _⟩ := e3 r hr
            omega
        · intro hr; exact ⟨Or.inl hr, hmf r hr⟩

end Cascade
end Theia
