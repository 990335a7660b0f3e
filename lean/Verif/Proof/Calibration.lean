import Mathlib.Data.Nat.Digits.Lemmas
import Mathlib.Tactic.IntervalCases
import Mathlib.Tactic.Linarith
import Verif.Spec.Calibration

/-!
# Proofs about JSON texts
-/

namespace Theia
namespace Json

open Spec

/-! ### Numbers -/

theorem digitChar_toNat {d : Nat} (h : d < 10) : (Char.ofNat (48 + d)).toNat = 48 + d := by
  interval_cases d <;> rfl

theorem digitChar_isDigit {d : Nat} (h : d < 10) : isDigit (Char.ofNat (48 + d)) = true := by
  interval_cases d <;> rfl

theorem takeDigits_digits (ds : List Nat) (h : ∀ d ∈ ds, d < 10) {c : Char} (hc : isDigit c = false) (rest : List Char) :
    takeDigits (ds.map (fun d => Char.ofNat (48 + d)) ++ c :: rest) = (ds, c :: rest) := by
  induction ds with
  | nil => simp [takeDigits, hc]
  | cons d ds ih =>
    have hd := h d List.mem_cons_self
    rw [List.map_cons, List.cons_append, takeDigits, ih (fun d hd => h d (List.mem_cons_of_mem _ hd)),
      if_pos (digitChar_isDigit hd), digitChar_toNat hd]
    simp

theorem digitsValue_reverse (ds : List Nat) : digitsValue ds.reverse = Nat.ofDigits 10 ds := by
  unfold digitsValue
  rw [List.foldl_reverse]
  induction ds with
  | nil => rfl
  | cons d ds ih => rw [List.foldr_cons, ih, Nat.ofDigits_cons]; omega

/-- The digits of a number that is not zero. -/
def textDigits (n : Nat) : List Nat := (Nat.digits 10 n).reverse

theorem textDigits_lt {n d : Nat} (h : d ∈ textDigits n) : d < 10 :=
  Nat.digits_lt_base (by norm_num) (List.mem_reverse.1 h)

theorem textDigits_value (n : Nat) : digitsValue (textDigits n) = n := by
  unfold textDigits
  rw [digitsValue_reverse, Nat.ofDigits_digits]

theorem natText_eq {n : Nat} (h : n ≠ 0) : natText n = (textDigits n).map fun d => Char.ofNat (48 + d) := by
  unfold natText textDigits
  rw [if_neg h, List.map_reverse]

theorem textDigits_head {n : Nat} (h : n ≠ 0) : ∃ d ds, textDigits n = d :: ds ∧ d ≠ 0 := by
  have hne : Nat.digits 10 n ≠ [] := Nat.digits_ne_nil_iff_ne_zero.2 h
  have hl := Nat.getLast_digit_ne_zero 10 h
  obtain ⟨d, ds, hds⟩ := List.exists_cons_of_ne_nil (List.reverse_ne_nil_iff.2 hne)
  refine ⟨d, ds, hds, ?_⟩
  have : (Nat.digits 10 n).getLast hne = d := by
    have h1 : Nat.digits 10 n = (d :: ds).reverse := by rw [← hds, List.reverse_reverse]
    simp [h1]
  rw [← this]
  exact hl

theorem integerPart_natText (n : Nat) {c : Char} (hc : isDigit c = false) (rest : List Char) :
    integerPart (natText n ++ c :: rest) = some (n, c :: rest) := by
  by_cases h : n = 0
  · subst h
    rfl
  · obtain ⟨d, ds, hd, h0⟩ := textDigits_head h
    have htake := takeDigits_digits (textDigits n) (fun _ h => textDigits_lt h) hc rest
    rw [natText_eq h]
    have hlt : d < 10 := textDigits_lt (n := n) (by rw [hd]; simp)
    have hne : Char.ofNat (48 + d) ≠ '0' := by
      interval_cases d
      · exact absurd rfl h0
      all_goals decide
    have hform : (textDigits n).map (fun d => Char.ofNat (48 + d)) ++ c :: rest =
        Char.ofNat (48 + d) :: (ds.map (fun d => Char.ofNat (48 + d)) ++ c :: rest) := by rw [hd]; rfl
    rw [hform] at htake ⊢
    rw [integerPart, if_neg hne, if_pos (digitChar_isDigit hlt), htake]
    simp only [textDigits_value]

theorem exponentDigits_natText (n : Nat) {c : Char} (hc : isDigit c = false) (rest : List Char) :
    exponentDigits (natText n ++ c :: rest) = some (n, c :: rest) := by
  unfold exponentDigits
  by_cases h : n = 0
  · subst h
    have : takeDigits (natText 0 ++ c :: rest) = ([0], c :: rest) := takeDigits_digits [0] (by simp) hc rest
    rw [this]
    rfl
  · rw [natText_eq h, takeDigits_digits (textDigits n) (fun _ h => textDigits_lt h) hc rest]
    obtain ⟨d, ds, hd, _⟩ := textDigits_head h
    rw [if_neg (by rw [hd]; simp)]
    simp only [textDigits_value]

theorem natText_head (n : Nat) : ∃ c cs, natText n = c :: cs ∧ isDigit c = true := by
  by_cases h : n = 0
  · subst h; exact ⟨'0', [], rfl, rfl⟩
  · obtain ⟨d, ds, hd, _⟩ := textDigits_head h
    rw [natText_eq h, hd]
    exact ⟨_, _, rfl, digitChar_isDigit (textDigits_lt (n := n) (by rw [hd]; simp))⟩

theorem sign_natText (n : Nat) (rest : List Char) : sign (natText n ++ rest) = (false, natText n ++ rest) := by
  obtain ⟨c, cs, h, hc⟩ := natText_head n
  rw [h, List.cons_append]
  unfold sign
  split
  · next h' =>
    cases h'
    exact absurd hc (by decide)
  · rfl

theorem signedExponent_natText (n : Nat) {c : Char} (hc : isDigit c = false) (rest : List Char) :
    signedExponent (natText n ++ c :: rest) = some ((n : Int), c :: rest) := by
  have he := exponentDigits_natText n hc rest
  obtain ⟨d, cs, h, hd⟩ := natText_head n
  rw [h, List.cons_append] at he ⊢
  unfold signedExponent
  split
  · next h' => cases h'; exact absurd hd (by decide)
  · next h' => cases h'; exact absurd hd (by decide)
  · rw [he]; rfl

theorem signedExponent_intText (n : Int) {c : Char} (hc : isDigit c = false) (rest : List Char) :
    signedExponent (intText n ++ c :: rest) = some (n, c :: rest) := by
  cases n with
  | ofNat n => exact signedExponent_natText n hc rest
  | negSucc n =>
    simp only [intText, List.cons_append, signedExponent, exponentDigits_natText (n + 1) hc rest, Option.map_some]
    rw [Int.negSucc_eq]
    push_cast
    rfl

theorem fraction_stop {c : Char} (hc : c ≠ '.') (rest : List Char) : fraction (c :: rest) = some (false, 0, c :: rest) := by
  unfold fraction
  split
  · next h => cases h; exact absurd rfl hc
  · rfl

theorem exponent_stop {c : Char} (hc : c ≠ 'e' ∧ c ≠ 'E') (rest : List Char) :
    exponent (c :: rest) = some (false, 0, c :: rest) := by
  unfold exponent
  split
  · next h => cases h; exact absurd rfl hc.1
  · next h => cases h; exact absurd rfl hc.2
  · rfl

/-- Printed integers are read as integers. -/
theorem number_intText (n : Int) {c : Char} (hc : c ∈ [',', '\n', ']']) (rest : List Char) :
    number (intText n ++ c :: rest) = some (classify (decide (n < 0)) n.natAbs false n, c :: rest) := by
  have h1 : isDigit c = false ∧ c ≠ '.' ∧ c ≠ 'e' ∧ c ≠ 'E' := by
    rcases List.mem_cons.1 hc with rfl | hc
    · decide
    · rcases List.mem_cons.1 hc with rfl | hc
      · decide
      · rw [List.mem_singleton.1 hc]; decide
  cases n with
  | ofNat n =>
    unfold number
    simp only [intText, sign_natText, integerPart_natText n h1.1, fraction_stop h1.2.1, exponent_stop h1.2.2, Option.bind_eq_bind,
      Option.bind_some]
    have : decide ((n : Int) < 0) = false := by simp
    simp
    rw [this]
  | negSucc n =>
    unfold number
    simp only [intText, List.cons_append, sign, integerPart_natText (n + 1) h1.1, fraction_stop h1.2.1,
      exponent_stop h1.2.2, Option.bind_eq_bind, Option.bind_some]
    simp [Int.negSucc_lt_zero]

/-- What is printed with an exponent. -/
theorem number_exponent (m e : Int) {c : Char} (hc : c ∈ [',', '\n', ']']) (rest : List Char) :
    number (intText m ++ 'e' :: (intText e ++ c :: rest)) =
      some (⟨(m : ℚ) * (10 : ℚ) ^ e, false, true⟩, c :: rest) := by
  have h1 : isDigit c = false := by
    rcases List.mem_cons.1 hc with rfl | hc
    · decide
    · rcases List.mem_cons.1 hc with rfl | hc
      · decide
      · rw [List.mem_singleton.1 hc]; decide
  have hd : isDigit 'e' = false := by decide
  have hexp : exponent ('e' :: (intText e ++ c :: rest)) = some (true, e, c :: rest) := by
    simp only [exponent, signedExponent_intText e h1, Option.map_some]
  generalize intText e ++ c :: rest = q at hexp ⊢
  cases m with
  | ofNat n =>
    unfold number
    simp only [intText, sign_natText, integerPart_natText n hd, fraction_stop (c := 'e') (by decide), hexp,
      Option.bind_eq_bind, Option.bind_some]
    simp [classify]
  | negSucc n =>
    unfold number
    simp only [intText, List.cons_append, sign, integerPart_natText (n + 1) hd, fraction_stop (c := 'e') (by decide), hexp,
      Option.bind_eq_bind, Option.bind_some]
    simp [classify]
    ring

/-! ### Strings -/

theorem string_step {c : Char} (h : c ≠ '\\') (k : Nat) (cs : List Char) :
    string (k + 1) (c :: cs) = if c = '"' then some ([], cs) else if c.toNat < 32 then none
      else (string k cs).map fun r => (c :: r.1, r.2) := by
  rw [string.eq_def]
  simp only [if_neg h]

theorem string_plain (s : List Char) (hs : PlainText s) : ∀ (k : Nat) (rest : List Char), s.length < k →
    string k (s ++ '"' :: rest) = some (s, rest) := by
  induction s with
  | nil =>
    intro k rest hk
    obtain ⟨k, rfl⟩ : ∃ j, k = j + 1 := ⟨k - 1, by omega⟩
    simp [string]
  | cons c s ih =>
    intro k rest hk
    obtain ⟨k, rfl⟩ : ∃ j, k = j + 1 := ⟨k - 1, by omega⟩
    obtain ⟨h1, h2, h3⟩ := hs c List.mem_cons_self
    rw [List.cons_append, string_step h2, if_neg h1, if_neg (by omega),
      ih (fun c hc => hs c (List.mem_cons_of_mem _ hc)) k rest (by simp at hk; omega)]
    rfl

/-! ### Values -/

/-- The text is read as the value if something follows that does not continue a number. -/
def Reads (t : List Char) (v : Value) : Prop :=
  ∀ k c rest, t.length ≤ k → c ∈ [',', '\n', ']'] → value k (t ++ c :: rest) = some (v, c :: rest)

/-- Strings and containers are read whatever follows. -/
def ReadsAlways (t : List Char) (v : Value) : Prop := ∀ k rest, t.length ≤ k → value k (t ++ rest) = some (v, rest)

theorem ReadsAlways.reads {t : List Char} {v : Value} (h : ReadsAlways t v) : Reads t v := fun k _ _ hk _ => h k _ hk

theorem reads_string {s : List Char} (hs : PlainText s) : ReadsAlways ('"' :: (s ++ ['"'])) (.str s) := by
  intro k rest hk
  simp only [List.length_cons, List.length_append] at hk
  obtain ⟨k, rfl⟩ : ∃ j, k = j + 1 := ⟨k - 1, by omega⟩
  rw [List.cons_append, value]
  have e : s ++ ['"'] ++ rest = s ++ '"' :: rest := by simp
  simp only [Char.reduceEq, if_false, if_true, e, string_plain s hs (k + 1) rest (by omega), Option.map_some]

theorem value_number {cs : List Char} {n : Num} {rest : List Char} (h : number cs = some (n, rest)) (k : Nat) :
    value (k + 1) cs = some (.num n, rest) := by
  match cs, h with
  | [], h => simp [number, sign, integerPart] at h
  | c :: cs, h =>
    have hc : c = '-' ∨ isDigit c = true := by
      by_contra hcon
      push Not at hcon
      unfold number at h
      have hs : sign (c :: cs) = (false, c :: cs) := by
        unfold sign
        split
        · next h' => cases h'; exact absurd rfl hcon.1
        · rfl
      rw [hs] at h
      simp only [integerPart] at h
      have h0 : c ≠ '0' := by
        rintro rfl
        exact hcon.2 rfl
      rw [if_neg h0, if_neg hcon.2] at h
      cases h
    rw [value]
    have hne : c ≠ 'n' ∧ c ≠ 't' ∧ c ≠ 'f' ∧ c ≠ '"' ∧ c ≠ '{' ∧ c ≠ '[' := by
      refine ⟨?_, ?_, ?_, ?_, ?_, ?_⟩ <;>
      · rintro rfl
        exact absurd hc (by decide)
    obtain ⟨h1, h2, h3, h4, h5, h6⟩ := hne
    rw [if_neg h1, if_neg h2, if_neg h3, if_neg h4, if_neg h5, if_neg h6, h]
    rfl

theorem number_ne_nil {cs rest : List Char} {n : Num} {c : Char} (hc : c ∈ [',', '\n', ']'])
    (h : number (cs ++ c :: rest) = some (n, c :: rest)) : cs ≠ [] := by
  rintro rfl
  rw [List.nil_append] at h
  rcases List.mem_cons.1 hc with rfl | hc
  · simp [number, sign, integerPart, isDigit] at h
  · rcases List.mem_cons.1 hc with rfl | hc
    · simp [number, sign, integerPart, isDigit] at h
    · rw [List.mem_singleton.1 hc] at h
      simp [number, sign, integerPart, isDigit] at h

theorem reads_number {t : List Char} {n : Num}
    (h : ∀ c rest, c ∈ [',', '\n', ']'] → number (t ++ c :: rest) = some (n, c :: rest)) : Reads t (.num n) := by
  intro k c rest hk hc
  have hne := number_ne_nil hc (h c rest hc)
  obtain ⟨k, rfl⟩ : ∃ j, k = j + 1 := ⟨k - 1, by
    have := List.length_pos_iff.2 hne
    omega⟩
  exact value_number (h c rest hc) k

/-- A text that is read starts with something that is not white space. -/
theorem Reads.solid {t : List Char} {v : Value} (h : Reads t v) (rest : List Char) {c : Char} (hc : c ∈ [',', '\n', ']']) :
    skip (t ++ c :: rest) = t ++ c :: rest ∧ t ≠ [] ∧ (∀ cs, t ++ c :: rest ≠ ']' :: cs) := by
  have hv := h (t.length + 1) c rest (by omega) hc
  match t, hv with
  | [], hv =>
    exfalso
    rw [List.nil_append, value] at hv
    rcases List.mem_cons.1 hc with rfl | hc
    · simp [number, sign, integerPart, isDigit] at hv
    · rcases List.mem_cons.1 hc with rfl | hc
      · simp [number, sign, integerPart, isDigit] at hv
      · rw [List.mem_singleton.1 hc] at hv
        simp [number, sign, integerPart, isDigit] at hv
  | d :: t, hv =>
    rw [List.cons_append] at hv ⊢
    rw [value] at hv
    refine ⟨?_, by simp, ?_⟩
    · rw [skip, if_neg]
      rintro (rfl | rfl | rfl | rfl) <;> simp [number, sign, integerPart, isDigit] at hv
    · intro cs he
      cases he
      simp [number, sign, integerPart, isDigit] at hv

theorem skip_space (cs : List Char) : skip (' ' :: cs) = skip cs := by rw [skip]; simp

theorem skip_newline (cs : List Char) : skip ('\n' :: cs) = skip cs := by rw [skip]; simp

theorem skip_solid {c : Char} (hc : ¬ (c = ' ' ∨ c = '\n' ∨ c = '\r' ∨ c = '\t')) (cs : List Char) : skip (c :: cs) = c :: cs := by
  rw [skip, if_neg hc]

/-- The text of a list, each element after the first preceded by a comma and white space. -/
def rows (sep : Char) (ts : List (List Char)) : List Char := (ts.map fun t => ',' :: sep :: t).flatten

/-- An array with a separator after each comma and possibly a new line before the closing bracket. -/
theorem elements_ok (sep : Char) (hsep : sep = ' ' ∨ sep = '\n') (nl : Bool) (ts : List (List Char × Value))
    (h : ∀ x ∈ ts, Reads x.1 x.2) : ∀ (t : List Char) (v : Value), Reads t v → ∀ (k : Nat) (rest : List Char),
    (t ++ rows sep (ts.map (·.1))).length < k →
    elements k (t ++ (rows sep (ts.map (·.1)) ++ ((if nl then ['\n'] else []) ++ ']' :: rest))) =
      some (v :: ts.map (·.2), rest) := by
  induction ts with
  | nil =>
    intro t v ht k rest hk
    obtain ⟨k, rfl⟩ : ∃ j, k = j + 1 := ⟨k - 1, by omega⟩
    simp only [rows, List.map_nil, List.flatten_nil, List.nil_append, List.append_nil] at hk ⊢
    rw [elements]
    cases nl with
    | true =>
      simp only [if_true, List.cons_append, List.nil_append]
      rw [ht k '\n' _ (by omega) (by simp)]
      simp only [Option.bind_some]
      rw [skip_newline, skip_solid (by decide)]
      rfl
    | false =>
      simp only [Bool.false_eq_true, if_false, List.nil_append]
      rw [ht k ']' _ (by omega) (by simp)]
      simp only [Option.bind_some]
      rw [skip_solid (by decide)]
      rfl
  | cons x ts ih =>
    intro t v ht k rest hk
    obtain ⟨k, rfl⟩ : ∃ j, k = j + 1 := ⟨k - 1, by omega⟩
    obtain ⟨t1, v1⟩ := x
    have h1 := h _ List.mem_cons_self
    have hrow : rows sep ((((t1, v1) :: ts).map (·.1))) = ',' :: sep :: (t1 ++ rows sep (ts.map (·.1))) := by
      simp [rows]
    rw [hrow] at hk ⊢
    rw [elements]
    have e : t ++ (',' :: sep :: (t1 ++ rows sep (ts.map (·.1))) ++ ((if nl then ['\n'] else []) ++ ']' :: rest)) =
        t ++ ',' :: (sep :: (t1 ++ (rows sep (ts.map (·.1)) ++ ((if nl then ['\n'] else []) ++ ']' :: rest)))) := by simp
    rw [e, ht k ',' _ (by simp at hk; omega) (by simp)]
    simp only [Option.bind_some]
    rw [skip_solid (by decide)]
    simp only
    have hskip : skip (sep :: (t1 ++ (rows sep (ts.map (·.1)) ++ ((if nl then ['\n'] else []) ++ ']' :: rest)))) =
        t1 ++ (rows sep (ts.map (·.1)) ++ ((if nl then ['\n'] else []) ++ ']' :: rest)) := by
      have hs : ∀ cs, skip (sep :: cs) = skip cs := by
        rcases hsep with rfl | rfl
        · exact skip_space
        · exact skip_newline
      rw [hs]
      have : ∃ c cs, c ∈ [',', '\n', ']'] ∧
          rows sep (ts.map (·.1)) ++ ((if nl then ['\n'] else []) ++ ']' :: rest) = c :: cs := by
        cases ts with
        | nil => cases nl <;> exact ⟨_, _, by simp, rfl⟩
        | cons y ts => exact ⟨',', _, by simp, rfl⟩
      obtain ⟨c, cs, hc, he⟩ := this
      rw [he]
      exact (h1.solid cs hc).1
    rw [hskip, ih (fun x hx => h x (List.mem_cons_of_mem _ hx)) t1 v1 h1 k rest (by
      simp only [List.length_append, List.length_cons] at hk ⊢
      omega)]
    rfl

/-- A list of numbers in brackets. -/
theorem reads_array (sep : Char) (hsep : sep = ' ' ∨ sep = '\n') (open' nl : Bool) {t : List Char} {v : Value} (ht : Reads t v)
    (ts : List (List Char × Value)) (h : ∀ x ∈ ts, Reads x.1 x.2) :
    ReadsAlways ('[' :: ((if open' then ['\n'] else []) ++ (t ++ (rows sep (ts.map (·.1)) ++
      ((if nl then ['\n'] else []) ++ [']']))))) (.arr (v :: ts.map (·.2))) := by
  intro k rest hk
  simp only [List.length_cons, List.length_append] at hk
  obtain ⟨k, rfl⟩ : ∃ j, k = j + 1 := ⟨k - 1, by omega⟩
  rw [List.cons_append, value]
  have e : (if open' then ['\n'] else []) ++ (t ++ (rows sep (ts.map (·.1)) ++ ((if nl then ['\n'] else []) ++ [']']))) ++ rest =
      (if open' then ['\n'] else []) ++ (t ++ (rows sep (ts.map (·.1)) ++ ((if nl then ['\n'] else []) ++ ']' :: rest))) := by
    simp
  rw [e]
  have hnext : ∃ c cs, c ∈ [',', '\n', ']'] ∧
      rows sep (ts.map (·.1)) ++ ((if nl then ['\n'] else []) ++ ']' :: rest) = c :: cs := by
    cases ts with
    | nil => cases nl <;> exact ⟨_, _, by simp, rfl⟩
    | cons y ts => exact ⟨',', _, by simp, rfl⟩
  obtain ⟨c, cs, hc, he⟩ := hnext
  obtain ⟨s1, s2, s3⟩ := ht.solid cs hc
  have hskip : skip ((if open' then ['\n'] else []) ++ (t ++ (rows sep (ts.map (·.1)) ++
      ((if nl then ['\n'] else []) ++ ']' :: rest)))) =
      t ++ (rows sep (ts.map (·.1)) ++ ((if nl then ['\n'] else []) ++ ']' :: rest)) := by
    rw [he]
    cases open' with
    | true => simp only [if_true, List.cons_append, List.nil_append]; rw [skip_newline, s1]
    | false => simp only [Bool.false_eq_true, if_false, List.nil_append]; exact s1
  have hel := elements_ok sep hsep nl ts h t v ht k rest (by
    rw [List.length_append]
    omega)
  simp only [Char.reduceEq, if_false, if_true, hskip]
  split
  · next h' => rw [he] at h'; exact absurd h' (s3 _)
  · rw [hel]; rfl

/-- The text of the members of an object. -/
def memberText (m : List Char × List Char × Value) : List Char := '"' :: (m.1 ++ ('"' :: ' ' :: ':' :: ' ' :: m.2.1))

theorem members_ok (ms : List (List Char × List Char × Value)) :
    ∀ (m : List Char × List Char × Value), PlainText m.1 → Reads m.2.1 m.2.2 →
    (∀ x ∈ ms, PlainText x.1 ∧ Reads x.2.1 x.2.2) → ∀ (k : Nat) (rest : List Char),
    (memberText m ++ rows '\n' (ms.map memberText)).length < k →
    members k (memberText m ++ (rows '\n' (ms.map memberText) ++ '\n' :: '}' :: rest)) =
      some ((m.1, m.2.2) :: ms.map fun x => (x.1, x.2.2), rest) := by
  induction ms with
  | nil =>
    rintro ⟨n, t, v⟩ hn ht _ k rest hk
    obtain ⟨k, rfl⟩ : ∃ j, k = j + 1 := ⟨k - 1, by omega⟩
    simp only [rows, List.map_nil, List.flatten_nil, List.nil_append, List.append_nil] at hk ⊢
    simp only [memberText, List.length_cons, List.length_append] at hk ⊢
    simp only at hn ht hk
    have e : '"' :: (n ++ '"' :: ' ' :: ':' :: ' ' :: t) ++ '\n' :: '}' :: rest =
        '"' :: (n ++ '"' :: (' ' :: ':' :: ' ' :: (t ++ '\n' :: '}' :: rest))) := by simp
    rw [e, members, string_plain n hn (k + 1) _ (by omega)]
    simp only [Option.bind_some]
    rw [skip_space, skip_solid (by decide)]
    simp only
    rw [skip_space, (ht.solid _ (c := '\n') (by simp)).1, ht k '\n' _ (by omega) (by simp)]
    simp only [Option.bind_some]
    rw [skip_newline, skip_solid (by decide)]
    rfl
  | cons x ms ih =>
    rintro ⟨n, t, v⟩ hn ht hms k rest hk
    obtain ⟨k, rfl⟩ : ∃ j, k = j + 1 := ⟨k - 1, by omega⟩
    obtain ⟨hx1, hx2⟩ := hms x List.mem_cons_self
    have hrow : rows '\n' ((x :: ms).map memberText) = ',' :: '\n' :: (memberText x ++ rows '\n' (ms.map memberText)) := by
      simp [rows]
    rw [hrow] at hk ⊢
    simp only at hn ht
    have e : memberText (n, t, v) ++ (',' :: '\n' :: (memberText x ++ rows '\n' (ms.map memberText)) ++ '\n' :: '}' :: rest) =
        '"' :: (n ++ '"' :: (' ' :: ':' :: ' ' :: (t ++ ',' ::
          ('\n' :: (memberText x ++ (rows '\n' (ms.map memberText) ++ '\n' :: '}' :: rest)))))) := by
      simp [memberText]
    simp only [memberText, List.length_cons, List.length_append] at hk
    rw [e, members, string_plain n hn (k + 1) _ (by omega)]
    simp only [Option.bind_some]
    rw [skip_space, skip_solid (by decide)]
    simp only
    rw [skip_space, (ht.solid _ (c := ',') (by simp)).1, ht k ',' _ (by omega) (by simp)]
    simp only [Option.bind_some]
    rw [skip_solid (by decide)]
    simp only
    have hskip : skip ('\n' :: (memberText x ++ (rows '\n' (ms.map memberText) ++ '\n' :: '}' :: rest))) =
        memberText x ++ (rows '\n' (ms.map memberText) ++ '\n' :: '}' :: rest) := by
      rw [skip_newline]
      unfold memberText
      rw [List.cons_append, skip_solid (by decide)]
    rw [hskip, ih x hx1 hx2 (fun y hy => hms y (List.mem_cons_of_mem _ hy)) k rest (by
      simp only [memberText, List.length_append, List.length_cons]
      omega)]
    rfl

/-- An object whose members are on lines of their own. -/
theorem reads_object (nl : Bool) (m : List Char × List Char × Value) (hm1 : PlainText m.1) (hm2 : Reads m.2.1 m.2.2)
    (ms : List (List Char × List Char × Value)) (hms : ∀ x ∈ ms, PlainText x.1 ∧ Reads x.2.1 x.2.2) :
    ReadsAlways ('{' :: ((if nl then ['\n'] else []) ++ (memberText m ++ (rows '\n' (ms.map memberText) ++ ['\n', '}']))))
      (.obj ((m.1, m.2.2) :: ms.map fun x => (x.1, x.2.2))) := by
  intro k rest hk
  simp only [List.length_cons, List.length_append] at hk
  obtain ⟨k, rfl⟩ : ∃ j, k = j + 1 := ⟨k - 1, by omega⟩
  rw [List.cons_append, value]
  have e : (if nl then ['\n'] else []) ++ (memberText m ++ (rows '\n' (ms.map memberText) ++ ['\n', '}'])) ++ rest =
      (if nl then ['\n'] else []) ++ (memberText m ++ (rows '\n' (ms.map memberText) ++ '\n' :: '}' :: rest)) := by simp
  have hskip : skip ((if nl then ['\n'] else []) ++ (memberText m ++ (rows '\n' (ms.map memberText) ++ '\n' :: '}' :: rest))) =
      memberText m ++ (rows '\n' (ms.map memberText) ++ '\n' :: '}' :: rest) := by
    cases nl with
    | true =>
      simp only [if_true, List.cons_append, List.nil_append]
      rw [skip_newline]
      unfold memberText
      rw [List.cons_append, skip_solid (by decide)]
    | false =>
      simp only [Bool.false_eq_true, if_false, List.nil_append]
      unfold memberText
      rw [List.cons_append, skip_solid (by decide)]
  have hmem := members_ok ms m hm1 hm2 hms k rest (by
    rw [List.length_append]
    omega)
  rw [e]
  simp only [Char.reduceEq, if_false, if_true, hskip]
  split
  · next h' =>
    unfold memberText at h'
    cases h'
  · rw [hmem]; rfl

/-- An object with one member that ends right after it. -/
theorem reads_wrapped {n t : List Char} {v : Value} (hn : PlainText n) (ht : ReadsAlways t v) (hsolid : ∀ rest, skip (t ++ rest) = t ++ rest) :
    ReadsAlways ('{' :: (memberText (n, t, v) ++ ['}'])) (.obj [(n, v)]) := by
  intro k rest hk
  simp only [memberText, List.length_cons, List.length_append] at hk
  obtain ⟨k, rfl⟩ : ∃ j, k = j + 1 := ⟨k - 1, by omega⟩
  obtain ⟨k, rfl⟩ : ∃ j, k = j + 1 := ⟨k - 1, by omega⟩
  rw [List.cons_append, value]
  have e : memberText (n, t, v) ++ ['}'] ++ rest = '"' :: (n ++ '"' :: (' ' :: ':' :: ' ' :: (t ++ '}' :: rest))) := by
    simp [memberText]
  rw [e]
  have hskip : ∀ cs, skip ('"' :: cs) = '"' :: cs := fun cs => skip_solid (by decide) cs
  simp only [Char.reduceEq, if_false, if_true, hskip]
  have hm : members (k + 1) ('"' :: (n ++ '"' :: (' ' :: ':' :: ' ' :: (t ++ '}' :: rest)))) = some ([(n, v)], rest) := by
    rw [members, string_plain n hn (k + 1) _ (by omega)]
    simp only [Option.bind_some]
    rw [skip_space, skip_solid (by decide)]
    simp only
    rw [skip_space, hsolid, ht k _ (by omega)]
    simp only [Option.bind_some]
    rw [skip_solid (by decide)]
    rfl
  split
  · next h' => cases h'
  · rw [hm]; rfl

end Json
end Theia
