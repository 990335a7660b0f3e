import Mathlib.Algebra.Order.Field.Rat
import Mathlib.Data.Nat.Digits.Defs
import Verif.Base.Outcome

/-!
# Model of the JSON reader (libraries/cereal/include/cereal/external/rapidjson/reader.h, document.h)

Texts are lists of characters. The reader recurses without a bound; here it has fuel, and the length of the text is enough.
Numbers are exact rationals, of any size; `nan` and `inf`, which this copy of the reader accepts, are not numbers here.
-/

namespace Theia
namespace Json

/-- The characters of a string literal. -/
syntax "chars!" str : term

macro_rules
  | `(chars! $s) => do
    let cs : Array (Lean.TSyntax `term) := (s.getString.toList.map fun c => ⟨Lean.Syntax.mkCharLit c⟩).toArray
    `([$cs,*])

/-- A number: its value, `IsInt()` and `IsDouble()`. -/
structure Num where
  value : ℚ
  isInt : Bool
  isDouble : Bool
  deriving DecidableEq

/-- A value of a document. -/
inductive Value where
  | null
  | bool (b : Bool)
  | num (n : Num)
  | str (s : List Char)
  | arr (vs : List Value)
  | obj (ms : List (List Char × Value))

/-- `SkipWhitespace` (reader.h:262-269). -/
def skip : List Char → List Char
  | [] => []
  | c :: cs => if c = ' ' ∨ c = '\n' ∨ c = '\r' ∨ c = '\t' then skip cs else c :: cs

def isDigit (c : Char) : Bool := 48 ≤ c.toNat && c.toNat ≤ 57

/-- The digits at the start of a text and what follows. -/
def takeDigits : List Char → List Nat × List Char
  | [] => ([], [])
  | c :: cs => if isDigit c then ((c.toNat - 48) :: (takeDigits cs).1, (takeDigits cs).2) else ([], c :: cs)

/-- The number with the given digits. -/
def digitsValue (ds : List Nat) : Nat := ds.foldl (fun a d => 10 * a + d) 0

/-- The integer part (reader.h:1150-1190): a single zero or digits without a leading zero. -/
def integerPart : List Char → Option (Nat × List Char)
  | [] => none
  | c :: cs =>
    if c = '0' then some (0, cs)
    else if isDigit c then some (digitsValue (takeDigits (c :: cs)).1, (takeDigits (c :: cs)).2)
    else none

/-- The fraction (reader.h:1231-1277): whether there is one and its value; at least one digit has to follow the point. -/
def fraction : List Char → Option (Bool × ℚ × List Char)
  | '.' :: cs =>
    if (takeDigits cs).1 = [] then none
    else some (true, (digitsValue (takeDigits cs).1 : ℚ) / 10 ^ (takeDigits cs).1.length, (takeDigits cs).2)
  | cs => some (false, 0, cs)

/-- The digits of the exponent. -/
def exponentDigits (cs : List Char) : Option (Nat × List Char) :=
  if (takeDigits cs).1 = [] then none else some (digitsValue (takeDigits cs).1, (takeDigits cs).2)

/-- The sign and the digits of the exponent (reader.h:1287-1318). -/
def signedExponent : List Char → Option (Int × List Char)
  | '+' :: cs => (exponentDigits cs).map fun x => ((x.1 : Int), x.2)
  | '-' :: cs => (exponentDigits cs).map fun x => (-(x.1 : Int), x.2)
  | cs => (exponentDigits cs).map fun x => ((x.1 : Int), x.2)

/-- The exponent (reader.h:1279-1318): whether there is one and its value. The limit on the size of a number is not
modelled. -/
def exponent : List Char → Option (Bool × Int × List Char)
  | 'e' :: cs => (signedExponent cs).map fun x => (true, x.1, x.2)
  | 'E' :: cs => (signedExponent cs).map fun x => (true, x.1, x.2)
  | cs => some (false, 0, cs)

/-- `Consume(s, '-')`. -/
def sign : List Char → Bool × List Char
  | '-' :: cs => (true, cs)
  | cs => (false, cs)

/-- The type of a number (reader.h:1355-1376, document.h:632-671, 1818-1822): `IsInt()` for an integer of 32 bits, `IsDouble()` with a
fraction or an exponent and for integers of more than 64 bits. -/
def classify (minus : Bool) (n : Nat) (isReal : Bool) (value : ℚ) : Num :=
  if isReal then ⟨value, false, true⟩
  else if minus then ⟨value, decide (n ≤ 2 ^ 31), decide (2 ^ 63 < n)⟩
  else ⟨value, decide (n < 2 ^ 31), decide (2 ^ 64 ≤ n)⟩

/-- `ParseNumber` (reader.h:1135-1383). -/
def number (cs : List Char) : Option (Num × List Char) := do
  let (minus, cs) := sign cs
  let (n, cs) ← integerPart cs
  let (isFrac, f, cs) ← fraction cs
  let (isExp, e, cs) ← exponent cs
  let v : ℚ := ((n : ℚ) + f) * (10 : ℚ) ^ e
  some (classify minus n (isFrac || isExp) (if minus then -v else v), cs)

def hexDigit (c : Char) : Option Nat :=
  if isDigit c then some (c.toNat - 48)
  else if 65 ≤ c.toNat && c.toNat ≤ 70 then some (c.toNat - 55)
  else if 97 ≤ c.toNat && c.toNat ≤ 102 then some (c.toNat - 87)
  else none

/-- `ParseHex4` (reader.h:757-777). -/
def hex4 : List Char → Option (Nat × List Char)
  | a :: b :: c :: d :: cs => do
    let a ← hexDigit a
    let b ← hexDigit b
    let c ← hexDigit c
    let d ← hexDigit d
    some (((a * 16 + b) * 16 + c) * 16 + d, cs)
  | _ => none

/-- The character escaped by a letter (reader.h:846-853). -/
def escaped (c : Char) : Option Char :=
  if c = '"' then some '"'
  else if c = '/' then some '/'
  else if c = '\\' then some '\\'
  else if c = 'b' then some (Char.ofNat 8)
  else if c = 'f' then some (Char.ofNat 12)
  else if c = 'n' then some '\n'
  else if c = 'r' then some '\r'
  else if c = 't' then some '\t'
  else none

/-- The code point after `\u` (reader.h:873-888). A low surrogate without a high one, for which the reader writes bytes that
are not UTF-8, is rejected here. -/
def unicode (cs : List Char) : Option (Char × List Char) := do
  let (n, cs) ← hex4 cs
  if 0xD800 ≤ n ∧ n ≤ 0xDBFF then
    match cs with
    | '\\' :: 'u' :: cs => do
      let (m, cs) ← hex4 cs
      if m < 0xDC00 ∨ 0xDFFF < m then none else some (Char.ofNat (0x10000 + (n - 0xD800) * 0x400 + (m - 0xDC00)), cs)
    | _ => none
  else if 0xDC00 ≤ n ∧ n ≤ 0xDFFF then none
  else some (Char.ofNat n, cs)

/-- `ParseStringToStream` (reader.h:842-914) after the opening quote. -/
def string : Nat → List Char → Option (List Char × List Char)
  | 0, _ => none
  | _, [] => none
  | k + 1, c :: cs =>
    if c = '\\' then
      match cs with
      | [] => none
      | e :: cs =>
        match escaped e with
        | some x => (string k cs).map fun r => (x :: r.1, r.2)
        | none => if e = 'u' then (unicode cs).bind fun u => (string k u.2).map fun r => (u.1 :: r.1, r.2) else none
    else if c = '"' then some ([], cs)
    else if c.toNat < 32 then none
    else (string k cs).map fun r => (c :: r.1, r.2)

/-- A keyword (reader.h:699-753). -/
def keyword (word : List Char) (v : Value) (cs : List Char) : Option (Value × List Char) :=
  if word.isPrefixOf cs then some (v, cs.drop word.length) else none

mutual

/-- `ParseValue` (reader.h:1386-1396). -/
def value : Nat → List Char → Option (Value × List Char)
  | 0, _ => none
  | _, [] => none
  | k + 1, c :: cs =>
    if c = 'n' then keyword (chars! "null") .null (c :: cs)
    else if c = 't' then keyword (chars! "true") (.bool true) (c :: cs)
    else if c = 'f' then keyword (chars! "false") (.bool false) (c :: cs)
    else if c = '"' then (string (k + 1) cs).map fun r => (.str r.1, r.2)
    else if c = '{' then
      match skip cs with
      | '}' :: rest => some (.obj [], rest)
      | rest => (members k rest).map fun r => (.obj r.1, r.2)
    else if c = '[' then
      match skip cs with
      | ']' :: rest => some (.arr [], rest)
      | rest => (elements k rest).map fun r => (.arr r.1, r.2)
    else (number (c :: cs)).map fun r => (.num r.1, r.2)

/-- The loop of `ParseObject` (reader.h:604-652). -/
def members : Nat → List Char → Option (List (List Char × Value) × List Char)
  | 0, _ => none
  | k + 1, '"' :: cs =>
    (string (k + 1) cs).bind fun n =>
      match skip n.2 with
      | ':' :: cs =>
        (value k (skip cs)).bind fun v =>
          match skip v.2 with
          | ',' :: cs => (members k (skip cs)).map fun r => ((n.1, v.1) :: r.1, r.2)
          | '}' :: cs => some ([(n.1, v.1)], cs)
          | _ => none
      | _ => none
  | _ + 1, _ => none

/-- The loop of `ParseArray` (reader.h:671-697). -/
def elements : Nat → List Char → Option (List Value × List Char)
  | 0, _ => none
  | k + 1, cs =>
    (value k cs).bind fun v =>
      match skip v.2 with
      | ',' :: cs => (elements k (skip cs)).map fun r => (v.1 :: r.1, r.2)
      | ']' :: cs => some ([v.1], cs)
      | _ => none

end

/-- `Document::Parse` (reader.h:483-512): the document is null after an error. A text ends at a zero. -/
def parse (cs : List Char) : Value :=
  match value (cs.length + 1) (skip (cs.takeWhile fun c => decide (c.toNat ≠ 0))) with
  | some (v, rest) => if skip rest = [] then v else .null
  | none => .null

/-- `FindMember` (document.h:1123-1150): the first member with this name. -/
def lookup (name : List Char) : List (List Char × Value) → Option Value
  | [] => none
  | (k, v) :: ms => if k = name then some v else lookup name ms

/-- `out << n` for an integer. -/
def natText (n : Nat) : List Char := if n = 0 then ['0'] else ((Nat.digits 10 n).map fun d => Char.ofNat (48 + d)).reverse

def intText : Int → List Char
  | .ofNat n => natText n
  | .negSucc n => '-' :: natText (n + 1)

end Json
end Theia
