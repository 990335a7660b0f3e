import Verif.Base.Outcome

/-!
# Formatted strings

Models `src/theia/util/stringprintf.cc` as compiled by other compilers than Microsoft's. What a format and its arguments
make is a parameter: an error, or a text.
-/

namespace Theia
namespace Printf

/-- The largest `int`. -/
def intMax : Int := 2147483647

/-- What the format and the arguments make (stringprintf.cc:61, 92): `none` is an encoding error. -/
abbrev Formatted := Option (List Char)

/-- `vsnprintf` of the C library (called at stringprintf.cc:61 and 92): the returned number and the characters written
before the closing zero. It is negative for an error and for a length that is no `int`. -/
def vsnprintf (size : Nat) (f : Formatted) : Int × List Char :=
  match f with
  | none => (-1, [])
  | some s => if (s.length : Int) ≤ intMax then (s.length, s.take (size - 1)) else (-1, s.take (size - 1))

/-- An `int` as a `size_t`, to which the comparison at stringprintf.cc:64 converts it. -/
def toUnsigned (x : Int) : Int := if x < 0 then 18446744073709551616 + x else x

/-- `dst->append(buffer, n)` (stringprintf.cc:67, 97): reading more than was written is undefined. -/
def append (dst buffer : List Char) (n : Int) : Outcome (List Char) :=
  if n.toNat ≤ buffer.length then .ok (dst ++ buffer.take n.toNat) else .ub

/-- `StringAppendV` (stringprintf.cc:52-100). -/
def stringAppendV (dst : List Char) (f : Formatted) : Outcome (List Char) :=
  let first := vsnprintf 1024 f
  if toUnsigned first.1 < 1024 then
    if first.1 ≥ 0 then append dst first.2 first.1 else .ok dst
  else if first.1 = intMax then .ub
  else
    let length := first.1 + 1
    if length < 0 then .abort
    else
      let second := vsnprintf length.toNat f
      if second.1 ≥ 0 ∧ second.1 < length then append dst second.2 second.1 else .ok dst

/-- `StringPrintf` (stringprintf.cc:102-109). -/
def stringPrintf (f : Formatted) : Outcome (List Char) := stringAppendV [] f

end Printf
end Theia
