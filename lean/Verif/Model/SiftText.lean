import Mathlib.Data.Rat.Defs
import Mathlib.Algebra.Order.Field.Rat
import Verif.Base.Outcome

/-!
# Reading SIFT features from a text file

Models `src/theia/io/sift_text_file.cc`. A file is a list of lines and a line a list of words. A word is an
integer, a number with a fraction, or something that is not a number. Simplified: `%d` and `%hhu` reject a
number with a fraction (the C library reads the integer before the point and then fails at the point), words
that begin like a number and go on otherwise are not numbers, and no line has more than 1023 characters.
Floats are rationals.
-/

namespace Theia
namespace SiftText

/-- A word of the file (sift_text_file.cc:52-58, the format). -/
inductive Word where
  | int (z : Int)
  | frac (q : ℚ)
  | other
  deriving DecidableEq

/-- What is left of the file; the first line can be partly read. -/
abbrev File := List (List Word)

/-- The next word for `fscanf`, which skips white space and ends of lines (sift_text_file.cc:73, 86). -/
def next : File → Option (Word × File)
  | [] => none
  | [] :: ls => next ls
  | (w :: ws) :: ls => some (w, ws :: ls)

/-- White space in the format of `fscanf` (sift_text_file.cc:86, the `\n`). -/
def skip : File → File
  | [] => []
  | [] :: ls => skip ls
  | (w :: ws) :: ls => (w :: ws) :: ls

/-- `%d` (sift_text_file.cc:73). -/
def readInt (f : File) : Option (Int × File) :=
  match next f with
  | some (.int z, g) => some (z, g)
  | _ => none

/-- `%f` (sift_text_file.cc:86). -/
def readFloat (f : File) : Option (ℚ × File) :=
  match next f with
  | some (.int z, g) => some ((z : ℚ), g)
  | some (.frac q, g) => some (q, g)
  | _ => none

/-- A `Keypoint` of type SIFT (sift_text_file.cc:91-93). -/
structure Kp where
  x : ℚ
  y : ℚ
  scale : ℚ
  orientation : ℚ
  deriving DecidableEq

/-- `fscanf(fp, "%f %f %f %f\n", &y, &x, &scale, &ori)` (sift_text_file.cc:84-94): the row comes first. -/
def readKeypoint (f : File) : Option (Kp × File) := do
  let (y, f) ← readFloat f
  let (x, f) ← readFloat f
  let (scale, f) ← readFloat f
  let (ori, f) ← readFloat f
  some (⟨x, y, scale, ori⟩, skip f)

/-- `sscanf(buf, "%hhu ...", p + 0, ...)` for `n` numbers (sift_text_file.cc:101-105, 110-111): it stops at the
first word that is not an integer; the bytes from there on keep what was in memory. An integer is stored
modulo 256. `junk` gives the bytes in memory from the position on. -/
def scan : Nat → List Word → (Nat → Nat) → List Nat
  | 0, _, _ => []
  | n + 1, .int z :: ws, junk => (z % 256).toNat :: scan n ws (fun i => junk (i + 1))
  | n + 1, _, junk => (List.range (n + 1)).map junk

/-- The six lines of twenty numbers (sift_text_file.cc:99-108). -/
def readRows : Nat → File → (Nat → Nat) → Outcome (List Nat × File)
  | 0, f, _ => .ok ([], f)
  | _ + 1, [], _ => .abort
  | n + 1, l :: ls, junk => do
    let r ← readRows n ls (fun i => junk (i + 20))
    .ok (scan 20 l junk ++ r.1, r.2)

/-- The bytes of a descriptor (sift_text_file.cc:96-111). -/
def readBytes (f : File) (junk : Nat → Nat) : Outcome (List Nat × File) := do
  let r ← readRows 6 f junk
  match r.2 with
  | [] => .abort
  | l :: ls => .ok (r.1 ++ scan 8 l (fun i => junk (i + 120)), ls)

/-- The output vectors (sift_text_file.cc:61-62). -/
structure Out where
  keypoints : List Kp
  descriptors : List (List ℚ)
  deriving DecidableEq

/-- The loop (sift_text_file.cc:83-116); `junk k` is the memory of the `k`-th descriptor counted from the end. -/
def loop (junk : Nat → Nat → Nat) : Nat → File → Out → Outcome (Bool × Out)
  | 0, _, out => .ok (true, out)
  | n + 1, f, out =>
    match readKeypoint f with
    | none => .ok (false, out)
    | some (kp, f) => do
      let r ← readBytes f (junk n)
      loop junk n r.2 ⟨out.keypoints ++ [kp], out.descriptors ++ [r.1.map (fun b : Nat => (b : ℚ) / 255)]⟩

/-- `ReadSiftKeyTextFile` (sift_text_file.cc:61-120); `none` is a file that cannot be opened and `wanted` says
whether the pointer to the keypoints is not null. Reserving a negative number of entries throws. -/
def readFile (junk : Nat → Nat → Nat) (wanted : Bool) (file : Option File) : Outcome (Bool × Out) :=
  if !wanted then .abort else
  match file with
  | none => .ok (false, ⟨[], []⟩)
  | some f =>
    match readInt f with
    | none => .ok (false, ⟨[], []⟩)
    | some (num, f) =>
      match readInt f with
      | none => .ok (false, ⟨[], []⟩)
      | some (len, f) =>
        if len ≠ 128 then .abort
        else if num < 0 then .abort
        else loop junk num.toNat f ⟨[], []⟩

end SiftText
end Theia
