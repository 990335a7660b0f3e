import Mathlib.Data.Rat.Floor
import Verif.Base.Outcome

/-!
# Samplers of the sample consensus framework

Models `/repo/src/theia/solvers/random_sampler.cc`, `exhaustive_sampler.cc` and `prosac_sampler.cc`.
Random numbers (`RandomNumberGenerator::RandInt`, util/random.cc:80-84) are arguments: a list of the
numbers drawn, in order. Reading a vector out of range is `Outcome.ub`.
-/

namespace Theia

namespace RandomSampler

/-- `std::swap(v[i], v[j])`. -/
def swapAt (l : List Nat) (i j : Nat) : Outcome (List Nat) :=
  match l[i]?, l[j]? with
  | some a, some b => .ok ((l.set i b).set j a)
  | _, _ => .ub

/-- `RandomSampler::Initialize` (random_sampler.cc:53-58): the indices, or abort. -/
def init (minNumSamples numDatapoints : Nat) : Outcome (List Nat) :=
  if numDatapoints ≥ minNumSamples then .ok (List.range numDatapoints) else .abort

/-- `RandomSampler::Sample` (random_sampler.cc:62-72) from iteration `i` on, with one random number
per iteration. Returns the sample and the stored indices. -/
def sampleFrom (i : Nat) : List Nat → List Nat → Outcome (List Nat × List Nat)
  | [], indices => .ok ([], indices)
  | r :: rs, indices =>
    match swapAt indices i r with
    | .abort => .abort
    | .ub => .ub
    | .ok indices =>
      match indices[i]? with
      | none => .ub
      | some x =>
        match sampleFrom (i + 1) rs indices with
        | .abort => .abort
        | .ub => .ub
        | .ok (xs, indices) => .ok (x :: xs, indices)

/-- Successive calls of `Sample` on one sampler; `draws` holds the random numbers of each call. -/
def samples : List (List Nat) → List Nat → Outcome (List (List Nat))
  | [], _ => .ok []
  | d :: ds, indices =>
    match sampleFrom 0 d indices with
    | .abort => .abort
    | .ub => .ub
    | .ok (s, indices) =>
      match samples ds indices with
      | .abort => .abort
      | .ub => .ub
      | .ok ss => .ok (s :: ss)

end RandomSampler

/-- The members `i_`, `j_` and `num_datapoints_` of `ExhaustiveSampler` (exhaustive_sampler.h). -/
structure ExhaustiveSampler where
  i : Nat
  j : Nat
  numDatapoints : Nat
deriving DecidableEq, Repr

namespace ExhaustiveSampler

/-- `Initialize` (exhaustive_sampler.cc:54-58); it leaves `i_` and `j_` alone. The constructor
(exhaustive_sampler.cc:45-52) sets them to 0 and 1 and requires samples of size two. -/
def init (s : ExhaustiveSampler) (numDatapoints : Nat) : Outcome ExhaustiveSampler :=
  if numDatapoints ≥ 2 then .ok { s with numDatapoints := numDatapoints } else .abort

/-- `Sample` (exhaustive_sampler.cc:61-78): the pair and the new state. -/
def sample (s : ExhaustiveSampler) : (Nat × Nat) × ExhaustiveSampler :=
  let j := s.j + 1
  ((s.i, s.j),
    if j ≥ s.numDatapoints then
      let i := s.i + 1
      let i := if i ≥ s.numDatapoints - 1 then 0 else i
      ⟨i, i + 1, s.numDatapoints⟩
    else ⟨s.i, j, s.numDatapoints⟩)

/-- The results of `k` successive calls of `Sample`, and the state afterwards. -/
def samples : Nat → ExhaustiveSampler → List (Nat × Nat) × ExhaustiveSampler
  | 0, s => ([], s)
  | k + 1, s =>
    let r := s.sample
    let q := samples k r.2
    (r.1 :: q.1, q.2)

end ExhaustiveSampler

namespace ProsacSampler

/-- `t_n` before the growth loop (prosac_sampler.cc:69-74), in exact arithmetic, for
`numDatapoints ≥ minNumSamples` so that no divisor is zero. -/
def initialTn (m numDatapoints : Nat) : ℚ :=
  (List.range m).foldl (fun t i => t * (((m : ℚ) - i) / ((numDatapoints : ℚ) - i))) 20000

/-- One round of the growth loop (prosac_sampler.cc:79-84). -/
def growStep (m numDatapoints : Nat) (s : Nat × ℚ × ℚ) (t : Nat) : Nat × ℚ × ℚ :=
  if s.2.2 < (t : ℚ) ∧ s.1 < numDatapoints then
    let plus1 := (s.2.1 * ((s.1 : ℚ) + 1)) / ((s.1 : ℚ) + 1 - m)
    (s.1 + 1, plus1, s.2.2 + (⌈plus1 - s.2.1⌉ : ℤ))
  else s

/-- The growth loop (prosac_sampler.cc:76-85): `n`, `t_n` and `t_n_prime` for the `k`-th sample. -/
def grow (m numDatapoints k : Nat) : Nat × ℚ × ℚ :=
  ((List.range k).map (· + 1)).foldl (growStep m numDatapoints) (m, initialTn m numDatapoints, 1)

/-- The rejection loop (prosac_sampler.cc:92-97, 109-114): the first number drawn which is not used
yet and the numbers left; `none` while all numbers drawn so far were rejected. -/
def reject (used : List Nat) : List Nat → Option (Nat × List Nat)
  | [] => none
  | r :: rs => if r ∈ used then reject used rs else some (r, rs)

/-- `count` rounds of drawing an unused number (prosac_sampler.cc:90-103, 107-119). -/
def drawUnique : Nat → List Nat → List Nat → Option (List Nat)
  | 0, used, _ => some used
  | count + 1, used, draws =>
    match reject used draws with
    | none => none
    | some (r, draws) => drawUnique count (used ++ [r]) draws

/-- The two cases of `Sample` (prosac_sampler.cc:87): whether the whole sample is drawn at random. -/
def allRandom (m numDatapoints k : Nat) : Bool :=
  decide ((grow m numDatapoints k).2.2 < (k : ℚ))

/-- The largest number the random generator may return in a call (prosac_sampler.cc:95, 112), plus
one. -/
def drawBound (m numDatapoints k : Nat) : Nat :=
  if allRandom m numDatapoints k then (grow m numDatapoints k).1 else (grow m numDatapoints k).1 - 1

/-- `ProsacSampler::Sample` (prosac_sampler.cc:67-128) with `kth_sample_number_ = k` and minimum
sample size `m` at least one; `none` as long as the rejection loops have not ended with the numbers
given. -/
def sample (m numDatapoints k : Nat) (draws : List Nat) : Option (List Nat) :=
  if allRandom m numDatapoints k then drawUnique m [] draws
  else (drawUnique (m - 1) [] draws).map fun used => used ++ [(grow m numDatapoints k).1]

end ProsacSampler

end Theia
