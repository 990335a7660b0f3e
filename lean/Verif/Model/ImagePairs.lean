import Mathlib.Data.List.Sort
import Mathlib.Logic.Function.Basic
import Mathlib.Order.Defs.LinearOrder
import Verif.Base.Outcome

/-!
# Selecting image pairs by global descriptors

Models `FeatureExtractorAndMatcher::SelectImagePairsWithGlobalDescriptorMatching`
(src/theia/sfm/feature_extractor_and_matcher.cc:352-440), from the descriptors on.

`score i j`, for `i < j`, is the squared distance of global descriptors `i` and `j`. The vectors and maps
indexed by image are functions; `operator[]` of the map gives empty sets for images not seen before, and the
order of the sets and of the map does not matter because the result is sorted. `std::partial_sort` is a
parameter.
-/

namespace Theia
namespace ImagePairs

variable {K N : Type} [LinearOrder K]

/-- The working data: the scores collected for each image (line 379), and the ranked and expanded matches of
each image (lines 67-70, 374). -/
structure State (K : Type) where
  scores : Nat → List (K × Nat)
  ranked : Nat → List Nat
  expanded : Nat → List Nat

/-- Nothing collected yet. -/
def State.empty : State K := ⟨fun _ => [], fun _ => [], fun _ => []⟩

/-- `emplace_back` for one image. -/
def push (f : Nat → List (K × Nat)) (i : Nat) (x : K × Nat) : Nat → List (K × Nat) :=
  Function.update f i (f i ++ [x])

/-- `insert` into the set of one image. -/
def insertAt (f : Nat → List Nat) (i x : Nat) : Nat → List Nat :=
  Function.update f i (if x ∈ f i then f i else f i ++ [x])

/-- The loop over the later images (feature_extractor_and_matcher.cc:383-389). -/
def scoreLoop (score : Nat → Nat → K) (i : Nat) : List Nat → (Nat → List (K × Nat)) → (Nat → List (K × Nat))
  | [], f => f
  | j :: js, f => scoreLoop score i js (push (push f i (score i j, j)) j (score i j, i))

/-- One of the nearest neighbours (feature_extractor_and_matcher.cc:398-408). -/
def link (i second : Nat) (st : State K) : State K :=
  { scores := st.scores
    ranked := insertAt (insertAt st.ranked i second) second i
    expanded := (st.ranked second).foldl (fun e nb => insertAt e nb i) st.expanded }

/-- One turn of the outer loop (feature_extractor_and_matcher.cc:381-414) for `n` images and `k` neighbours.
`ps k` is `std::partial_sort` with the middle at `k`; a middle outside of the range is undefined. -/
def imageStep (ps : Nat → List (K × Nat) → List (K × Nat)) (score : Nat → Nat → K) (n : Nat) (k : Int) (i : Nat)
    (st : State K) : Outcome (State K) :=
  let scores := scoreLoop score i (List.range' (i + 1) (n - (i + 1))) st.scores
  if k < 0 ∨ (scores i).length < k then .ub
  else
    let row := ps k.toNat (scores i)
    let st := (row.take k.toNat).foldl (fun st x => link i x.2 st) { st with scores := scores }
    .ok { st with scores := Function.update st.scores i [] }

/-- The outer loop (feature_extractor_and_matcher.cc:381-414). -/
def imageLoop (ps : Nat → List (K × Nat) → List (K × Nat)) (score : Nat → Nat → K) (n : Nat) (k : Int) :
    List Nat → State K → Outcome (State K)
  | [], st => .ok st
  | i :: is, st =>
    match imageStep ps score n k i st with
    | .abort => .abort
    | .ub => .ub
    | .ok st => imageLoop ps score n k is st

/-- The pairs of positions collected (feature_extractor_and_matcher.cc:420-432). -/
def collect (n : Nat) (st : State K) : List (Nat × Nat) :=
  (List.range n).flatMap (fun a =>
    ((st.ranked a).filter (fun b => decide (a < b)) ++ (st.expanded a).filter (fun b => decide (a < b))).map
      (fun b => (a, b)))

/-- The names at a pair of positions. -/
def namePair (names : List N) (p : Nat × Nat) : Option (N × N) :=
  match names[p.1]?, names[p.2]? with
  | some a, some b => some (a, b)
  | _, _ => none

/-- `operator<` of pairs of names, not strictly. -/
def nameLe [LinearOrder N] (a b : N × N) : Prop := a.1 < b.1 ∨ (a.1 = b.1 ∧ a.2 ≤ b.2)

instance [LinearOrder N] : DecidableRel (nameLe (N := N)) := fun _ _ => inferInstanceAs (Decidable (_ ∨ _))

/-- `std::unique` with `erase` (line 436): removes an element equal to the one before. -/
def unique [DecidableEq N] : List N → List N
  | [] => []
  | [a] => [a]
  | a :: b :: l => if a = b then unique (b :: l) else a :: unique (b :: l)

/-- The whole selection (feature_extractor_and_matcher.cc:369-439), for the images `names` and the option
`num_nearest_neighbors_for_global_descriptor_matching`: the pairs given to the matcher. -/
def select [LinearOrder N] (ps : Nat → List (K × Nat) → List (K × Nat)) (score : Nat → Nat → K) (names : List N)
    (option : Int) : Outcome (List (N × N)) :=
  let n := names.length
  let k := min ((n : Int) - 1) option
  match imageLoop ps score n k (List.range n) State.empty with
  | .abort => .abort
  | .ub => .ub
  | .ok st =>
    match (collect n st).mapM (namePair names) with
    | none => .ub
    | some l => .ok (unique (l.insertionSort nameLe))

end ImagePairs
end Theia
