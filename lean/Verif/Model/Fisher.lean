import Mathlib.Data.Rat.Defs
import Verif.Model.Reservoir

/-!
# Fisher vectors

Models `src/theia/matching/fisher_vector_extractor.cc`. What VLFeat computes is a parameter: `cluster` fits the mixture
to the features and is `none` if the distortion is not a number, `encode` fills the entries of the Fisher vector. The
random numbers of the reservoir sampler are a function of the number of features added before. For at least one cluster.
-/

namespace Theia
namespace Fisher

/-- A feature (fisher_vector_extractor.cc:104-110); `none` is an entry that is not a number. -/
abbrev Feature := List (Option ℚ)

/-- VLFeat's `vl_gmm_cluster` and `vl_fisher_encode` (fisher_vector_extractor.cc:73-80, 138-149): the second gets the
dimension and the number of clusters. Whether VLFeat can fit more clusters than there are features is left open. The
check that the sum is finite, in debug builds only, is not modelled. -/
structure VL (G : Type) where
  cluster : Nat → List Feature → Option G
  encode : G → (d k : Nat) → List Feature → Fin (2 * d * k) → ℚ

/-- The members of the extractor (fisher_vector_extractor.h:87-94; fisher_vector_extractor.cc:91-95). The mixture is `none` before the first training;
its dimension is kept with it. -/
structure State (G : Type) where
  clusters : Nat
  sampler : Reservoir Feature
  gmm : Option (Nat × G)

/-- The constructor (fisher_vector_extractor.cc:63-64, 98-100). -/
def new {G : Type} (clusters maxFeatures : Nat) : State G := ⟨clusters, Reservoir.new maxFeatures, none⟩

/-- `feature.hasNaN()` (fisher_vector_extractor.cc:70, 107). -/
def hasNaN (f : Feature) : Bool := f.any fun x => x.isNone

/-- `AddFeaturesForTraining` (fisher_vector_extractor.cc:104-110). -/
def addFeatures {G : Type} (rnd : Nat → Nat) : List Feature → State G → Outcome (State G)
  | [], s => .ok s
  | f :: fs, s =>
    if hasNaN f then .abort
    else
      match s.sampler.add f (rnd s.sampler.numElementsAdded) with
      | .ok r => addFeatures rnd fs { s with sampler := r }
      | .abort => .abort
      | .ub => .ub

/-- `ConvertVectorOfFeaturesToMatrix` (fisher_vector_extractor.cc:49-56): the dimension of the first feature, if there is
one and all have the same. Otherwise `features[0]` does not exist, or columns of different sizes are assigned. -/
def dimension : List Feature → Outcome Nat
  | [] => .ub
  | f :: fs => if fs.all fun g => g.length == f.length then .ok f.length else .ub

/-- `Train` with `GaussianMixtureModel::Compute` (fisher_vector_extractor.cc:69-82, 112-125). `vl_gmm_new` does not
return null. -/
def train {G : Type} (vl : VL G) (s : State G) : Outcome (Bool × State G) :=
  if s.sampler.samples.length = 0 then .abort
  else do
    let d ← dimension s.sampler.samples
    if s.sampler.samples.any hasNaN then .abort
    else
      match vl.cluster s.clusters s.sampler.samples with
      | none => .abort
      | some g => .ok (true, { s with gmm := some (d, g) })

/-- `ExtractGlobalDescriptor` (fisher_vector_extractor.cc:127-152). The means are read through a null pointer before
the training, and past the end if the features have more dimensions than those of the training. -/
def extract {G : Type} (vl : VL G) (s : State G) (fs : List Feature) : Outcome (List ℚ) :=
  match fs with
  | [] => .abort
  | f :: _ =>
    if f.length = 0 then .abort
    else do
      let d ← dimension fs
      match s.gmm with
      | none => .ub
      | some (d', g) => if d' < d then .ub else .ok (List.ofFn (vl.encode g d s.clusters fs))

/-- A call that changes the extractor (fisher_vector_extractor.cc:104-125). -/
inductive Op where
  | add (fs : List Feature)
  | train

/-- One call (fisher_vector_extractor.cc:104-125). -/
def step {G : Type} (vl : VL G) (rnd : Nat → Nat) (s : State G) : Op → Outcome (State G)
  | .add fs => addFeatures rnd fs s
  | .train => do let r ← train vl s; .ok r.2

/-- Calls one after the other (fisher_vector_extractor.cc:104-125). -/
def run {G : Type} (vl : VL G) (rnd : Nat → Nat) : List Op → State G → Outcome (State G)
  | [], s => .ok s
  | o :: os, s => do
    let s ← step vl rnd s o
    run vl rnd os s

end Fisher
end Theia
