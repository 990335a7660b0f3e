import Verif.Model.Extraction

/-!
# What extracting features should do
-/

namespace Theia.Spec
namespace Extraction

open Theia.Extraction

variable {Img Kp D : Type}

/-- All jobs have finished. -/
def Completed (c : Config Img Kp D) : Prop := ∀ t ∈ c.threads, t.pc = .done

/-- The vectors passed in at a position; empty if there were none. -/
def passedIn (keypoints : List (List Kp)) (descriptors : List (List D)) (i : Nat) : Slot Kp D :=
  ((keypoints[i]?).getD [], (descriptors[i]?).getD [])

/-- The features of an image, given the vectors passed in: what the detector leaves, but not more than the maximum. -/
inductive FeaturesOf (env : Env Img Kp D) (image : Img) (old : Slot Kp D) : Slot Kp D → Prop where
  | all (k : List Kp) (d : List D) : env.detect image old = (true, (k, d)) →
      (env.maxFeatures < 0 ∨ (k.length : Int) ≤ env.maxFeatures) → FeaturesOf env image old (k, d)
  | first (k : List Kp) (d : List D) (n : Nat) : env.detect image old = (true, (k, d)) → env.maxFeatures = n →
      n < k.length → FeaturesOf env image old (k.take n, (d ++ List.replicate (n - d.length) env.emptyDescriptor).take n)

/-- What is in memory for a file after everything has been extracted to memory. -/
inductive InMemory (env : Env Img Kp D) (path : String) (old : Slot Kp D) : Slot Kp D → Prop where
  | missing : env.exists_ path = false → InMemory env path old old
  | failed (image : Img) (s : Slot Kp D) : env.exists_ path = true → env.load path = .ok image →
      env.detect image old = (false, s) → InMemory env path old s
  | found (image : Img) (s : Slot Kp D) : env.exists_ path = true → env.load path = .ok image →
      FeaturesOf env image old s → InMemory env path old s

/-- The file for the features of an image: the output directory, a slash unless it ends in one, the name of the image and
`.features`. -/
def FileFor (env : Env Img Kp D) (path file : String) : Prop :=
  env.outputDirectory ≠ "" ∧
  ∃ dir name, (env.outputDirectory = dir ++ "/" ∨ (env.outputDirectory = dir ∧ dir.toList.getLast? ≠ some '/')) ∧
    env.base path = some name ∧ file = dir ++ "/" ++ name ++ ".features"

/-- The features of a file that go to disk, and the file they go to. -/
def GoesTo (env : Env Img Kp D) (path : String) (old : Slot Kp D) (file : String) (s : Slot Kp D) : Prop :=
  env.exists_ path = true ∧ (∃ image, env.load path = .ok image ∧ FeaturesOf env image old s) ∧ FileFor env path file

/-- Nothing ends the program: images that are found can be loaded, and their features, if they go to disk, can be written. -/
def Harmless (env : Env Img Kp D) (toDisk : Bool) (path : String) : Prop :=
  env.exists_ path = true → (∃ image, env.load path = .ok image) ∧
    (toDisk = true → ∃ file, FileFor env path file ∧ env.writable file = true)

end Extraction
end Theia.Spec
