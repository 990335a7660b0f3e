import Verif.Base.Outcome
import Verif.Base.AMap

/-!
# Extracting the features of many images

Models src/theia/sfm/feature_extractor.h and feature_extractor.cc as a transition system. Every image that is found is a job of
the thread pool. A job makes up to four steps: it detects features, cuts them off, writes them and removes them from
memory. A schedule is a list of positions; each of them lets the job at that position make its next step. Every schedule
the pool can produce (C18) is one of these, for any number of threads. A job touches only its own two vectors and the
files it writes.

Not modelled: reading and decoding images and detecting features, which are parameters; that two jobs which write the same file
at the same time may mix their bytes (the writing of a file is one step); files that change while the jobs run.
-/

namespace Theia
namespace Extraction

/-- The features of an image in memory: keypoints and descriptors. -/
abbrev Slot (Kp D : Type) := List Kp × List D

/-- What the functions of the library do, and the options (feature_extractor.h:53-71). -/
structure Env (Img Kp D : Type) where
  /-- `FileExists`. -/
  exists_ : String → Bool
  /-- The constructor of `FloatImage`. -/
  load : String → Outcome Img
  /-- `DetectAndExtractDescriptors`: the return value and the vectors afterwards, given the vectors before. -/
  detect : Img → Slot Kp D → Bool × Slot Kp D
  /-- `GetFilenameFromFilepath(path, true, &name)`. -/
  base : String → Option String
  /-- Whether a file can be opened for writing. -/
  writable : String → Bool
  /-- `DirectoryExists`. -/
  hasDirectory : Bool
  /-- `CreateNewDirectory`. -/
  createDirectory : Bool
  /-- The default constructor of a descriptor. -/
  emptyDescriptor : D
  numThreads : Int
  maxFeatures : Int
  outputDirectory : String

/-- A job: what the constructor of the image does, and the path. -/
structure Job (Img : Type) where
  image : Outcome Img
  path : String

/-- The next step of a job. `done` is also the state of an image that was not found. -/
inductive Pc where
  | detect
  | cut
  | write
  | clear
  | done
  deriving DecidableEq, Repr

/-- A job, its state and its vectors. -/
structure Thread (Img Kp D : Type) where
  job : Job Img
  pc : Pc
  slot : Slot Kp D

variable {Img Kp D : Type}

/-- `resize` of a vector. -/
def resize {α : Type} (empty : α) (n : Nat) (l : List α) : List α := l.take n ++ List.replicate (n - l.length) empty

/-- Lines 184-187: the `int` is converted to an unsigned number in the comparison, so that a negative one is larger than every
size. -/
def cutOff (env : Env Img Kp D) (s : Slot Kp D) : Slot Kp D :=
  if 0 ≤ env.maxFeatures ∧ env.maxFeatures.toNat < s.1.length then
    (s.1.take env.maxFeatures.toNat, resize env.emptyDescriptor env.maxFeatures.toNat s.2)
  else s

/-- The file of an image (lines 139-148). `back()` of an empty string is undefined. -/
def featuresFile (env : Env Img Kp D) (path : String) : Outcome String :=
  if env.outputDirectory.isEmpty then .ub
  else
    let dir := if env.outputDirectory.toList.getLast? = some '/' then env.outputDirectory else env.outputDirectory ++ "/"
    match env.base path with
    | none => .abort
    | some name => .ok (dir ++ name ++ ".features")

/-- The next step of a job (lines 125-190): `ExtractFeatures` and `ExtractFeaturesFromImage`. `toDisk` is
`write_features_to_disk_`. -/
def jobStep (env : Env Img Kp D) (toDisk : Bool) (t : Thread Img Kp D) (disk : AMap String (Slot Kp D)) :
    Outcome (Thread Img Kp D × AMap String (Slot Kp D)) :=
  match t.pc with
  | .detect => do
    let image ← t.job.image
    let r := env.detect image t.slot
    .ok ({ t with pc := if r.1 then .cut else .done, slot := r.2 }, disk)
  | .cut => .ok ({ t with pc := if toDisk then .write else .done, slot := cutOff env t.slot }, disk)
  | .write => do
    let file ← featuresFile env t.job.path
    if env.writable file then .ok ({ t with pc := .clear }, disk.insert file t.slot) else .abort
  | .clear => .ok ({ t with pc := .done, slot := ([], []) }, disk)
  | .done => .ok (t, disk)

/-- All jobs and the disk. -/
structure Config (Img Kp D : Type) where
  threads : List (Thread Img Kp D)
  disk : AMap String (Slot Kp D)

/-- The job at position `i` makes a step. -/
def stepAt (env : Env Img Kp D) (toDisk : Bool) (i : Nat) (c : Config Img Kp D) : Outcome (Config Img Kp D) :=
  match c.threads[i]? with
  | none => .ok c
  | some t => do
    let r ← jobStep env toDisk t c.disk
    .ok ⟨c.threads.set i r.1, r.2⟩

/-- A schedule. -/
def run (env : Env Img Kp D) (toDisk : Bool) : List Nat → Config Img Kp D → Outcome (Config Img Kp D)
  | [], c => .ok c
  | i :: is, c => do
    let c ← stepAt env toDisk i c
    run env toDisk is c

/-- The jobs before the first step (lines 60-81, 91-105): the vectors are resized, images that are not found get no job. -/
def initial (jobs : List (Job Img)) (found : Job Img → Bool) (keypoints : List (List Kp)) (descriptors : List (List D))
    (disk : AMap String (Slot Kp D)) : Config Img Kp D where
  threads := (jobs.zip ((resize [] jobs.length keypoints).zip (resize [] jobs.length descriptors))).map fun x =>
    ⟨x.1, if found x.1 then .detect else .done, x.2⟩
  disk := disk

/-- `Extract` from files (lines 53-82), under a schedule after which the pool has finished. The pool aborts without threads
(threadpool.cc:83). -/
def extract (env : Env Img Kp D) (toDisk : Bool) (filenames : List String) (keypoints : List (List Kp))
    (descriptors : List (List D)) (disk : AMap String (Slot Kp D)) (schedule : List Nat) :
    Outcome (Bool × Config Img Kp D) :=
  if filenames.length = 0 then .abort
  else if min env.numThreads filenames.length < 1 then .abort
  else do
    let c ← run env toDisk schedule (initial (filenames.map fun f => ⟨env.load f, f⟩) (fun j => env.exists_ j.path)
      keypoints descriptors disk)
    .ok (true, c)

/-- `Extract` from images (lines 84-107): nothing is written. -/
def extractImages (env : Env Img Kp D) (images : List Img) (keypoints : List (List Kp))
    (descriptors : List (List D)) (disk : AMap String (Slot Kp D)) (schedule : List Nat) :
    Outcome (Bool × Config Img Kp D) :=
  if images.length = 0 then .abort
  else if min env.numThreads images.length < 1 then .abort
  else do
    let c ← run env false schedule (initial (images.map fun f => ⟨.ok f, ""⟩) (fun _ => true) keypoints descriptors disk)
    .ok (true, c)

/-- `ExtractToDisk` (lines 109-123): the return value, the value of `write_features_to_disk_` afterwards, which stays true, and the
jobs. -/
def extractToDisk (env : Env Img Kp D) (filenames : List String) (disk : AMap String (Slot Kp D)) (schedule : List Nat) :
    Outcome (Bool × Bool × Config Img Kp D) :=
  if ¬ env.hasDirectory ∧ ¬ env.createDirectory then .abort
  else do
    let r ← extract env true filenames [] [] disk schedule
    .ok (r.1, true, r.2)

end Extraction
end Theia
