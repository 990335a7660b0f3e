import Verif.Proof.Extraction

/-!
# C105: extracting the features of many images with threads
-/

namespace Theia

open Spec.Extraction Extraction

variable {Img Kp D : Type}

/-- **C105.** Extracting to memory: whatever the schedule, once all jobs have finished there is one pair of vectors for every file, in
the order of the files; it holds the features of that file, or what was passed in if the file does not exist. No file is
written. -/
theorem C105_memory (env : Env Img Kp D) (filenames : List String) (ks : List (List Kp)) (ds : List (List D))
    (disk : AMap String (Slot Kp D)) (schedule : List Nat) (b : Bool) (c : Config Img Kp D)
    (h : extract env false filenames ks ds disk schedule = .ok (b, c)) (hc : Completed c) :
    b = true ∧ c.disk = disk ∧ c.threads.length = filenames.length ∧
    ∀ (i : Nat) (path : String), filenames[i]? = some path →
      ∃ t, c.threads[i]? = some t ∧ InMemory env path (passedIn ks ds i) t.slot := by
  obtain ⟨hb, hi⟩ := extract_inv h
  have hlen : c.threads.length = filenames.length := by rw [hi.length, initial_length, List.length_map]
  refine ⟨hb, hi.memory rfl, hlen, ?_⟩
  intro i path hp
  have hlt : i < c.threads.length := by rw [hlen]; exact (List.getElem?_eq_some_iff.1 hp).1
  have ht := List.getElem?_eq_getElem hlt
  refine ⟨_, ht, ?_⟩
  have hdone := hc _ (List.getElem_mem hlt)
  generalize c.threads[i] = t at ht hdone
  have hr := hi.rel i _ t (files_get hp) ht
  cases hr with
  | start =>
    simp only at hdone
    refine .missing ?_
    by_contra hne
    rw [Bool.not_eq_false] at hne
    rw [if_pos hne] at hdone
    cases hdone
  | detected => cases hdone
  | failed img r h1 h2 h3 => exact .failed img r (found_of_detect h1) h2 h3
  | inMemory img r _ h1 h2 h3 => exact .found img _ (found_of_detect h1) h2 (featuresOf_cutOff h3)
  | toWrite img r h0 => cases h0
  | toClear img r f h0 => cases h0
  | cleared img r f h0 => cases h0

/-- **C105.** The threads do not matter: two schedules after which all jobs have finished leave the same features. -/
theorem C105_schedule (env : Env Img Kp D) (filenames : List String) (ks : List (List Kp)) (ds : List (List D))
    (disk : AMap String (Slot Kp D)) (s1 s2 : List Nat) (b1 b2 : Bool) (c1 c2 : Config Img Kp D)
    (h1 : extract env false filenames ks ds disk s1 = .ok (b1, c1)) (h2 : extract env false filenames ks ds disk s2 = .ok (b2, c2))
    (hc1 : Completed c1) (hc2 : Completed c2) : c1.threads.map (·.slot) = c2.threads.map (·.slot) := by
  obtain ⟨_, _, l1, m1⟩ := C105_memory _ _ _ _ _ _ _ _ h1 hc1
  obtain ⟨_, _, l2, m2⟩ := C105_memory _ _ _ _ _ _ _ _ h2 hc2
  apply List.ext_getElem?
  intro i
  rw [List.getElem?_map, List.getElem?_map]
  by_cases hi : i < filenames.length
  · obtain ⟨t1, e1, r1⟩ := m1 i _ (List.getElem?_eq_getElem hi)
    obtain ⟨t2, e2, r2⟩ := m2 i _ (List.getElem?_eq_getElem hi)
    rw [e1, e2]
    simp only [Option.map_some, Option.some.injEq]
    have hdet : ∀ {img : Img} {old s : Slot Kp D}, FeaturesOf env img old s → ∃ r, env.detect img old = (true, r) := by
      intro img old s h3
      cases h3 with
      | all k d h => exact ⟨_, h⟩
      | first k d n h => exact ⟨_, h⟩
    generalize t1.slot = x at r1
    generalize t2.slot = y at r2
    cases r1 with
    | missing q =>
      cases r2 with
      | missing => rfl
      | failed _ _ q' => rw [q] at q'; cases q'
      | found _ _ q' => rw [q] at q'; cases q'
    | failed img _ q ql qd =>
      cases r2 with
      | missing q' => rw [q] at q'; cases q'
      | failed img' _ _ ql' qd' =>
        rw [ql] at ql'
        cases ql'
        rw [qd] at qd'
        cases qd'
        rfl
      | found img' _ _ ql' qf =>
        rw [ql] at ql'
        cases ql'
        obtain ⟨r, hr⟩ := hdet qf
        rw [qd] at hr
        cases hr
    | found img _ q ql qf =>
      obtain ⟨r, hr⟩ := hdet qf
      cases r2 with
      | missing q' => rw [q] at q'; cases q'
      | failed img' _ _ ql' qd' =>
        rw [ql] at ql'
        cases ql'
        rw [hr] at qd'
        cases qd'
      | found img' _ _ ql' qf' =>
        rw [ql] at ql'
        cases ql'
        rw [featuresOf_unique hr qf, featuresOf_unique hr qf']
  · rw [List.getElem?_eq_none (by omega), List.getElem?_eq_none (by omega)]

/-- **C105.** The maximum is kept: an image that is found and whose features can be extracted has the first of its features, as many
as the maximum allows, and as many descriptors as keypoints if the detector gave equally many. -/
theorem C105_limit (env : Env Img Kp D) (filenames : List String) (ks : List (List Kp)) (ds : List (List D))
    (disk : AMap String (Slot Kp D)) (schedule : List Nat) (b : Bool) (c : Config Img Kp D)
    (h : extract env false filenames ks ds disk schedule = .ok (b, c)) (hc : Completed c) (i : Nat) (path : String)
    (hp : filenames[i]? = some path) (he : env.exists_ path = true) (image : Img) (hl : env.load path = .ok image)
    (k : List Kp) (d : List D) (hd : env.detect image (passedIn ks ds i) = (true, (k, d))) (hk : k.length = d.length)
    (hm : 0 ≤ env.maxFeatures) :
    ∃ t, c.threads[i]? = some t ∧ t.slot.1 <+: k ∧ t.slot.2 <+: d ∧
      (t.slot.1.length : Int) = min (k.length : Int) env.maxFeatures ∧ t.slot.2.length = t.slot.1.length := by
  obtain ⟨_, _, _, hall⟩ := C105_memory _ _ _ _ _ _ _ _ h hc
  obtain ⟨t, ht, hmem⟩ := hall i path hp
  refine ⟨t, ht, ?_⟩
  generalize t.slot = s at hmem
  have hf : FeaturesOf env image (passedIn ks ds i) s := by
    cases hmem with
    | missing q => rw [he] at q; cases q
    | failed img _ _ q1 q2 =>
      rw [hl] at q1
      cases q1
      rw [hd] at q2
      cases q2
    | found img _ _ q1 q2 =>
      rw [hl] at q1
      cases q1
      exact q2
  cases hf with
  | all k' d' q1 q2 =>
    rw [hd] at q1
    cases q1
    refine ⟨List.prefix_refl _, List.prefix_refl _, ?_, hk.symm⟩
    simp only
    omega
  | first k' d' n q1 q2 q3 =>
    rw [hd] at q1
    cases q1
    have hz : n - d.length = 0 := by omega
    simp only [hz, List.replicate_zero, List.append_nil]
    refine ⟨List.take_prefix _ _, List.take_prefix _ _, ?_, ?_⟩
    · rw [List.length_take]; omega
    · rw [List.length_take, List.length_take]; omega

/-- **C105.** Extracting to disk: once all jobs have finished, a file on disk is as before unless the features of an image go to it;
then it holds the features of such an image. Nothing of what was written stays in memory. -/
theorem C105_disk (env : Env Img Kp D) (filenames : List String) (disk : AMap String (Slot Kp D)) (schedule : List Nat)
    (b flag : Bool) (c : Config Img Kp D) (h : extractToDisk env filenames disk schedule = .ok (b, flag, c)) (hc : Completed c) :
    b = true ∧
    (∀ file, (c.disk.get file = disk.get file ∧ ∀ path ∈ filenames, ∀ s, ¬ GoesTo env path ([], []) file s) ∨
      ∃ path ∈ filenames, ∃ s, GoesTo env path ([], []) file s ∧ c.disk.get file = some s) ∧
    ∀ (i : Nat) (path file : String) (s : Slot Kp D), filenames[i]? = some path → GoesTo env path ([], []) file s →
      ∃ t, c.threads[i]? = some t ∧ t.slot = ([], []) := by
  unfold extractToDisk at h
  split at h
  · cases h
  obtain ⟨⟨b', c'⟩, h1, h⟩ := Outcome.bind_eq_ok.1 h
  cases h
  obtain ⟨hb, hi⟩ := extract_inv h1
  have hold : ∀ i, passedIn ([] : List (List Kp)) ([] : List (List D)) i = ([], []) := fun i => by simp [passedIn]
  have hlen : c'.threads.length = filenames.length := by rw [hi.length, initial_length, List.length_map]
  refine ⟨hb, ?_, ?_⟩
  · intro file
    rcases hi.disk rfl file with ⟨h2, h3⟩ | ⟨i, t0, t, r, h2, h3, h4, h5⟩
    · refine Or.inl ⟨h2, ?_⟩
      intro path hp s hg
      obtain ⟨i, hpi⟩ := List.mem_iff_getElem?.1 hp
      have hlt : i < c'.threads.length := by rw [hlen]; exact (List.getElem?_eq_some_iff.1 hpi).1
      refine h3 i _ _ (files_get hpi) (List.getElem?_eq_getElem hlt) s ?_
      rw [wrote_iff (hc _ (List.getElem_mem hlt)), hold]
      exact hg
    · obtain ⟨path, hp, rfl⟩ := files_of_get h2
      rw [wrote_iff (hc t (List.mem_of_getElem? h3)), hold] at h4
      exact Or.inr ⟨path, List.mem_of_getElem? hp, r, h4, h5⟩
  · intro i path file s hp hg
    have hlt : i < c'.threads.length := by rw [hlen]; exact (List.getElem?_eq_some_iff.1 hp).1
    have ht := List.getElem?_eq_getElem hlt
    refine ⟨_, ht, ?_⟩
    have hdone := hc _ (List.getElem_mem hlt)
    generalize c'.threads[i] = t at ht hdone
    have hr := hi.rel i _ t (files_get hp) ht
    obtain ⟨_, _, img, r0, q1, q2, _⟩ := (wrote_iff hdone (path := path) (old := ([], []))).2 hg
    cases hr with
    | start =>
      simp only at hdone
      rw [if_pos hg.1] at hdone
      cases hdone
    | detected => cases hdone
    | failed img' r h1 h2 h3 =>
      rw [hold] at h3
      simp only at q1 q2 h2 h3
      rw [q1] at h2
      cases h2
      rw [q2] at h3
      cases h3
    | inMemory img r h0 => cases h0
    | toWrite => cases hdone
    | toClear => cases hdone
    | cleared => rfl

/-- **C105.** If no two of the images have the same features file, every image's file holds exactly its features. -/
theorem C105_disk_each_partial (env : Env Img Kp D) (filenames : List String) (disk : AMap String (Slot Kp D)) (schedule : List Nat)
    (b flag : Bool) (c : Config Img Kp D) (h : extractToDisk env filenames disk schedule = .ok (b, flag, c)) (hc : Completed c)
    (hu : ∀ p ∈ filenames, ∀ q ∈ filenames, ∀ file, FileFor env p file → FileFor env q file → p = q)
    (path : String) (hp : path ∈ filenames) (file : String) (s : Slot Kp D) (hg : GoesTo env path ([], []) file s) :
    c.disk.get file = some s := by
  obtain ⟨_, h1, _⟩ := C105_disk _ _ _ _ _ _ _ h hc
  rcases h1 file with ⟨_, h2⟩ | ⟨q, hq, s', hs', h3⟩
  · exact absurd hg (h2 path hp s)
  · rw [h3]
    have := hu path hp q hq file hg.2.2 hs'.2.2
    subst this
    obtain ⟨_, ⟨img, l1, f1⟩, _⟩ := hg
    obtain ⟨_, ⟨img', l2, f2⟩, _⟩ := hs'
    rw [l1] at l2
    cases l2
    have : ∃ r, env.detect img ([], []) = (true, r) := by
      cases f1 with
      | all k d h => exact ⟨_, h⟩
      | first k d n h => exact ⟨_, h⟩
    obtain ⟨r, hr⟩ := this
    rw [featuresOf_unique hr f1, featuresOf_unique hr f2]

/-- **C105.** If nothing ends the program, then under every schedule the call goes on, and it has finished when every job has been
let go on four times. -/
theorem C105_completes (env : Env Img Kp D) (toDisk : Bool) (filenames : List String) (ks : List (List Kp)) (ds : List (List D))
    (disk : AMap String (Slot Kp D)) (schedule : List Nat) (hne : filenames ≠ []) (hth : 1 ≤ env.numThreads)
    (hh : ∀ path ∈ filenames, Harmless env toDisk path) :
    ∃ c, extract env toDisk filenames ks ds disk schedule = .ok (true, c) ∧
      ((∀ i < filenames.length, 4 ≤ schedule.count i) → Completed c) := by
  have hpos : 0 < filenames.length := List.length_pos_iff.2 hne
  obtain ⟨c, hrun⟩ := run_ok (env := env) (toDisk := toDisk)
    (c0 := initial (filenames.map fun f => ⟨env.load f, f⟩) (fun j => env.exists_ j.path) ks ds disk) initial_fresh (by
      intro t ht
      obtain ⟨i, hi⟩ := List.mem_iff_getElem?.1 ht
      obtain ⟨path, hp, rfl⟩ := files_of_get hi
      intro hpc
      obtain ⟨h1, h2⟩ := hh path (List.mem_of_getElem? hp) (found_of_detect hpc)
      refine ⟨h1, fun htd => ?_⟩
      obtain ⟨file, hf, hw⟩ := h2 htd
      exact ⟨file, featuresFile_iff.2 hf, hw⟩) schedule _ inv_start
  have hex : extract env toDisk filenames ks ds disk schedule = .ok (true, c) := by
    unfold extract
    rw [if_neg (by omega), if_neg (by omega), hrun]
    rfl
  refine ⟨c, hex, ?_⟩
  intro hcount t ht
  obtain ⟨i, hi⟩ := List.mem_iff_getElem?.1 ht
  obtain ⟨_, hinv⟩ := extract_inv hex
  have hlen : c.threads.length = filenames.length := by rw [hinv.length, initial_length, List.length_map]
  have hlt : i < filenames.length := by rw [← hlen]; exact (List.getElem?_eq_some_iff.1 hi).1
  have hleft := run_left hrun (files_get (List.getElem?_eq_getElem hlt)) hi
  have h4 := hcount i hlt
  have h0 : left t.pc = 0 := by
    have : left (if env.exists_ filenames[i] then Pc.detect else Pc.done) ≤ 4 := by split <;> decide
    simp only at hleft
    omega
  cases hpc : t.pc with
  | done => rfl
  | detect => rw [hpc] at h0; cases h0
  | cut => rw [hpc] at h0; cases h0
  | write => rw [hpc] at h0; cases h0
  | clear => rw [hpc] at h0; cases h0

/-- **C105.** Extracting from images in memory does the same, and writes no files. -/
theorem C105_images (env : Env Img Kp D) (images : List Img) (ks : List (List Kp)) (ds : List (List D))
    (disk : AMap String (Slot Kp D)) (schedule : List Nat) (b : Bool) (c : Config Img Kp D)
    (h : extractImages env images ks ds disk schedule = .ok (b, c)) (hc : Completed c) :
    b = true ∧ c.disk = disk ∧ c.threads.length = images.length ∧
    ∀ (i : Nat) (image : Img), images[i]? = some image → ∃ t, c.threads[i]? = some t ∧
      (FeaturesOf env image (passedIn ks ds i) t.slot ∨ env.detect image (passedIn ks ds i) = (false, t.slot)) := by
  unfold extractImages at h
  split at h
  · cases h
  split at h
  · cases h
  obtain ⟨c', h1, h⟩ := Outcome.bind_eq_ok.1 h
  cases h
  have hi := inv_run initial_fresh _ _ _ inv_start h1
  have hlen : c.threads.length = images.length := by rw [hi.length, initial_length, List.length_map]
  refine ⟨rfl, hi.memory rfl, hlen, ?_⟩
  intro i image hp
  have hlt : i < c.threads.length := by rw [hlen]; exact (List.getElem?_eq_some_iff.1 hp).1
  have ht := List.getElem?_eq_getElem hlt
  refine ⟨_, ht, ?_⟩
  have hdone := hc _ (List.getElem_mem hlt)
  generalize c.threads[i] = t at ht hdone
  have hr := hi.rel i ⟨⟨.ok image, ""⟩, .detect, passedIn ks ds i⟩ t (by rw [initial_get, List.getElem?_map, hp]; rfl) ht
  cases hr with
  | start => cases hdone
  | detected => cases hdone
  | failed img r h1 h2 h3 => cases h2; exact Or.inr h3
  | inMemory img r _ h1 h2 h3 => cases h2; exact Or.inl (featuresOf_cutOff h3)
  | toWrite img r h0 => cases h0
  | toClear img r f h0 => cases h0
  | cleared img r f h0 => cases h0

/-! ## Examples and counterexamples -/

namespace ExtractionExample

/-- Images are numbers; the detector adds the number of the image to the vectors passed in, as the one for SIFT does
(sift_descriptor.cc:216-285 only adds to them). `none.jpg` does not exist. -/
def env : Env Nat Nat Nat where
  exists_ p := p != "none.jpg"
  load p := .ok (if p = "a/x.jpg" then 1 else 2)
  detect image s := (true, (s.1 ++ [image], s.2 ++ [image]))
  base p := some (if p = "y.jpg" then "y.jpg" else "x.jpg")
  writable _ := true
  hasDirectory := true
  createDirectory := false
  emptyDescriptor := 0
  numThreads := 2
  maxFeatures := 5
  outputDirectory := "out"

theorem completed_of {c : Config Nat Nat Nat} (h : (c.threads.all fun t => decide (t.pc = .done)) = true) : Completed c := by
  intro t ht
  simpa using List.all_eq_true.1 h t ht

example : ∀ path ∈ ["a/x.jpg", "y.jpg"], Harmless env true path := by
  intro path hp _
  refine ⟨⟨_, rfl⟩, fun _ => ⟨"out/" ++ (if path = "y.jpg" then "y.jpg" else "x.jpg") ++ ".features", ⟨by decide, "out",
    _, Or.inr ⟨rfl, by decide⟩, rfl, ?_⟩, rfl⟩⟩
  simp only [List.mem_cons, List.not_mem_nil, or_false] at hp
  rcases hp with rfl | rfl <;> decide

example : ∃ c, extract env false ["a/x.jpg", "y.jpg"] [] [] .empty [0, 1, 1, 0] = .ok (true, c) ∧ Completed c ∧
    c.threads.map (·.slot) = [([1], [1]), ([2], [2])] := by
  refine ⟨_, rfl, ?_, rfl⟩
  exact completed_of (by rfl)

example : ∃ c, extractToDisk env ["a/x.jpg", "y.jpg"] .empty [0, 1, 1, 0, 1, 0, 0, 1] = .ok (true, true, c) ∧ Completed c ∧
    c.disk.get "out/x.jpg.features" = some ([1], [1]) ∧ c.disk.get "out/y.jpg.features" = some ([2], [2]) := by
  refine ⟨_, rfl, ?_, by decide, by decide⟩
  exact completed_of (by rfl)

end ExtractionExample

open ExtractionExample

/-- **C105 fails in general.** The call says that it succeeded, but the vectors of a file that does not exist hold what they held
before. -/
theorem C105_missing_counterexample : ∃ c, extract env false ["none.jpg"] [[7]] [[7]] .empty [] = .ok (true, c) ∧ Completed c ∧
    c.threads.map (·.slot) = [([7], [7])] := by
  refine ⟨_, rfl, ?_, rfl⟩
  exact completed_of (by rfl)

/-- **C105 fails in general.** If the vectors of an earlier call are used again, its features are still in front of the new ones. -/
theorem C105_reused_counterexample : ∃ c c', extract env false ["a/x.jpg"] [] [] .empty [0, 0] = .ok (true, c) ∧
    extract env false ["y.jpg"] (c.threads.map (·.slot.1)) (c.threads.map (·.slot.2)) .empty [0, 0] = .ok (true, c') ∧
    Completed c' ∧ c'.threads.map (·.slot) = [([1, 2], [1, 2])] := by
  refine ⟨_, _, rfl, rfl, ?_, rfl⟩
  exact completed_of (by rfl)

/-- **C105 fails in general.** After features have been extracted to disk once, extracting to memory with the same object writes to disk as
well and leaves nothing in memory. -/
theorem C105_after_disk_counterexample : ∃ flag c c', extractToDisk env ["a/x.jpg"] .empty [0, 0, 0, 0] = .ok (true, flag, c) ∧
    extract env flag ["y.jpg"] [] [] c.disk [0, 0, 0, 0] = .ok (true, c') ∧ Completed c' ∧
    c'.threads.map (·.slot) = [([], [])] ∧ c'.disk.get "out/y.jpg.features" = some ([2], [2]) := by
  refine ⟨_, _, _, rfl, rfl, ?_, rfl, by decide⟩
  exact completed_of (by rfl)

/-- **C105 fails in general.** Two images with the same name in two directories have the same features file: what it holds in the end depends
on the threads. -/
theorem C105_same_name_counterexample : ∃ c c',
    extractToDisk env ["a/x.jpg", "b/x.jpg"] .empty [0, 0, 0, 0, 1, 1, 1, 1] = .ok (true, true, c) ∧
    extractToDisk env ["a/x.jpg", "b/x.jpg"] .empty [1, 1, 1, 1, 0, 0, 0, 0] = .ok (true, true, c') ∧
    Completed c ∧ Completed c' ∧ c.disk.get "out/x.jpg.features" = some ([2], [2]) ∧
    c'.disk.get "out/x.jpg.features" = some ([1], [1]) := by
  refine ⟨_, _, rfl, rfl, ?_, ?_, by decide, by decide⟩
  · exact completed_of (by rfl)
  · exact completed_of (by rfl)

end Theia
