import Verif.Proof.SiftText

/-!
# C108: reading SIFT features from a text file
-/

namespace Theia

open SiftText Spec.SiftFile

/-- **C108, finding.** Numbers above 255 are not refused: a file with any numbers is read, with the answer true, as the
one whose numbers are reduced modulo 256. -/
theorem C108_wrap (junk : Nat → Nat → Nat) (fs : List Feature) (h : ∀ f ∈ fs, f.bytes.length = 128) (rest : File) :
    readFile junk true (some (fileOf fs ++ rest)) = .ok (true, contents (fs.map Feature.reduced)) := by
  have := loop_blocks junk fs h 0 rest ⟨[], []⟩
  rw [fileOf, List.cons_append, read_header, if_neg (by simp), if_neg (by omega)]
  simpa [loop, contents] using this

/-- **C108.** A file with any number of features, laid out as Lowe's program does, is read completely: the call
returns true with the keypoints and the descriptors, whatever was in memory and whatever follows in the file. -/
theorem C108_read (junk : Nat → Nat → Nat) (fs : List Feature) (h : ∀ f ∈ fs, f.Valid) (rest : File) :
    readFile junk true (some (fileOf fs ++ rest)) = .ok (true, contents fs) := by
  rw [C108_wrap junk fs (fun f hf => (h f hf).1), map_reduced fs h]

/-- **C108.** Whenever the call returns true, the file starts with two numbers, the second is 128, and there are as
many keypoints and descriptors as the first one says. Whenever it returns false there are fewer keypoints, still
one for each descriptor. All descriptors have 128 entries. -/
theorem C108_counts (junk : Nat → Nat → Nat) (file : Option File) (b : Bool) (r : Out)
    (h : readFile junk true file = .ok (b, r)) :
    r.keypoints.length = r.descriptors.length ∧ (∀ d ∈ r.descriptors, d.length = 128) ∧
    (b = true → ∃ n g, file = some g ∧ (g.flatten.take 2 = [.int n, .int 128]) ∧ (r.keypoints.length : Int) = n) ∧
    (b = false → r = ⟨[], []⟩ ∨
      ∃ n g, file = some g ∧ g.flatten.take 2 = [.int n, .int 128] ∧ (r.keypoints.length : Int) < n) := by
  have nx : ∀ (f : File) w g, next f = some (w, g) → f.flatten = w :: g.flatten := by
    intro f
    induction f with
    | nil => intro w g h; simp [next] at h
    | cons l ls ih =>
      intro w g h
      cases l with
      | nil => simpa using ih w g (by simpa [next] using h)
      | cons v vs =>
        simp only [next, Option.some.injEq, Prod.mk.injEq] at h
        obtain ⟨rfl, rfl⟩ := h
        simp
  have ni : ∀ (f : File) z g, readInt f = some (z, g) → f.flatten = .int z :: g.flatten := by
    intro f z g h
    simp only [readInt] at h
    split at h
    · rename_i z' g' hz
      simp only [Option.some.injEq, Prod.mk.injEq] at h
      obtain ⟨rfl, rfl⟩ := h
      exact nx _ _ _ hz
    · simp at h
  have stop : (Outcome.ok (false, (⟨[], []⟩ : Out)) = .ok (b, r)) → b = false ∧ r = ⟨[], []⟩ := by
    intro e
    simp only [Outcome.ok.injEq, Prod.mk.injEq] at e
    exact ⟨e.1.symm, e.2.symm⟩
  simp only [readFile, Bool.not_true, Bool.false_eq_true, if_false] at h
  split at h
  · obtain ⟨rfl, rfl⟩ := stop h; simp
  · rename_i f
    split at h
    · obtain ⟨rfl, rfl⟩ := stop h; simp
    · rename_i n f1 h1
      split at h
      · obtain ⟨rfl, rfl⟩ := stop h; simp
      · rename_i d f2 h2
        split at h
        · simp at h
        · rename_i hd
          split at h
          · simp at h
          · rename_i hn
            have hd : d = 128 := by simpa using hd
            subst hd
            have c := loop_counts junk _ _ _ _ _ h rfl
            have dm := loop_dims junk _ _ _ _ _ h (by simp)
            have hf : f.flatten.take 2 = [.int n, .int 128] := by rw [ni _ _ _ h1, ni _ _ _ h2]; rfl
            refine ⟨c.1, dm, ?_, ?_⟩
            · rintro rfl
              refine ⟨n, f, rfl, hf, ?_⟩
              have := c.2
              simp at this
              omega
            · rintro rfl
              refine .inr ⟨n, f, rfl, hf, ?_⟩
              have := c.2
              simp at this
              omega

/-- **C108, cut files, partial.** A file that ends early after any whole line is never taken for a complete one. Cut
between two features the call returns false with the features before; cut within a feature the program is
terminated. Missing: a cut within a line, see `C108_cut_counterexample`. -/
theorem C108_cut_partial (junk : Nat → Nat → Nat) (fs : List Feature) (f : Feature) (later : List Feature)
    (h : ∀ g ∈ fs ++ [f], g.Valid) (k : Nat) (hk : k < 8) :
    readFile junk true (some ((fileOf (fs ++ f :: later)).take (1 + 8 * fs.length + k))) =
      if k = 0 then .ok (false, contents fs) else .abort := by
  have hlen : ∀ gs : List Feature, (gs.flatMap block).length = 8 * gs.length := by
    intro gs
    induction gs with
    | nil => rfl
    | cons g gs ih => simp [ih, block]; omega
  have e : (fileOf (fs ++ f :: later)).take (1 + 8 * fs.length + k) =
      [.int ((fs ++ f :: later).length : Nat), .int 128] :: (fs.flatMap block ++ (block f).take k) := by
    rw [fileOf, show 1 + 8 * fs.length + k = (8 * fs.length + k) + 1 by omega, List.take_succ_cons,
      List.flatMap_append, List.take_append, hlen, List.take_of_length_le (by rw [hlen]; omega),
      show 8 * fs.length + k - 8 * fs.length = k by omega, List.flatMap_cons, List.take_append_of_le_length]
    simp [block]; omega
  rw [e, read_header]
  have hv : ∀ g ∈ fs, g.Valid := fun g hg => h g (by simp [hg])
  have h1 := loop_blocks junk fs (fun g hg => (hv g hg).1) (later.length + 1) ((block f).take k) ⟨[], []⟩
  rw [loop_cut junk _ f (h f (by simp)).1 k hk, map_reduced fs hv] at h1
  have hn : ((fs ++ f :: later).length : Int).toNat = fs.length + (later.length + 1) := by simp; omega
  rw [if_neg (by simp), if_neg (by omega), hn, h1]
  simp [contents]

/-- A feature with bytes 0. -/
def zeroFeature : Feature := ⟨⟨1, 2, 3, 4⟩, List.replicate 128 0⟩

/-- **C108, finding.** When the last line of a file lacks numbers the call still returns true, and the missing entries
of the descriptor are what was in memory: here the file ends in the middle of the last line and two runs differ. -/
theorem C108_cut_counterexample : ∃ (f : File) (a b : Nat → Nat → Nat) (ra rb : Out),
    f = (fileOf [zeroFeature]).dropLast ++ [[.int 0, .int 0, .int 0]] ∧
    readFile a true (some f) = .ok (true, ra) ∧ readFile b true (some f) = .ok (true, rb) ∧ ra ≠ rb := by
  refine ⟨_, fun _ _ => 0, fun _ _ => 1, contents [zeroFeature],
    ⟨[⟨1, 2, 3, 4⟩], [(List.replicate 123 0 ++ List.replicate 5 1).map fun b : Nat => (b : ℚ) / 255]⟩, rfl, ?_, ?_, ?_⟩
  · rfl
  · rfl
  · intro e
    have := congrArg (fun o : Out => o.descriptors.map List.getLast?) e
    simp [contents, zeroFeature] at this

/-- **C108, finding.** The documented format does not say how the 128 numbers are split into lines. With all of
them on one line, a file with one feature terminates the program, whatever the feature. -/
theorem C108_lines_counterexample (junk : Nat → Nat → Nat) (f : Feature) (h : f.Valid) :
    readFile junk true (some [[.int 1, .int 128],
      [.frac f.kp.y, .frac f.kp.x, .frac f.kp.scale, .frac f.kp.orientation], intLine f.bytes]) = .abort := by
  have hne : f.bytes ≠ [] := by
    intro e
    have := h.1
    simp [e] at this
  rw [read_header]
  simp [loop, readKeypoint_line, skip_intLine _ _ hne, readBytes, readRows]

/-- **C108, finding.** The header says the pointer to the keypoints may be null; the call then always terminates the
program. So do a dimension other than 128 and a negative number of features. -/
theorem C108_abort (junk : Nat → Nat → Nat) (file : Option File) (n d : Int) (ls : File) :
    readFile junk false file = .abort ∧
    (d ≠ 128 ∨ n < 0 → readFile junk true (some ([.int n, .int d] :: ls)) = .abort) := by
  refine ⟨rfl, ?_⟩
  intro h
  rw [read_header]
  rcases h with h | h
  · simp [h]
  · simp [h]

section Examples

/-- Two features with different bytes. -/
example : readFile (fun _ _ => 77) true (some (fileOf [⟨⟨1, 2, 3, 4⟩, List.range 128⟩, zeroFeature])) =
    .ok (true, contents [⟨⟨1, 2, 3, 4⟩, List.range 128⟩, zeroFeature]) := by
  have := C108_read (fun _ _ => 77) [⟨⟨1, 2, 3, 4⟩, List.range 128⟩, zeroFeature] (by
    intro f hf
    simp only [List.mem_cons, List.not_mem_nil, or_false] at hf
    rcases hf with rfl | rfl
    · exact ⟨by simp, fun b hb => by simp at hb; omega⟩
    · exact ⟨by simp [zeroFeature], fun b hb => by simp [zeroFeature] at hb; omega⟩) []
  simpa using this

example : zeroFeature.Valid := ⟨by simp [zeroFeature], fun b hb => by simp [zeroFeature] at hb; omega⟩

/-- A file announcing two features and holding one, then three lines of the second. -/
example : readFile (fun _ _ => 0) true (some ((fileOf [zeroFeature, zeroFeature]).take 9)) =
      .ok (false, contents [zeroFeature]) ∧
    readFile (fun _ _ => 0) true (some ((fileOf [zeroFeature, zeroFeature]).take 12)) = .abort := by
  have v : ∀ g ∈ [zeroFeature] ++ [zeroFeature], g.Valid := by
    intro g hg
    simp at hg
    subst hg
    exact ⟨by simp [zeroFeature], fun b hb => by simp [zeroFeature] at hb; omega⟩
  exact ⟨C108_cut_partial _ [zeroFeature] zeroFeature [] v 0 (by omega),
    C108_cut_partial _ [zeroFeature] zeroFeature [] v 3 (by omega)⟩

end Examples

end Theia
