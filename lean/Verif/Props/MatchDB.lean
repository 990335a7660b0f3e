import Verif.Proof.MatchDB

/-!
# C31: the match databases return what was stored
-/

namespace Theia

open Spec MatchDB

variable {F I M B : Type}

/-- C31, in-memory database: after any history of calls, looking up features returns the value last put
for the name, and aborts if there is none. -/
theorem C31_mem_features (h : List (Op F I M)) (n : ImageName) :
    (∀ f, (Mem.run h).getFeatures n = .ok f ↔ LatestFeatures h n f) ∧
    ((Mem.run h).getFeatures n = .abort ↔ ∀ f, ¬ LatestFeatures h n f) ∧
    ((Mem.run h).containsFeatures n = true ↔ ∃ f, LatestFeatures h n f) := by
  refine ⟨fun f => ?_, ?_, ?_⟩
  · rw [Mem.getFeatures, findOrDie_ok, features_get]
  · rw [Mem.getFeatures, findOrDie_abort]
    simp only [← features_get]
    cases (Mem.run h).features.get n <;> simp
  · rw [Mem.containsFeatures, AMap.contains_iff, AMap.mem_keys_iff]
    simp only [features_get]

/-- C31, in-memory database: the same for the intrinsics priors. -/
theorem C31_mem_priors (h : List (Op F I M)) (n : ImageName) :
    (∀ p, (Mem.run h).getPrior n = .ok p ↔ LatestPrior h n p) ∧
    ((Mem.run h).getPrior n = .abort ↔ ∀ p, ¬ LatestPrior h n p) ∧
    ((Mem.run h).containsPrior n = true ↔ ∃ p, LatestPrior h n p) := by
  refine ⟨fun f => ?_, ?_, ?_⟩
  · rw [Mem.getPrior, findOrDie_ok, priors_get]
  · rw [Mem.getPrior, findOrDie_abort]
    simp only [← priors_get]
    cases (Mem.run h).priors.get n <;> simp
  · rw [Mem.containsPrior, AMap.contains_iff, AMap.mem_keys_iff]
    simp only [priors_get]

/-- C31, in-memory database: the same for the matches, which are keyed by the ordered pair; the list of
pairs has exactly the pairs that have a match, once each, and its length is the number of matches. -/
theorem C31_mem_matches (h : List (Op F I M)) (a b : ImageName) :
    (∀ m, (Mem.run h).getMatch a b = .ok m ↔ LatestMatch h a b m) ∧
    ((Mem.run h).getMatch a b = .abort ↔ ∀ m, ¬ LatestMatch h a b m) ∧
    ((a, b) ∈ (Mem.run h).namesOfMatches ↔ ∃ m, LatestMatch h a b m) ∧
    (Mem.run h).namesOfMatches.Nodup ∧ (Mem.run h).numMatches = (Mem.run h).namesOfMatches.length := by
  refine ⟨fun f => ?_, ?_, ?_, (run_wf h).2.2, AMap.size_eq_length_keys _⟩
  · rw [Mem.getMatch, findOrDie_ok, matches_get]
  · rw [Mem.getMatch, findOrDie_abort]
    simp only [← matches_get]
    cases (Mem.run h).matches_.get (a, b) <;> simp
  · rw [Mem.namesOfMatches, AMap.mem_keys_iff]
    simp only [matches_get]

/-- C31, in-memory database: the names of the images with features, once each. -/
theorem C31_mem_names (h : List (Op F I M)) (n : ImageName) :
    (n ∈ (Mem.run h).namesOfFeatures ↔ ∃ f, LatestFeatures h n f) ∧
    (Mem.run h).namesOfFeatures.Nodup ∧ (Mem.run h).numImages = (Mem.run h).namesOfFeatures.length := by
  refine ⟨?_, (run_wf h).1, AMap.size_eq_length_keys _⟩
  rw [Mem.namesOfFeatures, AMap.mem_keys_iff]
  simp only [features_get]

/-- C31, in-memory database: a database written to a file and read back into a new database has the same
priors and matches, if every match was put under the two image names it carries. -/
theorem C31_mem_file (image1 image2 : M → ImageName) (h : List (Op F I M))
    (hkey : ∀ a b m, LatestMatch h a b m → image1 m = a ∧ image2 m = b) :
    ∃ d : Mem F I M, Mem.read image1 image2 (Mem.run h).write .new = .ok d ∧
      (∀ n, d.getPrior n = (Mem.run h).getPrior n) ∧ ∀ a b, d.getMatch a b = (Mem.run h).getMatch a b := by
  obtain ⟨_, hwp, hwm⟩ := run_wf h
  refine ⟨_, by rw [Mem.read, if_pos (by simp [Mem.write])], ?_, ?_⟩
  · intro n
    rw [Mem.getPrior, Mem.getPrior]
    congr 1
    rw [Mem.write]
    simp only
    rw [readPriors_get _ _ _ hwp, (readMatches_other _ _ _ _).1]
    show _ = ((Mem.run h).priors.entries.find? (fun e => decide (e.1 = n))).map (·.2)
    cases (Mem.run h).priors.entries.find? (fun e => decide (e.1 = n)) <;> simp [Mem.new]
  · intro a b
    rw [Mem.getMatch, Mem.getMatch]
    congr 1
    rw [(readPriors_other _ _ _).1]
    rw [Mem.write]
    simp only
    have hent : ∀ e ∈ (Mem.run h).matches_.entries, (image1 e.2, image2 e.2) = e.1 := by
      rintro ⟨⟨x, y⟩, m⟩ he
      have := hkey x y m ((matches_get h x y m).1 (AMap.get_of_mem_entries hwm he))
      simp [this]
    have hmap : ((Mem.run h).matches_.entries.map (·.2)).map (fun m => (image1 m, image2 m)) =
        (Mem.run h).matches_.keys := by
      rw [AMap.keys, List.map_map]
      exact List.map_congr_left hent
    rw [readMatches_get _ _ _ _ _ (by rw [hmap]; exact hwm), List.find?_map]
    show _ = ((Mem.run h).matches_.entries.find? (fun e => decide (e.1 = (a, b)))).map (·.2)
    have hfind : (Mem.run h).matches_.entries.find?
        ((fun m => decide ((image1 m, image2 m) = (a, b))) ∘ fun x => x.2) =
        (Mem.run h).matches_.entries.find? (fun e => decide (e.1 = (a, b))) := by
      exact find?_congr' fun e he => by simp only [Function.comp]; rw [hent e he]
    rw [hfind]
    cases (Mem.run h).matches_.entries.find? (fun e => decide (e.1 = (a, b))) <;> simp [Mem.new]

/-- A match of this example: the two names and a number. -/
abbrev TinyMatch := ImageName × ImageName × Nat

/-- A history with overwriting, removal and two pairs. -/
def dbHistory : List (Op Nat Nat TinyMatch) :=
  [.putMatch ['a'] ['b'] (['a'], ['b'], 1), .removeAllMatches, .putFeatures ['a'] 5, .putFeatures ['a'] 6,
   .putMatch ['b'] ['a'] (['b'], ['a'], 2), .putPrior ['a'] 7, .putMatch ['b'] ['a'] (['b'], ['a'], 3),
   .putMatch ['a'] ['c'] (['a'], ['c'], 4)]

/-- The hypothesis of `C31_mem_file` holds for this history, and there are values to return. -/
example : (∀ a b m, LatestMatch dbHistory a b m → m.1 = a ∧ m.2.1 = b) ∧
    (Mem.run dbHistory).getMatch ['b'] ['a'] = .ok (['b'], ['a'], 3) ∧
    (Mem.run dbHistory).getMatch ['a'] ['b'] = .abort ∧ (Mem.run dbHistory).getFeatures ['a'] = .ok 6 := by
  refine ⟨?_, by decide, by decide, by decide⟩
  rintro a b m ⟨bf, af, heq, _, _⟩
  have hm : Op.putMatch a b m ∈ dbHistory := by rw [heq]; simp
  simp only [dbHistory, List.mem_cons, Op.putMatch.injEq, reduceCtorEq, List.not_mem_nil, false_or, or_false] at hm
  rcases hm with ⟨rfl, rfl, rfl⟩ | ⟨rfl, rfl, rfl⟩ | ⟨rfl, rfl, rfl⟩ | ⟨rfl, rfl, rfl⟩ <;> exact ⟨rfl, rfl⟩

/-- The hypothesis is needed: a match put under the names in the other order comes back under the names
that it carries. -/
theorem C31_mem_file_counterexample :
    ∃ d : Mem Nat Nat TinyMatch,
      Mem.read (fun m => m.1) (fun m => m.2.1) (Mem.run [.putMatch ['a'] ['b'] (['b'], ['a'], 1)] : Mem Nat Nat TinyMatch).write .new = .ok d ∧
      (Mem.run [.putMatch ['a'] ['b'] (['b'], ['a'], 1)] : Mem Nat Nat TinyMatch).getMatch ['a'] ['b'] =
        .ok (['b'], ['a'], 1) ∧
      d.getMatch ['a'] ['b'] = .abort :=
  ⟨_, rfl, by decide, by decide⟩

/-- C31, on-disk database: if the serialization loses nothing, features and priors come back as last put. -/
theorem C31_rocks_features (c : Codec F I M B) (hF : ∀ f, c.decF (c.encF f) = f) (hI : ∀ p, c.decI (c.encI p) = p)
    (h : List (Op F I M)) (n : ImageName) :
    (∀ f, (Rocks.run c h).getFeatures c n = .ok f ↔ LatestFeatures h n f) ∧
    (∀ p, (Rocks.run c h).getPrior c n = .ok p ↔ LatestPrior h n p) := by
  refine ⟨fun f => ?_, fun p => ?_⟩
  · rw [← rocks_features_get c hF, Rocks.getFeatures]
    cases (Rocks.run c h).features.get n <;> simp
  · rw [← rocks_priors_get c hI, Rocks.getPrior]
    cases (Rocks.run c h).priors.get n <;> simp

/-- C31, on-disk database, the part that holds: matches come back as last put, and the list of pairs has
exactly the pairs that have a match, as long as the first name of every pair (in the history and in the
query) has no `/`. That names with `/` mix pairs up is `C31_rocks_counterexample`. -/
theorem C31_rocks_matches_partial (c : Codec F I M B) (hM : ∀ m, c.decM (c.encM m) = m)
    (h : List (Op F I M)) (hp : PlainNames h) (a b : ImageName) (ha : '/' ∉ a) :
    (∀ m, (Rocks.run c h).getMatch c a b = .ok m ↔ LatestMatch h a b m) ∧
    ((Rocks.run c h).getMatch c a b = .abort ↔ ∀ m, ¬ LatestMatch h a b m) ∧
    ((a, b) ∈ (Rocks.run c h).namesOfMatches ↔ ∃ m, LatestMatch h a b m) := by
  have hg := rocks_matches_get c hM h hp a b ha
  refine ⟨fun m => ?_, ?_, ?_⟩
  · rw [← hg, Rocks.getMatch]
    cases (Rocks.run c h).matches_.get (compose a b) <;> simp
  · simp only [← hg]
    rw [Rocks.getMatch]
    cases (Rocks.run c h).matches_.get (compose a b) <;> simp
  · simp only [← hg]
    rw [Rocks.namesOfMatches, List.mem_map]
    constructor
    · rintro ⟨k, hk, hd⟩
      obtain ⟨x, y, hx, rfl⟩ := rocks_keys c h hp k hk
      rw [decompose_compose hx] at hd
      cases hd
      obtain ⟨v, hv⟩ := AMap.mem_keys_iff.1 hk
      exact ⟨c.decM v, by rw [hv]; rfl⟩
    · rintro ⟨m, hm⟩
      refine ⟨compose a b, ?_, decompose_compose ha⟩
      rw [Option.map_eq_some_iff] at hm
      exact AMap.mem_keys_iff.2 ⟨_, hm.choose_spec.1⟩

/-- The serialization of the examples: numbers are their own bytes. -/
def tinyCodec : Codec Nat Nat Nat Nat := ⟨id, id, id, id, id, id⟩

/-- A history without `/` in first names. -/
example : PlainNames ([.putMatch ['a'] ['b', '/'] 1, .putMatch ['a'] ['c'] 2] : List (Op Nat Nat Nat)) ∧
    (Rocks.run tinyCodec [.putMatch ['a'] ['b', '/'] 1, .putMatch ['a'] ['c'] 2]).getMatch tinyCodec ['a'] ['b', '/'] =
      .ok 1 := by
  refine ⟨?_, by decide⟩
  intro a b m hm
  simp only [List.mem_cons, Op.putMatch.injEq, List.not_mem_nil, or_false] at hm
  rcases hm with ⟨rfl, rfl, rfl⟩ | ⟨rfl, rfl, rfl⟩ <;> decide

/-- C31 is false of the on-disk database for names with `/`: the pairs `(a/b, c)` and `(a, b/c)` have the
same key. The second put overwrites the first, and the list of pairs names only one of them. -/
theorem C31_rocks_counterexample :
    let h : List (Op Nat Nat Nat) := [.putMatch ['a', '/', 'b'] ['c'] 1, .putMatch ['a'] ['b', '/', 'c'] 2]
    LatestMatch h ['a', '/', 'b'] ['c'] 1 ∧
      (Rocks.run tinyCodec h).getMatch tinyCodec ['a', '/', 'b'] ['c'] = .ok 2 ∧
      (Rocks.run tinyCodec h).namesOfMatches = [(['a'], ['b', '/', 'c'])] :=
  ⟨⟨[], [.putMatch ['a'] ['b', '/', 'c'] 2], rfl, by simp, by simp⟩, by decide, by decide⟩

end Theia
