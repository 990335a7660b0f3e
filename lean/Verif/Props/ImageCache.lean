import Verif.Props.LRUCache
import Verif.Spec.ImageCache

/-!
# C112: the cache of images
-/

namespace Theia

open ImageCache Spec Spec.Images LRU

namespace ImageCache

variable {I : Type}

theorem appendSlash_eq {directory : List Char} (h : directory ≠ []) : appendSlash directory = .ok (slashed directory) := by
  unfold appendSlash slashed
  cases hl : directory.getLast? with
  | none => exact absurd (List.getLast?_eq_none_iff.1 hl) h
  | some c => simp

theorem create_eq {directory : List Char} (h : directory ≠ []) {m : Nat} (hm : 0 < m) :
    create (I := I) directory m = .ok ⟨slashed directory, ⟨m, [], .empty, 0, 0⟩⟩ := by
  simp only [create, appendSlash_eq h, Outcome.ok_bind, LRU.create, gt_iff_lt, if_pos hm]

/-- A name used last. -/
theorem fetch_hit {m : Nat} (hm : 0 < m) {uses : List (List Char × I)} {c : State I} (h : Reflects m uses c.images)
    (disk : Disk I) (name : List Char) (hk : name ∈ recent m uses) :
    ∃ image c', lastValue uses name = some image ∧ fetchImage disk c name = .ok (image, [], { c with images := c' }) ∧
      Reflects m (uses ++ [(name, image)]) c' := by
  have hv := h.value name hk
  obtain ⟨v, hg⟩ := AMap.mem_keys_iff.1 ((h.keys name).2 hk)
  obtain ⟨v', c', h1, h2, h3, -⟩ := (fetch_spec hm (fun _ => v) h name).1 hk
  refine ⟨v', c', h1, ?_, h3⟩
  unfold fetchImage
  change c.images.map.get name = some v at hg
  rw [hg]
  simp only [h2, Outcome.ok_bind, List.map_nil]

/-- Another name. -/
theorem fetch_miss {m : Nat} (hm : 0 < m) {uses : List (List Char × I)} {c : State I} (h : Reflects m uses c.images)
    (disk : Disk I) (name : List Char) (hk : name ∉ recent m uses) :
    (disk (c.directory ++ name) = none → fetchImage disk c name = .abort) ∧
    ∀ image, disk (c.directory ++ name) = some image →
      ∃ c', fetchImage disk c name = .ok (image, [c.directory ++ name], { c with images := c' }) ∧
        Reflects m (uses ++ [(name, image)]) c' := by
  have hn : c.images.map.get name = none := AMap.get_eq_none_iff.2 (fun hh => hk ((h.keys name).1 hh))
  unfold fetchImage
  rw [hn]
  constructor
  · intro hd
    simp only [hd]
  · intro image hd
    obtain ⟨c', h1, h2, -⟩ := (fetch_spec hm (fun _ => image) h name).2 hk
    refine ⟨c', ?_, h2⟩
    simp only [hd, h1, Outcome.ok_bind, List.map_cons, List.map_nil]

theorem run_served {m : Nat} (hm : 0 < m) (directory : List Char) (calls : List (Disk I × List Char))
    {uses : List (List Char × I)} {c : State I} (hd : c.directory = directory) (h : Reflects m uses c.images) :
    (served m directory uses calls = none → run calls c = .abort) ∧
    ∀ rs, served m directory uses calls = some rs → ∃ c', run calls c = .ok (rs, c') ∧ c'.directory = directory ∧
      Reflects m (uses ++ (calls.map (·.2)).zip (rs.map (·.1))) c'.images := by
  induction calls generalizing uses c with
  | nil =>
    constructor
    · intro e; cases e
    · intro rs e
      cases e
      exact ⟨c, rfl, hd, by simpa using h⟩
  | cons call calls ih =>
    obtain ⟨disk, name⟩ := call
    subst hd
    simp only [served, run]
    by_cases hk : name ∈ recent m uses
    · obtain ⟨image, c', h1, h2, h3⟩ := fetch_hit hm h disk name hk
      simp only [if_pos hk, h1, h2, Outcome.ok_bind]
      obtain ⟨i1, i2⟩ := ih (c := { c with images := c' }) rfl h3
      constructor
      · intro e
        rw [Option.map_eq_none_iff] at e
        rw [i1 e]; rfl
      · intro rs e
        obtain ⟨rs', e', rfl⟩ := Option.map_eq_some_iff.1 e
        obtain ⟨c'', e2, e3, e4⟩ := i2 rs' e'
        exact ⟨c'', by rw [e2]; rfl, e3, by simpa using e4⟩
    · obtain ⟨g1, g2⟩ := fetch_miss hm h disk name hk
      rw [if_neg hk]
      cases hdn : disk (c.directory ++ name) with
      | none =>
        constructor
        · intro _
          rw [g1 hdn]; rfl
        · intro rs e; cases e
      | some image =>
        obtain ⟨c', h2, h3⟩ := g2 image hdn
        simp only [h2, Outcome.ok_bind]
        obtain ⟨i1, i2⟩ := ih (c := { c with images := c' }) rfl h3
        constructor
        · intro e
          rw [Option.map_eq_none_iff] at e
          rw [i1 e]; rfl
        · intro rs e
          obtain ⟨rs', e', rfl⟩ := Option.map_eq_some_iff.1 e
          obtain ⟨c'', e2, e3, e4⟩ := i2 rs' e'
          exact ⟨c'', by rw [e2]; rfl, e3, by simpa using e4⟩

theorem mem_recent {m : Nat} {uses : List (List Char × I)} {name : List Char} (h : name ∈ recent m uses) :
    name ∈ uses.map (·.1) :=
  List.mem_dedup.1 (List.mem_of_mem_drop h)

theorem lastValue_mem {uses : List (List Char × I)} {name : List Char} {image : I} (h : lastValue uses name = some image) :
    (name, image) ∈ uses := by
  unfold lastValue at h
  obtain ⟨u, hu, rfl⟩ := Option.map_eq_some_iff.1 h
  have h1 := List.find?_some hu
  have h2 := List.mem_of_find?_eq_some hu
  simp only [decide_eq_true_eq] at h1
  subst h1
  simpa using h2

theorem lastValue_some {uses : List (List Char × I)} {name : List Char} (h : name ∈ uses.map (·.1)) :
    ∃ image, lastValue uses name = some image := by
  obtain ⟨u, hu, rfl⟩ := List.mem_map.1 h
  unfold lastValue
  cases hf : uses.reverse.find? (fun x => decide (x.1 = u.1)) with
  | none =>
    rw [List.find?_eq_none] at hf
    exact absurd (by simp) (hf u (by simpa using hu))
  | some w => exact ⟨w.2, rfl⟩

end ImageCache

variable {I : Type}

/-- **C112, partial.** Missing, because the code does not do it: a null pointer for a missing image (`C112_missing`). Any
calls, with any disk at each of them: the images returned and the files read are those of the
description in terms of the names used last, the program ends exactly where it says, and there are never more than `m`
images in the cache. -/
theorem C112_served_partial (m : Nat) (hm : 0 < m) (directory : List Char) (hd : directory ≠ []) (calls : List (Disk I × List Char)) :
    ∃ c, create directory m = .ok c ∧
      match served m (slashed directory) [] calls with
      | none => ImageCache.run calls c = .abort
      | some rs => ∃ c', ImageCache.run calls c = .ok (rs, c') ∧ c'.images.map.size ≤ m := by
  refine ⟨_, create_eq hd hm, ?_⟩
  obtain ⟨h1, h2⟩ := run_served hm (slashed directory) calls
    (c := ⟨slashed directory, ⟨m, [], .empty, 0, 0⟩⟩) rfl (reflects_empty m)
  cases hs : served m (slashed directory) [] calls with
  | none => exact h1 hs
  | some rs =>
    obtain ⟨c', e, -, hr⟩ := h2 rs hs
    exact ⟨c', e, by rw [hr.size]; exact recent_length_le _ _⟩

/-- **C112.** While the files do not change, every call returns the image in its file, and the calls return if all files
exist. -/
theorem C112_fixed (m : Nat) (hm : 0 < m) (directory : List Char) (hd : directory ≠ []) (disk : Disk I)
    (names : List (List Char)) (hn : ∀ name ∈ names, disk (slashed directory ++ name) ≠ none) :
    ∃ c rs c', create directory m = .ok c ∧ ImageCache.run (names.map fun n => (disk, n)) c = .ok (rs, c') ∧
      rs.map (fun r => some r.1) = names.map fun n => disk (slashed directory ++ n) := by
  have key : ∀ (names : List (List Char)) (uses : List (List Char × I)),
      (∀ name ∈ names, disk (slashed directory ++ name) ≠ none) →
      (∀ u ∈ uses, disk (slashed directory ++ u.1) = some u.2) →
      ∃ rs, served m (slashed directory) uses (names.map fun n => (disk, n)) = some rs ∧
        rs.map (fun r => some r.1) = names.map fun n => disk (slashed directory ++ n) := by
    intro names
    induction names with
    | nil => intro uses _ _; exact ⟨[], rfl, rfl⟩
    | cons n names ih =>
      intro uses hn hu
      obtain ⟨image, hi⟩ := Option.ne_none_iff_exists'.1 (hn n (by simp))
      have hu' : ∀ u ∈ uses ++ [(n, image)], disk (slashed directory ++ u.1) = some u.2 := by
        intro u h
        rcases List.mem_append.1 h with h | h
        · exact hu u h
        · rw [List.mem_singleton.1 h]; exact hi
      obtain ⟨rs, e, h⟩ := ih _ (fun x hx => hn x (by simp [hx])) hu'
      simp only [List.map_cons, served]
      by_cases hk : n ∈ recent m uses
      · obtain ⟨w, hw⟩ := lastValue_some (mem_recent hk)
        have := hu _ (lastValue_mem hw)
        rw [hi] at this
        cases this
        simp only [if_pos hk, hw, e]
        exact ⟨_, rfl, by simp [h, hi]⟩
      · simp only [if_neg hk, hi, e]
        exact ⟨_, rfl, by simp [h, hi]⟩
  obtain ⟨rs, e, h⟩ := key names [] hn (by simp)
  obtain ⟨c, hc, hr⟩ := C112_served_partial m hm directory hd (names.map fun n => (disk, n))
  rw [e] at hr
  obtain ⟨c', hr, -⟩ := hr
  exact ⟨c, rs, c', hc, hr, h⟩

/-- **C112.** If no more than `m` different names are asked for, no file is read twice, whatever the disk does. -/
theorem C112_once (m : Nat) (hm : 0 < m) (directory : List Char) (hd : directory ≠ []) (calls : List (Disk I × List Char))
    (hl : (calls.map (·.2)).dedup.length ≤ m) (c c' : State I) (rs : List (I × List (List Char)))
    (hc : create directory m = .ok c) (hr : ImageCache.run calls c = .ok (rs, c')) : (rs.map (·.2)).flatten.Nodup := by
  have key : ∀ (calls : List (Disk I × List Char)) (uses : List (List Char × I)) (rs : List (I × List (List Char))),
      (uses.map (·.1) ++ calls.map (·.2)).dedup.length ≤ m → served m (slashed directory) uses calls = some rs →
      (rs.map (·.2)).flatten.Nodup ∧ ∀ p ∈ (rs.map (·.2)).flatten, ∃ n, p = slashed directory ++ n ∧ n ∉ uses.map (·.1) := by
    intro calls
    induction calls with
    | nil => intro uses rs _ e; cases e; simp
    | cons call calls ih =>
      obtain ⟨disk, name⟩ := call
      intro uses rs hl e
      have hl' : ∀ image : I, ((uses ++ [(name, image)]).map (·.1) ++ calls.map (·.2)).dedup.length ≤ m := by
        intro image
        simpa using hl
      simp only [served] at e
      split at e
      · split at e
        · cases e
        · rename_i image _
          obtain ⟨rs', e', rfl⟩ := Option.map_eq_some_iff.1 e
          obtain ⟨h1, h2⟩ := ih _ rs' (hl' image) e'
          refine ⟨by simpa using h1, ?_⟩
          intro p hp
          obtain ⟨n, hn1, hn2⟩ := h2 p (by simpa using hp)
          exact ⟨n, hn1, fun hh => hn2 (by rw [List.map_append]; exact List.mem_append_left _ hh)⟩
      · rename_i hk
        split at e
        · cases e
        · rename_i image _
          obtain ⟨rs', e', rfl⟩ := Option.map_eq_some_iff.1 e
          obtain ⟨h1, h2⟩ := ih _ rs' (hl' image) e'
          have hnew : name ∉ uses.map (·.1) := by
            intro hh
            apply hk
            have hle : (uses.map (·.1)).dedup.length ≤ m := by
              refine Nat.le_trans ?_ hl
              exact List.Nodup.length_le_of_subset (List.nodup_dedup _)
                (fun x hx => List.mem_dedup.2 (List.mem_append_left _ (List.mem_dedup.1 hx)))
            unfold recent
            simp only [Nat.sub_eq_zero_of_le hle, List.drop_zero]
            exact List.mem_dedup.2 hh
          refine ⟨?_, ?_⟩
          · simp only [List.map_cons, List.flatten_cons, List.singleton_append, List.nodup_cons]
            refine ⟨?_, h1⟩
            intro hp
            obtain ⟨n, hn1, hn2⟩ := h2 _ hp
            have := List.append_cancel_left hn1
            subst this
            exact hn2 (by simp)
          · intro p hp
            simp only [List.map_cons, List.flatten_cons, List.singleton_append, List.mem_cons] at hp
            rcases hp with rfl | hp
            · exact ⟨name, rfl, hnew⟩
            · obtain ⟨n, hn1, hn2⟩ := h2 p hp
              exact ⟨n, hn1, fun hh => hn2 (by rw [List.map_append]; exact List.mem_append_left _ hh)⟩
  obtain ⟨c1, h1, h2⟩ := C112_served_partial m hm directory hd calls
  rw [hc] at h1
  cases h1
  cases hs : served m (slashed directory) [] calls with
  | none =>
    rw [hs] at h2
    simp only at h2
    rw [h2] at hr
    cases hr
  | some rs' =>
    rw [hs] at h2
    obtain ⟨c2, e, -⟩ := h2
    rw [e] at hr
    cases hr
    exact (key calls [] rs (by simpa using hl) hs).1

/-- **C112, finding.** The header says that a missing image gives a null pointer. After any calls, asking for a name that
was not asked for before and has no file ends the program. -/
theorem C112_missing (m : Nat) (hm : 0 < m) (directory : List Char) (hd : directory ≠ []) (calls : List (Disk I × List Char))
    (c c' : State I) (rs : List (I × List (List Char))) (hc : create directory m = .ok c)
    (hr : ImageCache.run calls c = .ok (rs, c')) (disk : Disk I) (name : List Char) (hn : name ∉ calls.map (·.2))
    (hm' : disk (slashed directory ++ name) = none) : fetchImage disk c' name = .abort := by
  rw [create_eq hd hm] at hc
  cases hc
  obtain ⟨h1, h2⟩ := run_served hm (slashed directory) calls
    (c := ⟨slashed directory, ⟨m, [], .empty, 0, 0⟩⟩) rfl (reflects_empty m)
  cases hs : served m (slashed directory) [] calls with
  | none =>
    rw [h1 hs] at hr
    cases hr
  | some rs' =>
    obtain ⟨c2, e, e2, e3⟩ := h2 rs' hs
    rw [e] at hr
    cases hr
    refine (fetch_miss hm e3 disk name ?_).1 (by rw [e2]; exact hm')
    intro hk
    have := mem_recent hk
    rw [List.nil_append] at this
    obtain ⟨u, hu, rfl⟩ := List.mem_map.1 this
    exact hn (List.of_mem_zip hu).1

/-- **C112, finding.** A file that was changed or deleted is not noticed: asked for the same name again, whatever the disk
is then, the cache returns the image it read the first time. -/
theorem C112_stale (m : Nat) (hm : 0 < m) (directory : List Char) (hd : directory ≠ []) (calls : List (Disk I × List Char))
    (before after : Disk I) (name : List Char) (c c' : State I) (rs : List (I × List (List Char)))
    (hc : create directory m = .ok c) (hr : ImageCache.run (calls ++ [(before, name)]) c = .ok (rs, c')) :
    ∃ r c'', rs.getLast? = some r ∧ fetchImage after c' name = .ok (r.1, [], c'') := by
  rw [create_eq hd hm] at hc
  cases hc
  obtain ⟨h1, h2⟩ := run_served hm (slashed directory) (calls ++ [(before, name)])
    (c := ⟨slashed directory, ⟨m, [], .empty, 0, 0⟩⟩) rfl (reflects_empty m)
  have hlen : ∀ (calls : List (Disk I × List Char)) (uses : List (List Char × I)) (rs : List (I × List (List Char))),
      served m (slashed directory) uses calls = some rs → rs.length = calls.length := by
    intro calls
    induction calls with
    | nil => intro uses rs e; cases e; rfl
    | cons call calls ih =>
      intro uses rs e
      simp only [served] at e
      split at e <;> split at e
      · cases e
      · obtain ⟨rs', e', rfl⟩ := Option.map_eq_some_iff.1 e
        simp [ih _ _ e']
      · cases e
      · obtain ⟨rs', e', rfl⟩ := Option.map_eq_some_iff.1 e
        simp [ih _ _ e']
  cases hs : served m (slashed directory) [] (calls ++ [(before, name)]) with
  | none =>
    rw [h1 hs] at hr
    cases hr
  | some rs' =>
    obtain ⟨c2, e, e2, e3⟩ := h2 rs' hs
    rw [e] at hr
    cases hr
    have hl := hlen _ _ _ hs
    have hne : rs ≠ [] := by
      intro h0
      subst h0
      simp at hl
    obtain ⟨init, r, rfl⟩ := List.eq_nil_or_concat rs |>.resolve_left hne
    simp only [List.concat_eq_append] at *
    have hz : [] ++ ((calls ++ [(before, name)]).map (·.2)).zip ((init ++ [r]).map (·.1)) =
        (calls.map (·.2)).zip (init.map (·.1)) ++ [(name, r.1)] := by
      simp only [List.map_append, List.nil_append, List.map_cons, List.map_nil]
      rw [List.zip_append (by simpa using hl.symm)]
      rfl
    rw [hz] at e3
    have hk : name ∈ recent m ((calls.map (·.2)).zip (init.map (·.1)) ++ [(name, r.1)]) := by
      by_cases hk' : name ∈ recent m ((calls.map (·.2)).zip (init.map (·.1)))
      · rw [recent_hit m _ name r.1 hk']; simp
      · rw [recent_miss m hm _ name r.1 hk']; simp
    obtain ⟨image, c3, g1, g2, -⟩ := fetch_hit hm e3 after name hk
    rw [lastValue_append, if_pos rfl] at g1
    cases g1
    exact ⟨r, _, by simp, g2⟩

section Examples

/-- A disk with two files, and one on which the first was replaced and the second deleted. -/
private def disk1 : Disk Nat := fun p => if p = "d/a".toList then some 1 else if p = "d/b".toList then some 2 else none
private def disk2 : Disk Nat := fun p => if p = "d/a".toList then some 7 else none

/-- With room for one image, `a` is read again after `b`; with room for two it is not, and the change is not seen. -/
example : served 1 (slashed ['d']) [] [(disk1, ['a']), (disk1, ['b']), (disk2, ['a'])] =
      some [(1, [['d', '/', 'a']]), (2, [['d', '/', 'b']]), (7, [['d', '/', 'a']])] ∧
    served 2 (slashed ['d']) [] [(disk1, ['a']), (disk1, ['b']), (disk2, ['a'])] =
      some [(1, [['d', '/', 'a']]), (2, [['d', '/', 'b']]), (1, [])] ∧
    served 2 (slashed ['d']) [] [(disk2, ['b'])] = none := by decide

end Examples

end Theia
