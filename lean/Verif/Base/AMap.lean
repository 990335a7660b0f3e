/-!
# Association maps

`AMap κ ν` stands for `std::unordered_map<κ, ν>` (and `std::map` where the order is
irrelevant). It is a list of key/value pairs; the list order is the iteration order. The
well-formedness predicate `WF` says that no key occurs twice, which every operation
preserves. `std::unordered_set<κ>` is a duplicate-free `List κ`.
-/

namespace Theia

/-- Finite map as a list of key/value pairs, in iteration order. -/
structure AMap (κ : Type u) (ν : Type v) where
  entries : List (κ × ν)
  deriving DecidableEq, Repr

namespace AMap

variable {κ : Type u} {ν : Type v} {μ : Type w}

/-- The empty map. -/
def empty : AMap κ ν := ⟨[]⟩

/-- Keys in iteration order. -/
def keys (m : AMap κ ν) : List κ := m.entries.map (·.1)

/-- `size()`. -/
def size (m : AMap κ ν) : Nat := m.entries.length

/-- No key occurs twice. -/
def WF (m : AMap κ ν) : Prop := m.keys.Nodup

instance [DecidableEq κ] (m : AMap κ ν) : Decidable m.WF :=
  inferInstanceAs (Decidable m.keys.Nodup)

variable [DecidableEq κ]

/-- `find(k)` (`FindOrNull` in util/map_util.h). -/
def get (m : AMap κ ν) (k : κ) : Option ν := (m.entries.find? (fun e => decide (e.1 = k))).map (·.2)

/-- `count(k) > 0` (`ContainsKey` in util/map_util.h). -/
def contains (m : AMap κ ν) (k : κ) : Bool := (m.get k).isSome

/-- `m[k] = v`: overwrite in place or add a new entry. -/
def insert (m : AMap κ ν) (k : κ) (v : ν) : AMap κ ν :=
  if m.contains k then ⟨m.entries.map (fun e => if e.1 = k then (k, v) else e)⟩
  else ⟨m.entries ++ [(k, v)]⟩

/-- `emplace(k, v)`: adds an entry only if the key is absent. -/
def emplace (m : AMap κ ν) (k : κ) (v : ν) : AMap κ ν :=
  if m.contains k then m else ⟨m.entries ++ [(k, v)]⟩

/-- `erase(k)`. -/
def erase (m : AMap κ ν) (k : κ) : AMap κ ν := ⟨m.entries.filter (fun e => decide (e.1 ≠ k))⟩

/-- Modify the value stored at `k` through a reference, if present. -/
def modify (m : AMap κ ν) (k : κ) (f : ν → ν) : AMap κ ν :=
  ⟨m.entries.map (fun e => if e.1 = k then (e.1, f e.2) else e)⟩

omit [DecidableEq κ] in
@[simp] theorem keys_empty : (empty : AMap κ ν).keys = [] := rfl
@[simp] theorem get_empty (k : κ) : (empty : AMap κ ν).get k = none := rfl
omit [DecidableEq κ] in
@[simp] theorem wf_empty : (empty : AMap κ ν).WF := List.nodup_nil

theorem get_eq_none_iff {m : AMap κ ν} {k : κ} : m.get k = none ↔ k ∉ m.keys := by
  unfold get keys
  simp only [Option.map_eq_none_iff, List.find?_eq_none, decide_eq_true_eq, List.mem_map, not_exists,
    not_and]

theorem isSome_get_iff {m : AMap κ ν} {k : κ} : (m.get k).isSome ↔ k ∈ m.keys := by
  rw [← Option.ne_none_iff_isSome, ne_eq, get_eq_none_iff, Classical.not_not]

theorem mem_keys_iff {m : AMap κ ν} {k : κ} : k ∈ m.keys ↔ ∃ v, m.get k = some v := by
  rw [← isSome_get_iff, Option.isSome_iff_exists]

@[simp] theorem contains_iff {m : AMap κ ν} {k : κ} : m.contains k = true ↔ k ∈ m.keys :=
  isSome_get_iff

theorem mem_entries_of_get {m : AMap κ ν} {k : κ} {v : ν} (h : m.get k = some v) :
    (k, v) ∈ m.entries := by
  unfold get at h
  rw [Option.map_eq_some_iff] at h
  obtain ⟨e, he, rfl⟩ := h
  have h1 := List.find?_some he
  have h2 := List.mem_of_find?_eq_some he
  simp only [decide_eq_true_eq] at h1
  subst h1
  exact h2

theorem get_of_mem_entries {m : AMap κ ν} (hw : m.WF) {k : κ} {v : ν} (h : (k, v) ∈ m.entries) :
    m.get k = some v := by
  obtain ⟨es⟩ := m
  unfold WF keys at hw
  unfold get
  simp only at *
  induction es with
  | nil => cases h
  | cons e es ih =>
    simp only [List.map_cons, List.nodup_cons] at hw
    by_cases hk : e.1 = k
    · simp only [List.find?_cons, hk, decide_true, Option.map_some]
      rcases List.mem_cons.1 h with rfl | h'
      · rfl
      · exact absurd (hk ▸ List.mem_map_of_mem (f := (·.1)) h') hw.1
    · simp only [List.find?_cons, hk, decide_false]
      rcases List.mem_cons.1 h with rfl | h'
      · exact absurd rfl hk
      · exact ih hw.2 h'

theorem get_eq_some_iff {m : AMap κ ν} (hw : m.WF) {k : κ} {v : ν} :
    m.get k = some v ↔ (k, v) ∈ m.entries :=
  ⟨mem_entries_of_get, get_of_mem_entries hw⟩

theorem get_insert (m : AMap κ ν) (k k' : κ) (v : ν) :
    (m.insert k v).get k' = if k' = k then some v else m.get k' := by
  unfold insert
  split
  · rename_i hc
    simp only [contains] at hc
    unfold get at *
    obtain ⟨es⟩ := m
    simp only at *
    induction es with
    | nil => simp at hc
    | cons e es ih =>
      by_cases hk : e.1 = k
      · by_cases hk' : k' = k
        · subst hk'; simp [hk]
        · have : ¬ k = k' := fun h => hk' h.symm
          have h3 : ¬ e.1 = k' := fun h => hk' (h ▸ hk)
          simp only [List.map_cons, hk, if_true, List.find?_cons, this, decide_false, hk', if_false]
          clear ih hc
          induction es with
          | nil => simp
          | cons e2 es ih2 =>
            by_cases h5 : e2.1 = k
            · simp only [List.map_cons, h5, if_true, List.find?_cons, this, decide_false]
              exact ih2
            · by_cases h6 : e2.1 = k'
              · have : ¬ k' = k := hk'
                simp [h6, this]
              · simp only [List.map_cons, h5, if_false, List.find?_cons, h6, decide_false]
                exact ih2
      · simp only [List.find?_cons, hk, decide_false] at hc
        simp only [List.map_cons, hk, if_false, List.find?_cons]
        by_cases hk2 : e.1 = k'
        · have : ¬ k' = k := fun h => hk (hk2.trans h)
          simp [hk2, this]
        · simp only [hk2, decide_false]
          exact ih hc
  · rename_i hc
    have hn : m.get k = none := by
      cases h : m.get k with
      | none => rfl
      | some x => simp [contains, h] at hc
    unfold get at *
    simp only [List.find?_append]
    by_cases hk' : k' = k
    · subst hk'
      rw [Option.map_eq_none_iff] at hn
      rw [hn]
      simp
    · have : ¬ k = k' := fun h => hk' h.symm
      simp [hk', this]

theorem get_insert_self (m : AMap κ ν) (k : κ) (v : ν) : (m.insert k v).get k = some v := by
  simp [get_insert]

theorem get_insert_ne (m : AMap κ ν) {k k' : κ} (v : ν) (h : k' ≠ k) :
    (m.insert k v).get k' = m.get k' := by
  simp [get_insert, h]

theorem get_erase (m : AMap κ ν) (k k' : κ) :
    (m.erase k).get k' = if k' = k then none else m.get k' := by
  unfold erase get
  obtain ⟨es⟩ := m
  simp only
  induction es with
  | nil => simp
  | cons e es ih =>
    by_cases hk : e.1 = k
    · rw [List.filter_cons_of_neg (by simp [hk])]
      rw [ih]
      by_cases hk' : k' = k
      · simp [hk']
      · have : ¬ e.1 = k' := fun h => hk' (h ▸ hk)
        simp [hk', this]
    · rw [List.filter_cons_of_pos (by simp [hk])]
      by_cases hk' : e.1 = k'
      · have : ¬ k' = k := fun h => hk (hk' ▸ h)
        simp [hk', this]
      · simp only [List.find?_cons, hk', decide_false]
        exact ih

theorem get_modify (m : AMap κ ν) (k k' : κ) (f : ν → ν) :
    (m.modify k f).get k' = if k' = k then (m.get k').map f else m.get k' := by
  unfold modify get
  obtain ⟨es⟩ := m
  simp only
  induction es with
  | nil => simp
  | cons e es ih =>
    simp only [List.map_cons, List.find?_cons]
    by_cases hk : e.1 = k
    · by_cases hk' : k' = k
      · subst hk'; simp [hk]
      · have : ¬ k = k' := fun h => hk' h.symm
        have h3 : ¬ e.1 = k' := fun h => hk' (h ▸ hk)
        simp only [hk, if_true, this, decide_false, hk', if_false]
        rw [ih]; simp [hk']
    · by_cases hk' : e.1 = k'
      · have : ¬ k' = k := fun h => hk (hk' ▸ h)
        simp [hk', this]
      · simp only [hk, if_false, hk', decide_false]
        exact ih

theorem keys_insert (m : AMap κ ν) (k : κ) (v : ν) :
    (m.insert k v).keys = if k ∈ m.keys then m.keys else m.keys ++ [k] := by
  unfold insert
  split
  · rename_i h
    rw [contains_iff] at h
    rw [if_pos h]
    unfold keys
    simp only [List.map_map]
    apply List.map_congr_left
    intro e _
    simp only [Function.comp]
    split
    · rename_i h; exact h.symm
    · rfl
  · rename_i h
    rw [contains_iff] at h
    rw [if_neg h]
    simp [keys]

theorem mem_keys_insert {m : AMap κ ν} {k k' : κ} {v : ν} :
    k' ∈ (m.insert k v).keys ↔ k' = k ∨ k' ∈ m.keys := by
  rw [keys_insert]
  split
  · constructor
    · exact Or.inr
    · rintro (rfl | h) <;> assumption
  · simp [or_comm]

omit [DecidableEq κ] in
theorem mem_keys {m : AMap κ ν} {k : κ} : k ∈ m.keys ↔ ∃ v, (k, v) ∈ m.entries := by
  unfold keys
  simp

theorem mem_keys_erase {m : AMap κ ν} {k k' : κ} :
    k' ∈ (m.erase k).keys ↔ k' ≠ k ∧ k' ∈ m.keys := by
  unfold erase keys
  simp only [List.mem_map, List.mem_filter, decide_eq_true_eq]
  constructor
  · rintro ⟨e, ⟨he, h2⟩, rfl⟩; exact ⟨h2, e, he, rfl⟩
  · rintro ⟨h, e, he, rfl⟩; exact ⟨e, ⟨he, h⟩, rfl⟩

theorem keys_erase (m : AMap κ ν) (k : κ) : (m.erase k).keys = m.keys.filter (fun x => decide (x ≠ k)) := by
  unfold erase keys
  rw [List.filter_map]
  rfl

@[simp] theorem keys_modify (m : AMap κ ν) (k : κ) (f : ν → ν) : (m.modify k f).keys = m.keys := by
  unfold modify keys
  simp only [List.map_map]
  apply List.map_congr_left
  intro e _
  simp only [Function.comp]
  split <;> rfl

theorem wf_insert {m : AMap κ ν} (h : m.WF) (k : κ) (v : ν) : (m.insert k v).WF := by
  unfold WF at *
  rw [keys_insert]
  split
  · exact h
  · rename_i hk
    rw [List.nodup_append]
    refine ⟨h, by simp, ?_⟩
    intro a ha b hb
    simp only [List.mem_singleton] at hb
    subst hb
    rintro rfl
    exact hk ha

theorem wf_erase {m : AMap κ ν} (h : m.WF) (k : κ) : (m.erase k).WF := by
  unfold WF at *
  rw [keys_erase]
  exact h.filter _

theorem wf_modify {m : AMap κ ν} (h : m.WF) (k : κ) (f : ν → ν) : (m.modify k f).WF := by
  unfold WF at *
  rw [keys_modify]; exact h

omit [DecidableEq κ] in
theorem size_eq_length_keys (m : AMap κ ν) : m.size = m.keys.length := by
  simp [size, keys]

theorem erase_of_not_mem {m : AMap κ ν} {k : κ} (h : k ∉ m.keys) : m.erase k = m := by
  obtain ⟨es⟩ := m
  unfold erase
  congr 1
  rw [List.filter_eq_self]
  intro e he
  simp only [decide_eq_true_eq]
  rintro rfl
  exact h (List.mem_map_of_mem (f := (·.1)) he)

theorem emplace_eq_insert {m : AMap κ ν} {k : κ} (h : k ∉ m.keys) (v : ν) :
    m.emplace k v = m.insert k v := by
  have : m.contains k = false := by
    rw [Bool.eq_false_iff, ne_eq, contains_iff]; exact h
  simp [emplace, insert, this]

theorem get_emplace (m : AMap κ ν) (k k' : κ) (v : ν) :
    (m.emplace k v).get k' = if k' = k ∧ k ∉ m.keys then some v else m.get k' := by
  by_cases h : k ∈ m.keys
  · have : m.contains k = true := by rw [contains_iff]; exact h
    simp [emplace, this, h]
  · rw [emplace_eq_insert h, get_insert]; simp [h]

theorem mem_keys_emplace {m : AMap κ ν} {k k' : κ} {v : ν} :
    k' ∈ (m.emplace k v).keys ↔ k' = k ∨ k' ∈ m.keys := by
  by_cases h : k ∈ m.keys
  · have : m.contains k = true := by rw [contains_iff]; exact h
    simp only [emplace, this, if_true]
    constructor
    · exact Or.inr
    · rintro (rfl | h2) <;> assumption
  · rw [emplace_eq_insert h, mem_keys_insert]

theorem wf_emplace {m : AMap κ ν} (hw : m.WF) (k : κ) (v : ν) : (m.emplace k v).WF := by
  by_cases h : k ∈ m.keys
  · have : m.contains k = true := by rw [contains_iff]; exact h
    simpa [emplace, this] using hw
  · rw [emplace_eq_insert h]; exact wf_insert hw k v

/-- Map over all values (a loop mutating every value in place). -/
def mapVals (m : AMap κ ν) (f : κ → ν → μ) : AMap κ μ :=
  ⟨m.entries.map (fun e => (e.1, f e.1 e.2))⟩

/-- Keep the entries satisfying a predicate on keys. -/
def filterKeys (m : AMap κ ν) (p : κ → Bool) : AMap κ ν :=
  ⟨m.entries.filter (fun e => p e.1)⟩

omit [DecidableEq κ] in
@[simp] theorem keys_mapVals (m : AMap κ ν) (f : κ → ν → μ) : (m.mapVals f).keys = m.keys := by
  unfold mapVals keys
  simp

theorem get_mapVals (m : AMap κ ν) (f : κ → ν → μ) (k : κ) :
    (m.mapVals f).get k = (m.get k).map (f k) := by
  unfold mapVals get
  obtain ⟨es⟩ := m
  simp only
  induction es with
  | nil => simp
  | cons e es ih =>
    simp only [List.map_cons, List.find?_cons]
    by_cases hk : e.1 = k
    · subst hk; simp
    · simp only [hk, decide_false]; exact ih

omit [DecidableEq κ] in
theorem keys_filterKeys (m : AMap κ ν) (p : κ → Bool) : (m.filterKeys p).keys = m.keys.filter p := by
  unfold filterKeys keys
  rw [List.filter_map]
  rfl

theorem get_filterKeys (m : AMap κ ν) (p : κ → Bool) (k : κ) :
    (m.filterKeys p).get k = if p k then m.get k else none := by
  unfold filterKeys get
  obtain ⟨es⟩ := m
  simp only
  induction es with
  | nil => simp
  | cons e es ih =>
    by_cases hp : p e.1
    · rw [List.filter_cons_of_pos (by simp [hp])]
      simp only [List.find?_cons]
      by_cases hk : e.1 = k
      · subst hk; simp [hp]
      · simp only [hk, decide_false]; exact ih
    · rw [List.filter_cons_of_neg (by simp [hp])]
      rw [ih]
      by_cases hk : e.1 = k
      · subst hk; simp [hp]
      · simp [hk]

omit [DecidableEq κ] in
theorem wf_filterKeys {m : AMap κ ν} (h : m.WF) (p : κ → Bool) : (m.filterKeys p).WF := by
  unfold WF at *
  rw [keys_filterKeys]; exact h.filter _

omit [DecidableEq κ] in
theorem wf_mapVals {m : AMap κ ν} (h : m.WF) (f : κ → ν → μ) : (m.mapVals f).WF := by
  unfold WF at *
  rw [keys_mapVals]; exact h

end AMap
end Theia
