import Verif.Spec.Extraction
import Mathlib.Data.List.Basic

/-!
# Extracting the features of many images
-/

namespace Theia
namespace Extraction

open Spec.Extraction

variable {Img Kp D : Type} {env : Env Img Kp D} {toDisk : Bool}

/-- What a job that started as `t0` may look like. -/
inductive Rel (env : Env Img Kp D) (toDisk : Bool) (t0 : Thread Img Kp D) : Thread Img Kp D → Prop where
  | start : Rel env toDisk t0 t0
  | detected (img : Img) (r : Slot Kp D) : t0.pc = .detect → t0.job.image = .ok img → env.detect img t0.slot = (true, r) →
      Rel env toDisk t0 ⟨t0.job, .cut, r⟩
  | failed (img : Img) (r : Slot Kp D) : t0.pc = .detect → t0.job.image = .ok img → env.detect img t0.slot = (false, r) →
      Rel env toDisk t0 ⟨t0.job, .done, r⟩
  | inMemory (img : Img) (r : Slot Kp D) : toDisk = false → t0.pc = .detect → t0.job.image = .ok img →
      env.detect img t0.slot = (true, r) → Rel env toDisk t0 ⟨t0.job, .done, cutOff env r⟩
  | toWrite (img : Img) (r : Slot Kp D) : toDisk = true → t0.pc = .detect → t0.job.image = .ok img →
      env.detect img t0.slot = (true, r) → Rel env toDisk t0 ⟨t0.job, .write, cutOff env r⟩
  | toClear (img : Img) (r : Slot Kp D) (file : String) : toDisk = true → t0.pc = .detect → t0.job.image = .ok img →
      env.detect img t0.slot = (true, r) → featuresFile env t0.job.path = .ok file →
      Rel env toDisk t0 ⟨t0.job, .clear, cutOff env r⟩
  | cleared (img : Img) (r : Slot Kp D) (file : String) : toDisk = true → t0.pc = .detect → t0.job.image = .ok img →
      env.detect img t0.slot = (true, r) → featuresFile env t0.job.path = .ok file →
      Rel env toDisk t0 ⟨t0.job, .done, ([], [])⟩

/-- The job has written its features `r` to `file`. -/
def Wrote (env : Env Img Kp D) (t0 t : Thread Img Kp D) (file : String) (r : Slot Kp D) : Prop :=
  (t.pc = .clear ∨ t.pc = .done) ∧ t0.pc = .detect ∧
    ∃ img r0, t0.job.image = .ok img ∧ env.detect img t0.slot = (true, r0) ∧ r = cutOff env r0 ∧
      featuresFile env t0.job.path = .ok file

/-- A step of a job. -/
theorem jobStep_rel {t0 t t' : Thread Img Kp D} {disk disk' : AMap String (Slot Kp D)} (h0 : t0.pc = .detect ∨ t0.pc = .done)
    (hr : Rel env toDisk t0 t) (h : jobStep env toDisk t disk = .ok (t', disk')) :
    Rel env toDisk t0 t' ∧
    ((disk' = disk ∧ (toDisk = true → ∀ file r, Wrote env t0 t' file r ↔ Wrote env t0 t file r)) ∨
      (toDisk = true ∧ ∃ file r, Wrote env t0 t' file r ∧ disk' = disk.insert file r ∧
        ∀ file' r', Wrote env t0 t' file' r' → file' = file)) := by
  cases hr with
  | start =>
    rcases h0 with h0 | h0
    · rw [jobStep, h0] at h
      obtain ⟨img, himg, h⟩ := Outcome.bind_eq_ok.1 h
      cases hd : env.detect img t0.slot with
      | mk ok r =>
        simp only [hd] at h
        cases h
        cases ok with
        | true =>
          refine ⟨.detected img r h0 himg hd, Or.inl ⟨rfl, fun _ file r' => ?_⟩⟩
          constructor
          · rintro ⟨hc, _⟩; simp at hc
          · rintro ⟨hc, _⟩; rw [h0] at hc; simp at hc
        | false =>
          refine ⟨.failed img r h0 himg hd, Or.inl ⟨rfl, fun _ file r' => ?_⟩⟩
          constructor
          · rintro ⟨_, _, img', r0, hi', hd', _⟩
            rw [himg] at hi'
            cases hi'
            rw [hd] at hd'
            cases hd'
          · rintro ⟨hc, _⟩; rw [h0] at hc; simp at hc
    · rw [jobStep, h0] at h
      cases h
      exact ⟨.start, Or.inl ⟨rfl, fun _ _ _ => Iff.rfl⟩⟩
  | detected img r hpc himg hd =>
    rw [jobStep] at h
    cases h
    cases toDisk with
    | true =>
      refine ⟨.toWrite img r rfl hpc himg hd, Or.inl ⟨rfl, fun _ file r' => ?_⟩⟩
      constructor
      · rintro ⟨hc, _⟩; simp at hc
      · rintro ⟨hc, _⟩; simp at hc
    | false => exact ⟨.inMemory img r rfl hpc himg hd, Or.inl ⟨rfl, fun hc => by cases hc⟩⟩
  | failed img r hpc himg hd =>
    rw [jobStep] at h
    cases h
    exact ⟨.failed img r hpc himg hd, Or.inl ⟨rfl, fun _ _ _ => Iff.rfl⟩⟩
  | inMemory img r ht hpc himg hd =>
    rw [jobStep] at h
    cases h
    exact ⟨.inMemory img r ht hpc himg hd, Or.inl ⟨rfl, fun _ _ _ => Iff.rfl⟩⟩
  | toWrite img r ht hpc himg hd =>
    rw [jobStep] at h
    obtain ⟨file, hf, h⟩ := Outcome.bind_eq_ok.1 h
    simp only at hf h
    split at h
    · cases h
      refine ⟨.toClear img r file ht hpc himg hd hf, Or.inr ⟨ht, file, cutOff env r, ?_, rfl, ?_⟩⟩
      · exact ⟨Or.inl rfl, hpc, img, r, himg, hd, rfl, hf⟩
      · rintro file' r' ⟨_, _, _, _, _, _, _, hf'⟩
        rw [hf] at hf'
        cases hf'
        rfl
    · cases h
  | toClear img r file ht hpc himg hd hf =>
    rw [jobStep] at h
    cases h
    refine ⟨.cleared img r file ht hpc himg hd hf, Or.inl ⟨rfl, fun _ file' r' => ?_⟩⟩
    constructor
    · rintro ⟨_, h2⟩; exact ⟨Or.inl rfl, h2⟩
    · rintro ⟨_, h2⟩; exact ⟨Or.inr rfl, h2⟩
  | cleared img r file ht hpc himg hd hf =>
    rw [jobStep] at h
    cases h
    exact ⟨.cleared img r file ht hpc himg hd hf, Or.inl ⟨rfl, fun _ _ _ => Iff.rfl⟩⟩

/-- The invariant of all jobs and the disk. -/
structure Inv (env : Env Img Kp D) (toDisk : Bool) (c0 c : Config Img Kp D) : Prop where
  length : c.threads.length = c0.threads.length
  rel : ∀ (i : Nat) (t0 t : Thread Img Kp D), c0.threads[i]? = some t0 → c.threads[i]? = some t → Rel env toDisk t0 t
  memory : toDisk = false → c.disk = c0.disk
  disk : toDisk = true → ∀ g,
    (c.disk.get g = c0.disk.get g ∧ ∀ (i : Nat) (t0 t : Thread Img Kp D), c0.threads[i]? = some t0 → c.threads[i]? = some t →
      ∀ r, ¬ Wrote env t0 t g r) ∨
    ∃ (i : Nat) (t0 t : Thread Img Kp D) (r : Slot Kp D), c0.threads[i]? = some t0 ∧ c.threads[i]? = some t ∧
      Wrote env t0 t g r ∧ c.disk.get g = some r

/-- No job has made a step. -/
def Fresh (c0 : Config Img Kp D) : Prop := ∀ t ∈ c0.threads, t.pc = .detect ∨ t.pc = .done

/-- Jobs at the start have not written, except that those that are not found count as finished. -/
theorem inv_start {c0 : Config Img Kp D} : Inv env toDisk c0 c0 := by
  refine ⟨rfl, ?_, fun _ => rfl, ?_⟩
  · intro i t0 t h0 h
    rw [h0] at h
    cases h
    exact .start
  · intro _ g
    refine Or.inl ⟨rfl, ?_⟩
    intro i t0 t h0 h r hw
    rw [h0] at h
    cases h
    obtain ⟨h1, h2, _⟩ := hw
    rw [h2] at h1
    simp at h1

theorem inv_stepAt {c0 c c' : Config Img Kp D} (hf : Fresh c0) (hi : Inv env toDisk c0 c) {i : Nat}
    (h : stepAt env toDisk i c = .ok c') : Inv env toDisk c0 c' := by
  unfold stepAt at h
  cases ht : c.threads[i]? with
  | none =>
    simp only [ht] at h
    cases h
    exact hi
  | some t =>
    simp only [ht] at h
    obtain ⟨⟨t', disk'⟩, hs, h⟩ := Outcome.bind_eq_ok.1 h
    cases h
    have hlt : i < c.threads.length := (List.getElem?_eq_some_iff.1 ht).1
    obtain ⟨t0, ht0⟩ : ∃ t0, c0.threads[i]? = some t0 := ⟨_, List.getElem?_eq_getElem (by rw [← hi.length]; exact hlt)⟩
    obtain ⟨hrel, hdisk⟩ := jobStep_rel (hf t0 (List.mem_of_getElem? ht0)) (hi.rel i t0 t ht0 ht) hs
    have hget : ∀ j, (c.threads.set i t')[j]? = if j = i then some t' else c.threads[j]? := by
      intro j
      by_cases hj : j = i
      · subst hj; rw [if_pos rfl, List.getElem?_set_self hlt]
      · rw [if_neg hj, List.getElem?_set_ne (fun h => hj h.symm)]
    refine ⟨by simp [hi.length], ?_, ?_, ?_⟩
    · intro j u0 u h0 hu
      simp only [hget j] at hu
      split at hu
      · rename_i hj
        subst hj
        rw [ht0] at h0
        cases h0
        cases hu
        exact hrel
      · exact hi.rel j u0 u h0 hu
    · intro hm
      rcases hdisk with ⟨rfl, _⟩ | ⟨hd, _⟩
      · exact hi.memory hm
      · rw [hm] at hd; cases hd
    · intro hm g
      rcases hdisk with ⟨rfl, hiff⟩ | ⟨_, file, r, hw, rfl, huniq⟩
      · rcases hi.disk hm g with ⟨h1, h2⟩ | ⟨j, u0, u, r, h1, h2, h3, h4⟩
        · refine Or.inl ⟨h1, ?_⟩
          intro j u0 u h0 hu r
          simp only [hget j] at hu
          split at hu
          · rename_i hj
            subst hj
            rw [ht0] at h0
            cases h0
            cases hu
            rw [hiff hm]
            exact h2 _ _ _ ht0 ht r
          · exact h2 j u0 u h0 hu r
        · by_cases hj : j = i
          · subst hj
            rw [ht0] at h1
            cases h1
            rw [ht] at h2
            cases h2
            exact Or.inr ⟨j, t0, t', r, ht0, by simp [hget], (hiff hm _ _).2 h3, h4⟩
          · exact Or.inr ⟨j, u0, u, r, h1, by simp only [hget, if_neg hj]; exact h2, h3, h4⟩
      · by_cases hg : g = file
        · subst hg
          exact Or.inr ⟨i, t0, t', r, ht0, by simp [hget], hw, AMap.get_insert_self _ _ _⟩
        · have hwi : ∀ r', ¬ Wrote env t0 t' g r' := fun r' h => hg (huniq g r' h)
          simp only [AMap.get_insert_ne _ _ hg]
          rcases hi.disk hm g with ⟨h1, h2⟩ | ⟨j, u0, u, r', h1, h2, h3, h4⟩
          · refine Or.inl ⟨h1, ?_⟩
            intro j u0 u h0 hu r'
            simp only [hget j] at hu
            split at hu
            · rename_i hj
              subst hj
              rw [ht0] at h0
              cases h0
              cases hu
              exact hwi r'
            · exact h2 j u0 u h0 hu r'
          · by_cases hj : j = i
            · exfalso
              subst hj
              rw [ht0] at h1
              cases h1
              obtain ⟨_, _, _, _, _, _, _, hf1⟩ := h3
              obtain ⟨_, _, _, _, _, _, _, hf2⟩ := hw
              rw [hf1] at hf2
              cases hf2
              exact hg rfl
            · exact Or.inr ⟨j, u0, u, r', h1, by simp only [hget, if_neg hj]; exact h2, h3, h4⟩

theorem inv_run {c0 : Config Img Kp D} (hf : Fresh c0) : ∀ (sch : List Nat) (c c' : Config Img Kp D), Inv env toDisk c0 c →
    run env toDisk sch c = .ok c' → Inv env toDisk c0 c' := by
  intro sch
  induction sch with
  | nil => intro c c' hi h; rw [run] at h; cases h; exact hi
  | cons i is ih =>
    intro c c' hi h
    rw [run] at h
    obtain ⟨c1, h1, h⟩ := Outcome.bind_eq_ok.1 h
    exact ih _ _ (inv_stepAt hf hi h1) h

/-! ## Progress -/

/-- How many steps are left. -/
def left : Pc → Nat
  | .detect => 4
  | .cut => 3
  | .write => 2
  | .clear => 1
  | .done => 0

theorem jobStep_left {t t' : Thread Img Kp D} {disk disk' : AMap String (Slot Kp D)}
    (h : jobStep env toDisk t disk = .ok (t', disk')) : left t'.pc ≤ left t.pc - 1 := by
  unfold jobStep at h
  cases hp : t.pc with
  | detect =>
    simp only [hp] at h
    obtain ⟨img, _, h⟩ := Outcome.bind_eq_ok.1 h
    cases h
    simp only
    split <;> decide
  | cut =>
    simp only [hp] at h
    cases h
    simp only
    split <;> decide
  | write =>
    simp only [hp] at h
    obtain ⟨f, _, h⟩ := Outcome.bind_eq_ok.1 h
    split at h
    · cases h; simp [left]
    · cases h
  | clear => simp only [hp] at h; cases h; simp [left]
  | done => simp only [hp] at h; cases h; simp [hp, left]

theorem run_left {sch : List Nat} : ∀ {c c' : Config Img Kp D} {i : Nat} {t t' : Thread Img Kp D},
    run env toDisk sch c = .ok c' → c.threads[i]? = some t → c'.threads[i]? = some t' →
    left t'.pc ≤ left t.pc - sch.count i := by
  induction sch with
  | nil =>
    intro c c' i t t' h ht ht'
    rw [run] at h
    cases h
    rw [ht] at ht'
    cases ht'
    simp
  | cons j js ih =>
    intro c c' i t t' h ht ht'
    rw [run] at h
    obtain ⟨c1, h1, h⟩ := Outcome.bind_eq_ok.1 h
    unfold stepAt at h1
    by_cases hj : j = i
    · subst hj
      simp only [ht] at h1
      obtain ⟨⟨u, disk'⟩, hs, h1⟩ := Outcome.bind_eq_ok.1 h1
      cases h1
      have hlt := (List.getElem?_eq_some_iff.1 ht).1
      have := ih h (t := u) (by simp [List.getElem?_set_self hlt]) ht'
      have h2 := jobStep_left hs
      simp only [List.count_cons_self]
      omega
    · rw [List.count_cons_of_ne hj]
      cases hu : c.threads[j]? with
      | none => simp only [hu] at h1; cases h1; exact ih h ht ht'
      | some w =>
        simp only [hu] at h1
        obtain ⟨⟨u, disk'⟩, hs, h1⟩ := Outcome.bind_eq_ok.1 h1
        cases h1
        exact ih h (by simp only [List.getElem?_set_ne hj]; exact ht) ht'

/-- A job that never ends the program. -/
def Safe (env : Env Img Kp D) (toDisk : Bool) (t0 : Thread Img Kp D) : Prop :=
  t0.pc = .detect → (∃ img, t0.job.image = .ok img) ∧
    (toDisk = true → ∃ file, featuresFile env t0.job.path = .ok file ∧ env.writable file = true)

theorem jobStep_ok {t0 t : Thread Img Kp D} (disk : AMap String (Slot Kp D)) (h0 : t0.pc = .detect ∨ t0.pc = .done)
    (hsafe : Safe env toDisk t0) (hr : Rel env toDisk t0 t) : ∃ x, jobStep env toDisk t disk = .ok x := by
  cases hr with
  | start =>
    rcases h0 with h0 | h0
    · obtain ⟨⟨img, himg⟩, _⟩ := hsafe h0
      exact ⟨_, by rw [jobStep, h0]; simp only [himg, Outcome.ok_bind]; rfl⟩
    · exact ⟨_, by rw [jobStep, h0]⟩
  | detected => exact ⟨_, rfl⟩
  | failed => exact ⟨_, rfl⟩
  | inMemory => exact ⟨_, rfl⟩
  | toWrite img r ht hpc himg hd =>
    obtain ⟨_, hs⟩ := hsafe hpc
    obtain ⟨file, hf, hw⟩ := hs ht
    exact ⟨_, by rw [jobStep]; simp only [hf, Outcome.ok_bind, hw, if_true]; rfl⟩
  | toClear => exact ⟨_, rfl⟩
  | cleared => exact ⟨_, rfl⟩

theorem run_ok {c0 : Config Img Kp D} (hf : Fresh c0) (hsafe : ∀ t ∈ c0.threads, Safe env toDisk t) :
    ∀ (sch : List Nat) (c : Config Img Kp D), Inv env toDisk c0 c → ∃ c', run env toDisk sch c = .ok c' := by
  intro sch
  induction sch with
  | nil => intro c _; exact ⟨c, by rw [run]⟩
  | cons i is ih =>
    intro c hi
    have : ∃ c1, stepAt env toDisk i c = .ok c1 := by
      unfold stepAt
      cases ht : c.threads[i]? with
      | none => exact ⟨c, rfl⟩
      | some t =>
        have hlt : i < c.threads.length := (List.getElem?_eq_some_iff.1 ht).1
        obtain ⟨t0, ht0⟩ : ∃ t0, c0.threads[i]? = some t0 :=
          ⟨_, List.getElem?_eq_getElem (by rw [← hi.length]; exact hlt)⟩
        obtain ⟨x, hx⟩ := jobStep_ok c.disk (hf t0 (List.mem_of_getElem? ht0)) (hsafe t0 (List.mem_of_getElem? ht0))
          (hi.rel i t0 t ht0 ht)
        exact ⟨⟨c.threads.set i x.1, x.2⟩, by simp only [hx, Outcome.ok_bind]⟩
    obtain ⟨c1, h1⟩ := this
    obtain ⟨c2, h2⟩ := ih c1 (inv_stepAt hf hi h1)
    exact ⟨c2, by rw [run, h1]; exact h2⟩

/-! ## From and to the specification -/

theorem resize_length {α : Type} (e : α) (n : Nat) (l : List α) : (resize e n l).length = n := by
  unfold resize
  rw [List.length_append, List.length_take, List.length_replicate]
  omega

theorem resize_get {α : Type} (e : α) {n i : Nat} (l : List α) (h : i < n) : (resize e n l)[i]? = some ((l[i]?).getD e) := by
  unfold resize
  by_cases hl : i < l.length
  · rw [List.getElem?_append_left (by rw [List.length_take]; omega), List.getElem?_take, if_pos h,
      List.getElem?_eq_getElem hl]
    rfl
  · rw [List.getElem?_append_right (by rw [List.length_take]; omega), List.getElem?_eq_none (Nat.not_lt.1 hl),
      List.getElem?_replicate, if_pos (by rw [List.length_take]; omega)]
    rfl

theorem initial_get {jobs : List (Job Img)} {found : Job Img → Bool} {keypoints : List (List Kp)}
    {descriptors : List (List D)} {disk : AMap String (Slot Kp D)} (i : Nat) :
    (initial jobs found keypoints descriptors disk).threads[i]? = (jobs[i]?).map fun j =>
      ⟨j, if found j then .detect else .done, passedIn keypoints descriptors i⟩ := by
  unfold initial
  simp only [List.getElem?_map]
  by_cases hi : i < jobs.length
  · have : (jobs.zip ((resize [] jobs.length keypoints).zip (resize [] jobs.length descriptors)))[i]? =
        some (jobs[i], passedIn keypoints descriptors i) := by
      rw [List.getElem?_zip_eq_some]
      refine ⟨List.getElem?_eq_getElem hi, ?_⟩
      rw [List.getElem?_zip_eq_some]
      exact ⟨resize_get _ _ hi, resize_get _ _ hi⟩
    rw [this, List.getElem?_eq_getElem hi]
    rfl
  · rw [List.getElem?_eq_none (Nat.not_lt.1 hi), List.getElem?_eq_none]
    · rfl
    · simp only [List.length_zip]
      omega

theorem initial_fresh {jobs : List (Job Img)} {found : Job Img → Bool} {keypoints : List (List Kp)}
    {descriptors : List (List D)} {disk : AMap String (Slot Kp D)} :
    Fresh (initial jobs found keypoints descriptors disk) := by
  intro t ht
  obtain ⟨i, hi⟩ := List.mem_iff_getElem?.1 ht
  rw [initial_get] at hi
  obtain ⟨j, _, rfl⟩ := Option.map_eq_some_iff.1 hi
  simp only
  split
  · exact Or.inl rfl
  · exact Or.inr rfl

theorem initial_length {jobs : List (Job Img)} {found : Job Img → Bool} {keypoints : List (List Kp)}
    {descriptors : List (List D)} {disk : AMap String (Slot Kp D)} :
    (initial jobs found keypoints descriptors disk).threads.length = jobs.length := by
  unfold initial
  simp [resize_length]

theorem resize_eq {α : Type} (e : α) (n : Nat) (l : List α) :
    (l ++ List.replicate (n - l.length) e).take n = resize e n l := by
  unfold resize
  rw [List.take_append, List.take_replicate, Nat.min_self]

theorem featuresOf_cutOff {img : Img} {old r : Slot Kp D} (h : env.detect img old = (true, r)) :
    FeaturesOf env img old (cutOff env r) := by
  obtain ⟨k, d⟩ := r
  unfold cutOff
  split
  · rename_i hc
    have := FeaturesOf.first (env := env) (image := img) (old := old) k d env.maxFeatures.toNat h
      (by rw [Int.toNat_of_nonneg hc.1]) hc.2
    rw [resize_eq] at this
    exact this
  · rename_i hc
    apply FeaturesOf.all k d h
    simp only at hc
    by_contra hno
    push Not at hno
    exact hc ⟨by omega, by omega⟩

theorem featuresOf_unique {img : Img} {old r s : Slot Kp D} (h : env.detect img old = (true, r)) (hs : FeaturesOf env img old s) :
    s = cutOff env r := by
  cases hs with
  | all k d hd hm =>
    rw [h] at hd
    cases hd
    unfold cutOff
    rw [if_neg]
    simp only
    omega
  | first k d n hd hm hn =>
    rw [h] at hd
    cases hd
    unfold cutOff
    have hn' : env.maxFeatures.toNat = n := by omega
    rw [if_pos ⟨by omega, by rw [hn']; exact hn⟩]
    simp only [hn']
    rw [resize_eq]

theorem featuresFile_iff {path file : String} : featuresFile env path = .ok file ↔ FileFor env path file := by
  unfold featuresFile FileFor
  by_cases hne : env.outputDirectory = ""
  · simp [hne]
  rw [if_neg (by simpa using hne), and_iff_right hne]
  cases hb : env.base path with
  | none => simp
  | some name =>
    simp only [Outcome.ok.injEq, Option.some.injEq]
    by_cases hl : env.outputDirectory.toList.getLast? = some '/'
    · rw [if_pos hl]
      have hd : env.outputDirectory = String.ofList env.outputDirectory.toList.dropLast ++ "/" := by
        apply String.toList_inj.1
        rw [String.toList_append, String.toList_ofList]
        exact (List.dropLast_append_getLast? _ hl).symm
      constructor
      · rintro rfl
        exact ⟨_, name, Or.inl hd, rfl, by rw [← hd]⟩
      · rintro ⟨dir, n, h1, rfl, rfl⟩
        rcases h1 with h1 | ⟨h1, h2⟩
        · rw [h1]
        · rw [h1] at hl
          exact absurd hl h2
    · rw [if_neg hl]
      constructor
      · rintro rfl
        exact ⟨_, name, Or.inr ⟨rfl, hl⟩, rfl, rfl⟩
      · rintro ⟨dir, n, h1, rfl, rfl⟩
        rcases h1 with h1 | ⟨h1, _⟩
        · exfalso
          apply hl
          rw [h1, String.toList_append]
          simp
        · rw [h1]

/-- What a call that returns says about its jobs. -/
theorem extract_inv {filenames : List String} {ks : List (List Kp)} {ds : List (List D)} {disk : AMap String (Slot Kp D)}
    {schedule : List Nat} {b : Bool} {c : Config Img Kp D} (h : extract env toDisk filenames ks ds disk schedule = .ok (b, c)) :
    b = true ∧ Inv env toDisk (initial (filenames.map fun f => ⟨env.load f, f⟩) (fun j => env.exists_ j.path) ks ds disk) c := by
  unfold extract at h
  split at h
  · cases h
  split at h
  · cases h
  obtain ⟨c', h1, h⟩ := Outcome.bind_eq_ok.1 h
  cases h
  exact ⟨rfl, inv_run initial_fresh _ _ _ inv_start h1⟩

theorem files_get {filenames : List String} {ks : List (List Kp)} {ds : List (List D)} {disk : AMap String (Slot Kp D)} {i : Nat}
    {path : String} (h : filenames[i]? = some path) :
    (initial (filenames.map fun f => (⟨env.load f, f⟩ : Job Img)) (fun j => env.exists_ j.path) ks ds disk).threads[i]? =
      some ⟨⟨env.load path, path⟩, if env.exists_ path then .detect else .done, passedIn ks ds i⟩ := by
  rw [initial_get, List.getElem?_map, h]
  rfl

theorem files_of_get {filenames : List String} {ks : List (List Kp)} {ds : List (List D)} {disk : AMap String (Slot Kp D)} {i : Nat}
    {t : Thread Img Kp D}
    (h : (initial (filenames.map fun f => (⟨env.load f, f⟩ : Job Img)) (fun j => env.exists_ j.path) ks ds disk).threads[i]? = some t) :
    ∃ path, filenames[i]? = some path ∧
      t = ⟨⟨env.load path, path⟩, if env.exists_ path then .detect else .done, passedIn ks ds i⟩ := by
  rw [initial_get, List.getElem?_map] at h
  cases hp : filenames[i]? with
  | none => rw [hp] at h; cases h
  | some path => rw [hp] at h; cases h; exact ⟨path, rfl, rfl⟩

theorem found_of_detect {path : String} (h : (if env.exists_ path then Pc.detect else Pc.done) = .detect) :
    env.exists_ path = true := by
  by_contra hne
  rw [if_neg hne] at h
  cases h

/-- A finished job has written exactly what goes to disk. -/
theorem wrote_iff {path : String} {old : Slot Kp D} {t : Thread Img Kp D} (hd : t.pc = .done) {file : String} {r : Slot Kp D} :
    Wrote env ⟨⟨env.load path, path⟩, if env.exists_ path then .detect else .done, old⟩ t file r ↔ GoesTo env path old file r := by
  constructor
  · rintro ⟨_, h1, img, r0, h2, h3, rfl, h4⟩
    exact ⟨found_of_detect h1, ⟨img, h2, featuresOf_cutOff h3⟩, featuresFile_iff.1 h4⟩
  · rintro ⟨h1, ⟨img, h2, h3⟩, h4⟩
    have : ∃ r0, env.detect img old = (true, r0) := by
      cases h3 with
      | all k d h => exact ⟨_, h⟩
      | first k d n h => exact ⟨_, h⟩
    obtain ⟨r0, h5⟩ := this
    exact ⟨Or.inr hd, by simp [h1], img, r0, h2, h5, featuresOf_unique h5 h3, featuresFile_iff.2 h4⟩

end Extraction
end Theia
