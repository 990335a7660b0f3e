import Verif.Spec.SiftText
import Mathlib.Tactic.Ring
import Mathlib.Tactic.IntervalCases

/-!
# Reading SIFT text files: lemmas
-/

namespace Theia
namespace SiftText

open Spec.SiftFile

theorem scan_intLine (bs : List Nat) (n : Nat) (junk : Nat → Nat) (hl : bs.length = n) :
    scan n (intLine bs) junk = bs.map (· % 256) := by
  induction bs generalizing n junk with
  | nil => subst hl; rfl
  | cons b bs ih =>
    cases n with
    | zero => simp at hl
    | succ n =>
      have h2 : ((b : Int) % 256).toNat = b % 256 := by omega
      simp only [intLine, List.map_cons, scan, h2]
      congr 1
      exact ih n _ (by simpa using hl)

theorem skip_intLine (b : List Nat) (ls : File) (h : b ≠ []) : skip (intLine b :: ls) = intLine b :: ls := by
  cases b with
  | nil => exact absurd rfl h
  | cons b bs => rfl

theorem readKeypoint_line (k : Kp) (ls : File) :
    readKeypoint ([.frac k.y, .frac k.x, .frac k.scale, .frac k.orientation] :: ls) = some (k, skip ls) := by
  simp [readKeypoint, readFloat, next, skip]

theorem readBytes_rows (f : Feature) (hl : f.bytes.length = 128) (ls : File) (junk : Nat → Nat) :
    readBytes ((block f).tail ++ ls) junk = .ok (f.reduced.bytes, ls) := by
  have s0 : ∀ j, scan 20 (intLine (f.bytes.take 20)) j = (f.bytes.take 20).map (· % 256) := fun j =>
    scan_intLine _ _ _ (by simp [hl])
  have s : ∀ n j, n + 20 ≤ 128 →
      scan 20 (intLine ((f.bytes.drop n).take 20)) j = ((f.bytes.drop n).take 20).map (· % 256) :=
    fun n j hn => scan_intLine _ _ _ (by simp [hl]; omega)
  have s8 : ∀ j, scan 8 (intLine (f.bytes.drop 120)) j = (f.bytes.drop 120).map (· % 256) := fun j =>
    scan_intLine _ _ _ (by simp [hl])
  simp only [readBytes, block, List.tail_cons, List.cons_append, List.nil_append, readRows, Outcome.ok_bind, s0,
    s8, s 20 _ (by omega), s 40 _ (by omega), s 60 _ (by omega), s 80 _ (by omega), s 100 _ (by omega),
    Feature.reduced]
  congr 2
  have e : ∀ n, f.bytes.drop n = (f.bytes.drop n).take 20 ++ f.bytes.drop (n + 20) := fun n => by
    rw [← List.drop_drop, List.take_append_drop]
  have e0 := e 0
  rw [e 20, e 40, e 60, e 80, e 100] at e0
  have e1 := congrArg (List.map (· % 256)) e0
  simpa [List.append_assoc] using e1.symm

theorem readKeypoint_block (f : Feature) (h : f.bytes.length = 128) (ls : File) :
    readKeypoint (block f ++ ls) = some (f.kp, (block f).tail ++ ls) := by
  simp only [block, List.cons_append, List.tail_cons, List.nil_append]
  rw [readKeypoint_line, skip_intLine]
  intro e
  have := congrArg List.length e
  simp [h] at this

theorem next_nil (f : File) : next ([] :: f) = next f := rfl

theorem readKeypoint_nil (f : File) : readKeypoint ([] :: f) = readKeypoint f := by
  simp only [readKeypoint, readFloat, next]

theorem loop_nil (junk : Nat → Nat → Nat) (n : Nat) (f : File) (out : Out) :
    loop junk n ([] :: f) out = loop junk n f out := by
  cases n with
  | zero => rfl
  | succ n => simp only [loop, readKeypoint_nil]

theorem loop_block (junk : Nat → Nat → Nat) (n : Nat) (f : Feature) (h : f.bytes.length = 128) (ls : File) (out : Out) :
    loop junk (n + 1) (block f ++ ls) out =
      loop junk n ls ⟨out.keypoints ++ [f.kp], out.descriptors ++ [f.reduced.bytes.map fun b : Nat => (b : ℚ) / 255]⟩ := by
  simp only [loop, readKeypoint_block f h, readBytes_rows f h, Outcome.ok_bind]

theorem loop_blocks (junk : Nat → Nat → Nat) (fs : List Feature) (h : ∀ f ∈ fs, f.bytes.length = 128) (m : Nat) (ls : File)
    (out : Out) :
    loop junk (fs.length + m) (fs.flatMap block ++ ls) out =
      loop junk m ls ⟨out.keypoints ++ (contents (fs.map Feature.reduced)).keypoints,
        out.descriptors ++ (contents (fs.map Feature.reduced)).descriptors⟩ := by
  induction fs generalizing out with
  | nil => simp [contents]
  | cons f fs ih =>
    have hf := h f (by simp)
    rw [List.length_cons, show fs.length + 1 + m = (fs.length + m) + 1 by ring, List.flatMap_cons, List.append_assoc,
      loop_block junk _ f hf, ih (fun g hg => h g (by simp [hg]))]
    simp [contents, Feature.reduced]

theorem map_reduced (fs : List Feature) (h : ∀ f ∈ fs, f.Valid) : fs.map Feature.reduced = fs := by
  rw [List.map_congr_left (g := id)]
  · simp
  · intro f hf
    have : f.bytes.map (· % 256) = f.bytes := by
      rw [List.map_congr_left (g := id)]
      · simp
      · intro b hb
        exact Nat.mod_eq_of_lt ((h f hf).2 b hb)
    simp [Feature.reduced, this]

theorem read_header (junk : Nat → Nat → Nat) (n d : Int) (ls : File) :
    readFile junk true (some ([.int n, .int d] :: ls)) =
      if d ≠ 128 then .abort else if n < 0 then .abort else loop junk n.toNat ls ⟨[], []⟩ := by
  simp only [readFile, readInt, next, loop_nil]
  simp

/-- Of a block only some of the lines. -/
theorem loop_cut (junk : Nat → Nat → Nat) (n : Nat) (f : Feature) (h : f.bytes.length = 128) (k : Nat) (hk : k < 8) (out : Out) :
    loop junk (n + 1) ((block f).take k) out = if k = 0 then .ok (false, out) else .abort := by
  have hne : f.bytes.take 20 ≠ [] := by
    intro e
    have := congrArg List.length e
    simp [h] at this
  rcases k with _ | k
  · simp [loop, readKeypoint, readFloat, next]
  · have e : (block f).take (k + 1) =
        [.frac f.kp.y, .frac f.kp.x, .frac f.kp.scale, .frac f.kp.orientation] :: (block f).tail.take k := by
      simp [block]
    rw [e]
    simp only [loop, readKeypoint_line]
    have : skip ((block f).tail.take k) = (block f).tail.take k := by
      cases k with
      | zero => rfl
      | succ k => simpa [block] using skip_intLine _ _ hne
    rw [this]
    have hk' : k < 7 := by omega
    have : ∀ j, readBytes ((block f).tail.take k) j = .abort := by
      intro j
      simp only [block, List.tail_cons]
      interval_cases k <;> simp [readBytes, readRows]
    simp [this]

/-- The loop counts: on success there are as many keypoints and descriptors as asked for, otherwise fewer. -/
theorem loop_counts (junk : Nat → Nat → Nat) (n : Nat) (f : File) (out : Out) (b : Bool) (r : Out)
    (h : loop junk n f out = .ok (b, r)) (he : out.keypoints.length = out.descriptors.length) :
    r.keypoints.length = r.descriptors.length ∧
    (if b then r.keypoints.length = out.keypoints.length + n else r.keypoints.length < out.keypoints.length + n) := by
  induction n generalizing f out with
  | zero =>
    simp only [loop, Outcome.ok.injEq, Prod.mk.injEq] at h
    obtain ⟨rfl, rfl⟩ := h
    simp [he]
  | succ n ih =>
    simp only [loop] at h
    split at h
    · simp only [Outcome.ok.injEq, Prod.mk.injEq] at h
      obtain ⟨rfl, rfl⟩ := h
      simp [he]
    · rw [Outcome.bind_eq_ok] at h
      obtain ⟨r', _, h⟩ := h
      have := ih _ _ h (by simp [he])
      refine ⟨this.1, ?_⟩
      have h2 := this.2
      split at h2 <;> simp_all <;> omega

theorem scan_length (n : Nat) (ws : List Word) (junk : Nat → Nat) : (scan n ws junk).length = n := by
  induction n generalizing ws junk with
  | zero => cases ws <;> rfl
  | succ n ih =>
    match ws with
    | [] => simp [scan]
    | .int z :: ws => simp [scan, ih]
    | .frac q :: ws => simp [scan]
    | .other :: ws => simp [scan]

theorem readRows_length (n : Nat) (f : File) (junk : Nat → Nat) (r : List Nat × File)
    (h : readRows n f junk = .ok r) : r.1.length = 20 * n := by
  induction n generalizing f junk r with
  | zero => simp only [readRows, Outcome.ok.injEq] at h; subst h; rfl
  | succ n ih =>
    cases f with
    | nil => simp [readRows] at h
    | cons l ls =>
      simp only [readRows, Outcome.bind_eq_ok] at h
      obtain ⟨r', h1, h2⟩ := h
      have := ih _ _ _ h1
      simp only [Outcome.ok.injEq] at h2
      subst h2
      simp [scan_length, this]
      ring

theorem readBytes_length (f : File) (junk : Nat → Nat) (r : List Nat × File) (h : readBytes f junk = .ok r) :
    r.1.length = 128 := by
  simp only [readBytes, Outcome.bind_eq_ok] at h
  obtain ⟨r', h1, h2⟩ := h
  have := readRows_length _ _ _ _ h1
  split at h2
  · simp at h2
  · simp only [Outcome.ok.injEq] at h2
    subst h2
    simp [scan_length, this]

theorem loop_dims (junk : Nat → Nat → Nat) (n : Nat) (f : File) (out : Out) (b : Bool) (r : Out)
    (h : loop junk n f out = .ok (b, r)) (he : ∀ d ∈ out.descriptors, d.length = 128) :
    ∀ d ∈ r.descriptors, d.length = 128 := by
  induction n generalizing f out with
  | zero =>
    simp only [loop, Outcome.ok.injEq, Prod.mk.injEq] at h
    obtain ⟨rfl, rfl⟩ := h
    exact he
  | succ n ih =>
    simp only [loop] at h
    split at h
    · simp only [Outcome.ok.injEq, Prod.mk.injEq] at h
      obtain ⟨rfl, rfl⟩ := h
      exact he
    · rw [Outcome.bind_eq_ok] at h
      obtain ⟨r', h1, h⟩ := h
      refine ih _ _ h ?_
      intro d hd
      rcases List.mem_append.1 hd with hd | hd
      · exact he d hd
      · simp only [List.mem_singleton] at hd
        subst hd
        simpa using readBytes_length _ _ _ h1

end SiftText
end Theia
