import Verif.Proof.Reservoir

/-!
# C24 and C25: reservoir sampler and histogram
-/

namespace Theia

open Spec

/-- C24, all outcomes: whatever random numbers are drawn, adding a stream succeeds; a sampler of size
`k` then holds `min k N` of the `N` stream elements, at different stream positions, and for `N ≤ k` it
holds the stream itself in order. -/
theorem C24_every_outcome {α : Type} (k : Nat) (stream : List α) :
    ∀ q ∈ reservoirDist k stream, ∃ s, q.2 = .ok s ∧ s.samples.length = min k stream.length ∧
      (stream.Nodup → s.samples.Nodup) ∧ (∀ x ∈ s.samples, x ∈ stream) ∧
      (stream.length ≤ k → s.samples = stream) ∧ s.numElementsAdded = stream.length := by
  intro q hq
  obtain ⟨s, hs, hg⟩ := Reservoir.dist_good k stream q hq
  exact ⟨s, hs, hg.len, hg.nodup, hg.sub, hg.all, hg.added⟩

/-- C24, probability: every element of a stream of `N ≥ k` different elements is held with probability
exactly `k / N`. (The total probability is one.) -/
theorem C24_uniform {α : Type} [DecidableEq α] (k : Nat) (stream : List α) (hn : stream.Nodup) (x : α)
    (hx : x ∈ stream) (hk : k ≤ stream.length) :
    prob (reservoirDist k stream) (holds x) = (k : ℚ) / (stream.length : ℚ) ∧
      prob (reservoirDist k stream) (fun _ => true) = 1 :=
  ⟨(Reservoir.prob_holds k stream hn x hx).1 hk, Reservoir.prob_total k stream⟩

/-- C24, values do not matter: the sampler only moves elements around, so streams with repetitions
behave like the streams of their positions. -/
theorem C24_only_positions {α β : Type} (f : α → β) (s s' : Reservoir α) (x : α) (r : Nat)
    (h : s.add x r = .ok s') :
    (⟨s.numElementsToSample, s.numElementsAdded, s.samples.map f⟩ : Reservoir β).add (f x) r =
      .ok ⟨s'.numElementsToSample, s'.numElementsAdded, s'.samples.map f⟩ := by
  rw [Reservoir.add_map, h]

/-- Two elements kept out of three: three equally likely results. -/
example : reservoirDist 2 ["a", "b", "c"] =
    [(1 / 3, .ok ⟨2, 3, ["c", "b"]⟩), (1 / 3, .ok ⟨2, 3, ["a", "c"]⟩), (1 / 3, .ok ⟨2, 3, ["a", "b"]⟩)] ∧
    prob (reservoirDist 2 ["a", "b", "c"]) (holds "b") = 2 / 3 := by decide +kernel

section
variable {T : Type} [LinearOrder T]

/-- C25: for sorted boundaries and values that are not below `negInf` (all floating point values),
every value added is counted in exactly the bucket enclosing it and the total is the number of values. -/
theorem C25_no_value_lost (negInf max : T) (b : List T) (hb : (negInf :: b ++ [max]).Pairwise (· ≤ ·))
    (vs : List T) (hv : ∀ v ∈ vs, negInf ≤ v) :
    ∃ h, Histogram.addAll vs (Histogram.new negInf max b) = .ok h ∧ h.counts.sum = vs.length ∧
      h.counts.length = b.length + 2 ∧
      ∀ k, k < b.length + 2 → h.counts[k]? = some (vs.countP (inBucket (negInf :: b ++ [max]) k)) := by
  obtain ⟨h, e1, e2, e3, e4, e5⟩ := Histogram.addAll_spec vs (Histogram.new negInf max b)
    (by simp [Histogram.new])
    (fun v hm => by
      simp only [Histogram.new, List.cons_append]
      rw [Histogram.upperBound_cons, if_pos (hv v hm)]
      omega)
  refine ⟨h, e1, ?_, ?_, ?_⟩
  · rw [e4]; simp [Histogram.new]
  · rw [e3]; simp [Histogram.new]
  · intro k hk
    rw [e5 k 0 (by
      simp only [Histogram.new, List.getElem?_replicate]
      rw [if_pos (by simpa using hk)])]
    rw [Nat.zero_add]
    congr 1
    apply List.countP_congr
    intro v _
    rw [decide_eq_true_iff]
    exact Histogram.upperBound_iff _ hb v k

/-- C25, printing: with at least one boundary, the numbers printed add up to the number of values below
`max`, and every line shows how many values lie in the range it names. -/
theorem C25_printed (negInf max : T) (b : List T) (hne : b ≠ [])
    (hb : (negInf :: b ++ [max]).Pairwise (· ≤ ·)) (vs : List T) (hv : ∀ v ∈ vs, negInf ≤ v)
    (h : Histogram T) (hh : Histogram.addAll vs (Histogram.new negInf max b) = .ok h) :
    ∃ rows, h.print = .ok rows ∧ (rows.map Histogram.Row.count).sum = vs.countP (fun v => decide (v < max)) ∧
      ∀ row ∈ rows, match row with
        | .below x c => c = vs.countP (fun v => decide (v < x))
        | .between x y c => c = vs.countP (fun v => decide (x ≤ v) && decide (v < y))
        | .above x c => c = vs.countP (fun v => decide (x ≤ v) && decide (v < max)) := by
  obtain ⟨h0, f1, f2, f3, f4⟩ := C25_no_value_lost negInf max b hb vs hv
  rw [hh] at f1
  cases f1
  obtain ⟨h1, e1, e2, _⟩ := Histogram.addAll_spec vs (Histogram.new negInf max b)
    (by simp [Histogram.new])
    (fun v hm => by
      simp only [Histogram.new, List.cons_append]
      rw [Histogram.upperBound_cons, if_pos (hv v hm)]
      omega)
  rw [hh] at e1
  cases e1
  simp only [Histogram.new] at e2
  obtain ⟨b1, bs, rfl⟩ := List.exists_cons_of_ne_nil hne
  obtain ⟨c0, cs, hc⟩ : ∃ c0 cs, h.counts = c0 :: cs :=
    List.exists_cons_of_ne_nil (fun hn => by rw [hn] at f3; simp at f3)
  have hcl : cs.length = (b1 :: (bs ++ [max])).length := by
    rw [hc] at f3; simpa using f3
  have hlast : bs.length + 1 < cs.length := by rw [hcl]; simp
  obtain ⟨bl, hbl1⟩ : ∃ bl, (negInf :: b1 :: (bs ++ [max]))[bs.length + 1]? = some bl :=
    ⟨_, List.getElem?_eq_getElem (by simp)⟩
  have hcount : ∀ k c, cs[k]? = some c → c = vs.countP (inBucket (negInf :: b1 :: (bs ++ [max])) (k + 1)) := by
    intro k c hk
    have hkl : k < cs.length := (List.getElem?_eq_some_iff.1 hk).1
    have := f4 (k + 1) (by rw [hcl] at hkl; simp at hkl ⊢; omega)
    rw [hc, List.getElem?_cons_succ, hk] at this
    exact Option.some.inj this
  have hc0 : c0 = vs.countP (fun v => decide (v < b1)) := by
    have := f4 0 (by simp)
    rw [hc, List.getElem?_cons_zero] at this
    rw [Option.some.inj this]
    apply List.countP_congr
    intro v hm
    simp [inBucket, hv v hm]
  have hlen2 : bs.length < cs.length := by omega
  have hsum := Histogram.rangeRows_sum (b1 :: (bs ++ [max])) cs cs[bs.length] hcl (by simp) (by
    have : (b1 :: (bs ++ [max])).length - 2 = bs.length := by simp
    rw [this]
    exact List.getElem?_eq_getElem hlen2)
  have hlastc : cs.getLastD 0 = vs.countP (fun v => decide (max ≤ v)) := by
    have h1 : cs[bs.length + 1]? = some (cs.getLastD 0) := by
      have hne' : cs ≠ [] := by
        intro hn
        rw [hn] at hlast
        simp at hlast
      rw [List.getLastD_eq_getLast?, List.getLast?_eq_getElem?]
      have : cs.length - 1 = bs.length + 1 := by rw [hcl]; simp
      rw [this, List.getElem?_eq_getElem hlast]
      rfl
    rw [hcount _ _ h1]
    apply List.countP_congr
    intro v _
    simp [inBucket]
  have hprint : h.print = .ok ((if c0 > 0 then [.below b1 c0] else []) ++
      Histogram.rangeRows (b1 :: (bs ++ [max])) cs ++
      (if cs[bs.length] > 0 then [.above bl cs[bs.length]] else [])) := by
    unfold Histogram.print
    rw [e2, hc]
    simp only [List.cons_append]
    have e' : (negInf :: b1 :: (bs ++ [max])).length - 2 = bs.length + 1 := by simp
    rw [e', hbl1, List.getElem?_cons_succ, List.getElem?_eq_getElem hlen2]
  refine ⟨_, hprint, ?_, ?_⟩
  · rw [List.map_append, List.map_append, List.sum_append, List.sum_append]
    have a1 : (((if c0 > 0 then [Histogram.Row.below b1 c0] else []) : List (Histogram.Row T)).map
        Histogram.Row.count).sum = c0 := by
      split
      · simp [Histogram.Row.count]
      · simp; omega
    have a2 : (((if cs[bs.length] > 0 then [Histogram.Row.above bl cs[bs.length]]
        else []) : List (Histogram.Row T)).map Histogram.Row.count).sum = cs[bs.length] := by
      split
      · simp [Histogram.Row.count]
      · simp; omega
    rw [a1, a2]
    rw [hc, List.sum_cons] at f2
    have hsplit := List.length_eq_countP_add_countP (fun v => decide (v < max)) (l := vs)
    have : vs.countP (fun v => decide ¬ decide (v < max) = true) = vs.countP (fun v => decide (max ≤ v)) := by
      apply List.countP_congr
      intro v _
      simp
    omega
  · intro row hrow
    rcases List.mem_append.1 hrow with hrow | hrow
    · rcases List.mem_append.1 hrow with hrow | hrow
      · split at hrow
        · rw [List.mem_singleton] at hrow
          subst hrow
          exact hc0
        · simp at hrow
      · obtain ⟨k, x, y, c, rfl, g1, g2, g3⟩ := Histogram.mem_rangeRows _ _ _ hrow
        simp only
        rw [hcount k c g3]
        apply List.countP_congr
        intro v _
        simp [inBucket, List.getElem?_cons_succ, g1, g2]
    · split at hrow
      · rw [List.mem_singleton] at hrow
        subst hrow
        simp only
        rw [hcount bs.length _ (List.getElem?_eq_getElem hlen2)]
        apply List.countP_congr
        intro v _
        have g2 : (negInf :: b1 :: (bs ++ [max]))[bs.length + 1 + 1]? = some max := by simp
        simp only [inBucket, hbl1, g2]
      · simp at hrow

end

/-- Boundaries 0, 10, 20 with eight values, one of them equal to the largest number. -/
example : ∃ h, Histogram.addAll [5, 10, -3, 25, 1000, 7, 10, 20]
      (Histogram.new (-1000) 1000 [0, 10, 20]) = .ok h ∧ h.counts = [1, 2, 2, 2, 1] ∧
    h.print = .ok [.below 0 1, .between 0 10 2, .between 10 20 2, .above (20 : Int) 2] :=
  ⟨⟨[-1000, 0, 10, 20, 1000], [1, 2, 2, 2, 1]⟩, by decide, by decide, by decide⟩

/-- C25 fails for integer histograms, as used by the applications: the first boundary is zero, so a
negative value is counted before the start of the vector. -/
theorem C25_integer_counterexample (max : Int) (b : List Int) :
    (Histogram.new (T := Int) 0 max b).add (-1) = .ub := by
  simp [Histogram.new, Histogram.add, Histogram.upperBound_cons]

end Theia
