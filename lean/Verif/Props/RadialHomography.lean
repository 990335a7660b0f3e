import Verif.Proof.RadialHomography

/-!
# C103: homographies between images with radial distortion

`SixPointRadialDistortionHomography` appends at most two results, with lens parameters in the given range, that map every right point to
the line of its left point; their last rows and left parameters fit the six pairs best; and if the pairs come from a homography and two
lenses that they determine, these are found. `CheckRadialSymmetricError` is zero exactly for pairs that correspond.
-/

namespace Theia

open RadialHomography Spec LinearSolvers CameraModels

/-- C103. The call never removes or changes results passed in. It appends at most two, none if it returns `false`, all with lens
parameters in the given range. -/
theorem C103_results {eps : ℝ} {last2 : List (Fin 8 → ℝ) → Fin 2 → Fin 8 → ℝ} {last5 : List (Fin 5 → ℝ) → Fin 5 → ℝ} {left right : List V2}
    {results res : List Result} {lmin lmax : ℝ} {b : Bool} (h : sixPoint eps last2 last5 left right results lmin lmax = .ok (b, res)) :
    ∃ new, res = results ++ new ∧ new.length ≤ 2 ∧ (b = false → new = []) ∧
      ∀ c ∈ new, (lmin ≤ c.l1 ∧ c.l1 ≤ lmax) ∧ lmin ≤ c.l2 ∧ c.l2 ≤ lmax := by
  obtain ⟨V, -, new, e, hl, hb, ha⟩ := sixPoint_new h
  refine ⟨new, e, hl, hb, fun c hc => ?_⟩
  obtain ⟨rs, r, -, -, hcand⟩ := ha c hc
  obtain ⟨-, -, h1, h2, h3, h4, -⟩ := candidate_some hcand
  exact ⟨⟨h3, h4⟩, h1, h2⟩

/-- C103. Whatever the six pairs, every new result maps each right point to the line through the centre and its left point, unless the
discriminant of the quadratic is rounded to zero. -/
theorem C103_line {eps : ℝ} {last2 : List (Fin 8 → ℝ) → Fin 2 → Fin 8 → ℝ} (h2 : LastTwoVectors last2)
    {last5 : List (Fin 5 → ℝ) → Fin 5 → ℝ} {left right : List V2} {results res : List Result} {lmin lmax : ℝ} {b : Bool}
    (h : sixPoint eps last2 last5 left right results lmin lmax = .ok (b, res)) {V : Fin 2 → Fin 8 → ℝ}
    (hV : V = last2 (((left.zip right).take 6).map rowM))
    (hd : discriminant (quadratic (V 0) (V 1)) = 0 ∨ ¬NearZero eps (discriminant (quadratic (V 0) (V 1)))) :
    ∀ c ∈ res.drop results.length, ∀ p ∈ (left.zip right).take 6, MapsToLine c.H c.l2 p.1 p.2 := by
  obtain ⟨V', hV', new, e, -, -, ha⟩ := sixPoint_new h
  obtain rfl : V' = V := hV'.trans hV.symm
  rw [e, List.drop_left]
  intro c hc p hp
  obtain ⟨rs, r, hr, hrs, hcand⟩ := ha c hc
  have hroot := (isRoot_iff _ _ _).1 (((roots_some hrs).2.2 hd r).1 hr)
  obtain ⟨hn2, hl2, -, -, -, -, e1, e2, -⟩ := candidate_some hcand
  have hk := kernel_combination h2 (pts := (left.zip right).take 6) (by simp) r 1 hp
  rw [← hV] at hk
  have h7 : r * V' 0 7 + V' 1 7 = c.l2 * (r * V' 0 5 + V' 1 5) := by
    rw [hl2]
    rw [div_mul_eq_mul_div, eq_div_iff hn2]
    linear_combination -hroot
  have h6 : r * V' 0 6 + V' 1 6 = c.l2 * (r * V' 0 2 + V' 1 2) := by
    rw [hl2, div_mul_cancel₀ _ hn2]
  unfold MapsToLine
  simp only [M3.mulVec, e1, e2, lensRay, V3.dot]
  simp only [lineConstraint, one_smul, Pi.add_apply, Pi.smul_apply, smul_eq_mul, h6, h7] at hk
  linear_combination hk

/-- C103. Whatever the six pairs, the last row of a new result and its left lens parameter fit them best, given the first row and the
right lens parameter: no vector has a smaller sum of squared depth constraints for its length. -/
theorem C103_depth {eps : ℝ} {last2 : List (Fin 8 → ℝ) → Fin 2 → Fin 8 → ℝ} {last5 : List (Fin 5 → ℝ) → Fin 5 → ℝ}
    (h5 : LastSingularVector last5) {left right : List V2} {results res : List Result} {lmin lmax : ℝ} {b : Bool}
    (h : sixPoint eps last2 last5 left right results lmin lmax = .ok (b, res)) :
    ∀ c ∈ res.drop results.length, ∀ v : Fin 5 → ℝ,
      (((left.zip right).take 6).map fun p =>
          depthConstraint c.H.r1 c.l2 ![c.H.r3.x, c.H.r3.y, c.H.r3.z, c.l1, 1] p.1 p.2 ^ 2).sum * ∑ i, v i ^ 2 ≤
        (((left.zip right).take 6).map fun p => depthConstraint c.H.r1 c.l2 v p.1 p.2 ^ 2).sum *
          (c.H.r3.x ^ 2 + c.H.r3.y ^ 2 + c.H.r3.z ^ 2 + c.l1 ^ 2 + 1) := by
  obtain ⟨V, -, new, e, -, -, ha⟩ := sixPoint_new h
  rw [e, List.drop_left]
  intro c hc v
  obtain ⟨rs, r, -, -, hcand⟩ := ha c hc
  obtain ⟨-, -, -, -, -, -, e1, -, w, hw, hw4, ew⟩ := candidate_some hcand
  set A := ((left.zip right).take 6).map (rowT (fun i => r * V 0 i + V 1 i) c.l2) with hA
  have key : ∀ v, imageSq A v = (((left.zip right).take 6).map fun p => depthConstraint c.H.r1 c.l2 v p.1 p.2 ^ 2).sum := by
    intro v
    simp only [imageSq, hA, List.map_map]
    congr 1
    refine List.map_congr_left fun p _ => ?_
    simp only [Function.comp, sum_rowT, e1]
  have hm := last_min h5 A v
  rw [← hw] at hm
  have hu := (h5 A).1
  rw [← hw] at hu
  set g : Fin 5 → ℝ := ![c.H.r3.x, c.H.r3.y, c.H.r3.z, c.l1, 1] with hg
  have h1 : imageSq A w = w 4 ^ 2 * imageSq A g := by
    conv_lhs => rw [ew]
    exact imageSq_smul _ _ _
  have h2 : w 4 ^ 2 * (c.H.r3.x ^ 2 + c.H.r3.y ^ 2 + c.H.r3.z ^ 2 + c.l1 ^ 2 + 1) = 1 := by
    have hu' : ∑ i, (w 4 • g) i ^ 2 = 1 := by
      rw [← ew]
      exact hu
    simp only [Fin.sum_univ_five, Pi.smul_apply, smul_eq_mul, hg, Matrix.cons_val] at hu'
    linear_combination hu'
  rw [← key, ← key]
  have hp : 0 < w 4 ^ 2 := by positivity
  rw [h1] at hm
  have h3 : w 4 ^ 2 * (imageSq A g * ∑ i, v i ^ 2) ≤
      w 4 ^ 2 * (imageSq A v * (c.H.r3.x ^ 2 + c.H.r3.y ^ 2 + c.H.r3.z ^ 2 + c.l1 ^ 2 + 1)) := by
    calc _ = w 4 ^ 2 * imageSq A g * ∑ i, v i ^ 2 := by ring
      _ ≤ imageSq A v := hm
      _ = imageSq A v * (w 4 ^ 2 * (c.H.r3.x ^ 2 + c.H.r3.y ^ 2 + c.H.r3.z ^ 2 + c.l1 ^ 2 + 1)) := by rw [h2, mul_one]
      _ = _ := by ring
  exact le_of_mul_le_mul_left h3 hp

/-- C103. If some last row and left lens parameter make a new result explain all six pairs, the result explains every pair whose left
point is not on the vertical axis. -/
theorem C103_consistent {eps : ℝ} {last2 : List (Fin 8 → ℝ) → Fin 2 → Fin 8 → ℝ} (h2 : LastTwoVectors last2)
    {last5 : List (Fin 5 → ℝ) → Fin 5 → ℝ} (h5 : LastSingularVector last5) {left right : List V2} {results res : List Result}
    {lmin lmax : ℝ} {b : Bool} (h : sixPoint eps last2 last5 left right results lmin lmax = .ok (b, res)) {V : Fin 2 → Fin 8 → ℝ}
    (hV : V = last2 (((left.zip right).take 6).map rowM))
    (hd : discriminant (quadratic (V 0) (V 1)) = 0 ∨ ¬NearZero eps (discriminant (quadratic (V 0) (V 1)))) :
    ∀ c ∈ res.drop results.length,
      (∃ row l, ∀ p ∈ (left.zip right).take 6, MapsOnto ⟨c.H.r1, c.H.r2, row⟩ l c.l2 p.1 p.2) →
        ∀ p ∈ (left.zip right).take 6, p.1.1 ≠ 0 → MapsOnto c.H c.l1 c.l2 p.1 p.2 := by
  intro c hc ⟨row, l, hrow⟩ p hp hp0
  have hline := C103_line h2 h hV hd c hc p hp
  obtain ⟨V', -, new, e, -, -, ha⟩ := sixPoint_new h
  rw [e, List.drop_left] at hc
  obtain ⟨rs, r, -, -, hcand⟩ := ha c hc
  obtain ⟨-, -, -, -, -, -, e1, -, w, hw, hw4, ew⟩ := candidate_some hcand
  have hk := last_kernel h5 (((left.zip right).take 6).map (rowT (fun i => r * V' 0 i + V' 1 i) c.l2))
    (v := ![row.x, row.y, row.z, l, 1]) (by
      simp only [Fin.sum_univ_five, Matrix.cons_val]
      positivity) (by
      intro q hq
      obtain ⟨p', hp', rfl⟩ := List.mem_map.1 hq
      rw [sum_rowT, ← e1]
      have := congrArg V3.y (hrow p' hp')
      simp only [V3.cross, V3.zero, M3.mulVec, lensRay] at this
      simp only [depthConstraint, Matrix.cons_val, lensRay]
      linear_combination -this) _ (List.mem_map_of_mem hp)
  rw [← hw, sum_rowT, ← e1, ew] at hk
  have hk' : depthConstraint c.H.r1 c.l2 ![c.H.r3.x, c.H.r3.y, c.H.r3.z, c.l1, 1] p.1 p.2 = 0 := by
    have : w 4 * depthConstraint c.H.r1 c.l2 ![c.H.r3.x, c.H.r3.y, c.H.r3.z, c.l1, 1] p.1 p.2 = 0 := by
      rw [← hk]
      simp only [depthConstraint, Pi.smul_apply, smul_eq_mul, Matrix.cons_val, V3.dot]
      ring
    exact (mul_eq_zero.1 this).resolve_left hw4
  simp only [depthConstraint, Matrix.cons_val] at hk'
  unfold MapsToLine at hline
  simp only [M3.mulVec] at hline
  have hr3 : (⟨c.H.r3.x, c.H.r3.y, c.H.r3.z⟩ : V3 ℝ) = c.H.r3 := rfl
  rw [hr3] at hk'
  unfold MapsOnto
  apply V3.ext <;> simp only [V3.cross, V3.zero, M3.mulVec]
  · apply mul_left_cancel₀ hp0
    simp only [lensRay] at hk' hline ⊢
    linear_combination (1 + c.l1 * (p.1.1 ^ 2 + p.1.2 ^ 2)) * hline + p.1.2 * hk'
  · simp only [lensRay] at hk' ⊢
    linear_combination -hk'
  · simp only [lensRay] at hline ⊢
    linear_combination -hline

/-- C103. If the six pairs come from a homography and two lenses with parameters in the given range, and determine them, then a call
that ends returns `true` and the homography, up to scale, and the parameters are among the new results, unless the discriminant is
rounded to zero. -/
theorem C103_complete_partial {eps : ℝ} (he : 0 < eps) {last2 : List (Fin 8 → ℝ) → Fin 2 → Fin 8 → ℝ} (h2 : LastTwoVectors last2)
    {last5 : List (Fin 5 → ℝ) → Fin 5 → ℝ} (h5 : LastSingularVector last5) {left right : List V2} {results res : List Result}
    {lmin lmax : ℝ} {b : Bool} (h : sixPoint eps last2 last5 left right results lmin lmax = .ok (b, res)) {V : Fin 2 → Fin 8 → ℝ}
    (hV : V = last2 (((left.zip right).take 6).map rowM))
    (hd : discriminant (quadratic (V 0) (V 1)) = 0 ∨ ¬NearZero eps (discriminant (quadratic (V 0) (V 1)))) {H : M3 ℝ} {l1 l2 : ℝ}
    (hH : ∀ p ∈ (left.zip right).take 6, MapsOnto H l1 l2 p.1 p.2) (hdet : Determined H l1 l2 ((left.zip right).take 6))
    (hne : H.r1 ≠ V3.zero) (hl1 : lmin ≤ l1 ∧ l1 ≤ lmax) (hl2 : lmin ≤ l2 ∧ l2 ≤ lmax) :
    b = true ∧ ∃ c ∈ res.drop results.length, SameUpToScale H c.H ∧ c.l1 = l1 ∧ c.l2 = l2 := by
  have hrows : firstRows H l2 ≠ 0 := by
    intro h0
    apply hne
    have k := fun i => congrFun h0 i
    apply V3.ext
    · exact k 0
    · exact k 1
    · exact k 2
  obtain ⟨hb, t, ht, n, hn, o, ho, hmem⟩ := tried he h2 h hV hd hH hrows hdet.1
  refine ⟨hb, ?_⟩
  have en : n 0 = t⁻¹ * H.r1.x ∧ n 1 = t⁻¹ * H.r1.y ∧ n 2 = t⁻¹ * H.r1.z ∧ n 3 = t⁻¹ * H.r2.x ∧ n 4 = t⁻¹ * H.r2.y ∧
      n 5 = t⁻¹ * H.r2.z ∧ n 6 = t⁻¹ * (H.r1.z * l2) := by
    rw [hn]
    simp [firstRows]
  obtain ⟨e0, e1, e2, e3, e4, e5, e6⟩ := en
  have ti := inv_ne_zero ht
  have hn2 := (candidate_ok ho).1
  have hz : H.r1.z ≠ 0 := by
    intro h0
    apply hn2
    rw [e2, h0, mul_zero]
  have el2 : n 6 / n 2 = l2 := by
    rw [e6, e2]
    field_simp
  -- the depth constraints
  set A := ((left.zip right).take 6).map (rowT n (n 6 / n 2)) with hA
  have hscale : ∀ (v : Fin 5 → ℝ) (p : V2 × V2), ∑ i, rowT n (n 6 / n 2) p i * v i =
      depthConstraint H.r1 l2 ![v 0, v 1, v 2, t⁻¹ * v 3, t⁻¹ * v 4] p.1 p.2 := by
    intro v p
    rw [sum_rowT, el2, e0, e1, e2]
    simp only [depthConstraint, V3.dot, lensRay, Matrix.cons_val]
    ring
  have hker := last_kernel h5 A (v := ![t⁻¹ * H.r3.x, t⁻¹ * H.r3.y, t⁻¹ * H.r3.z, l1, 1]) (by
      simp only [Fin.sum_univ_five, Matrix.cons_val]
      positivity) (by
      intro q hq
      obtain ⟨p', hp', rfl⟩ := List.mem_map.1 hq
      rw [hscale]
      have := congrArg V3.y (hH p' hp')
      simp only [V3.cross, V3.zero, M3.mulVec, lensRay, V3.dot] at this
      simp only [depthConstraint, Matrix.cons_val, lensRay, V3.dot]
      linear_combination -t⁻¹ * this)
  obtain ⟨s, hs⟩ := hdet.2 ![last5 A 0, last5 A 1, last5 A 2, t⁻¹ * last5 A 3, t⁻¹ * last5 A 4] (by
    intro p hp
    rw [← hscale]
    exact hker _ (List.mem_map_of_mem hp))
  have k := fun i => congrFun hs i
  have k0 : last5 A 0 = s * H.r3.x := k 0
  have k1 : last5 A 1 = s * H.r3.y := k 1
  have k2 : last5 A 2 = s * H.r3.z := k 2
  have k3 : t⁻¹ * last5 A 3 = s * l1 := k 3
  have k4 : t⁻¹ * last5 A 4 = s * 1 := k 4
  have k3' : last5 A 3 = t * s * l1 := by
    rw [inv_mul_eq_iff_eq_mul₀ ht] at k3
    rw [k3]
    ring
  have k4' : last5 A 4 = t * s := by
    rw [inv_mul_eq_iff_eq_mul₀ ht] at k4
    rw [k4]
    ring
  have hs0 : s ≠ 0 := by
    rintro rfl
    have := (h5 A).1
    rw [Fin.sum_univ_five, k0, k1, k2, k3', k4'] at this
    norm_num at this
  have h4 : last5 A 4 ≠ 0 := by
    rw [k4']
    exact mul_ne_zero ht hs0
  have el1 : last5 A 3 / last5 A 4 = l1 := by
    rw [k3', k4']
    field_simp
  cases o with
  | none =>
    exfalso
    have := (candidate_ok ho).2 rfl (by rw [el2]; exact hl2)
    exact this.2 (by rw [← hA, el1]; exact hl1)
  | some c =>
    refine ⟨c, hmem c rfl, ?_⟩
    obtain ⟨-, cl2, -, -, -, -, c1, c2, w, hw, hw4, ew⟩ := candidate_some ho
    rw [cl2, ← hA] at hw
    rw [← hw] at k0 k1 k2 k3' k4'
    have w0 := congrFun ew 0
    have w1 := congrFun ew 1
    have w2 := congrFun ew 2
    have w3 := congrFun ew 3
    simp only [Pi.smul_apply, smul_eq_mul, Matrix.cons_val] at w0 w1 w2 w3
    have hts := mul_ne_zero ht hs0
    refine ⟨⟨t⁻¹, ti, ?_⟩, ?_, cl2.trans el2⟩
    · have r3 : c.H.r3 = H.r3.smul t⁻¹ := by
        apply V3.ext <;> simp only [V3.smul]
        · rw [k0, k4'] at w0
          field_simp
          apply mul_left_cancel₀ hs0
          linarith
        · rw [k1, k4'] at w1
          field_simp
          apply mul_left_cancel₀ hs0
          linarith
        · rw [k2, k4'] at w2
          field_simp
          apply mul_left_cancel₀ hs0
          linarith
      have : c.H = ⟨c.H.r1, c.H.r2, c.H.r3⟩ := rfl
      rw [this, c1, c2, r3, e0, e1, e2, e3, e4, e5]
      rfl
    · apply mul_left_cancel₀ hts
      rw [k3', k4'] at w3
      linarith

/-- C103, counterexample. The claim that a homography is found if the pairs determine it is false: with a zero in the corner of its first
row, as for the identity, the call never ends without a division by zero. -/
theorem C103_centred_counterexample {eps : ℝ} (he : 0 < eps) {last2 : List (Fin 8 → ℝ) → Fin 2 → Fin 8 → ℝ} (h2 : LastTwoVectors last2)
    {last5 : List (Fin 5 → ℝ) → Fin 5 → ℝ} {left right : List V2} {results : List Result} {lmin lmax : ℝ} {V : Fin 2 → Fin 8 → ℝ}
    (hV : V = last2 (((left.zip right).take 6).map rowM))
    (hd : discriminant (quadratic (V 0) (V 1)) = 0 ∨ ¬NearZero eps (discriminant (quadratic (V 0) (V 1)))) {H : M3 ℝ} {l1 l2 : ℝ}
    (hH : ∀ p ∈ (left.zip right).take 6, MapsOnto H l1 l2 p.1 p.2) (hdet : Determined H l1 l2 ((left.zip right).take 6))
    (hne : H.r1 ≠ V3.zero) (hz : H.r1.z = 0) (out : Bool × List Result) :
    sixPoint eps last2 last5 left right results lmin lmax ≠ .ok out := by
  intro h
  have hrows : firstRows H l2 ≠ 0 := by
    intro h0
    apply hne
    have k := fun i => congrFun h0 i
    apply V3.ext
    · exact k 0
    · exact k 1
    · exact k 2
  obtain ⟨-, t, -, n, hn, o, ho, -⟩ := tried he h2 (b := out.1) (res := out.2) h hV hd hH hrows hdet.1
  apply (candidate_ok ho).1
  rw [hn]
  simp [firstRows, hz]

/-! ### The error -/

/-- C103. With lens parameters that are not positive (the default range) and away from the rounding branches of the lens function, the
error of a pair, given in pixels, is not negative, and for points inside the lens it is zero exactly if the homography maps the ray of
the right point to that of the left point. -/
theorem C103_error_partial {eps : ℝ} (he : 0 < eps) {m : Result} (hl1 : m.l1 ≤ 0) (hl2 : m.l2 ≤ 0) {x u : V2} {f1 f2 e : ℝ}
    (h : symmetricError eps m (f1 * x.1, f1 * x.2) (f2 * u.1, f2 * u.2) f1 f2 = .ok e)
    (hx : 0 < 1 + m.l1 * (x.1 ^ 2 + x.2 ^ 2)) (hu : 0 < 1 + m.l2 * (u.1 ^ 2 + u.2 ^ 2))
    (hr1 : ∀ a b s, m.H.mulVec (lensRay m.l2 u) = ⟨s * a, s * b, s⟩ → LensResolves eps m.l1 a b)
    (hr2 : ∀ a b s, m.H.mulVec ⟨s * a, s * b, s⟩ = lensRay m.l1 x → LensResolves eps m.l2 a b) :
    0 ≤ e ∧ (e = 0 ↔ MapsOnto m.H m.l1 m.l2 x u) := by
  obtain ⟨hf1, hf2, hdet, -, -, a, b, s, c, d, t, hs, ht, e1, e2, p, q, hp, hq, hE⟩ := symmetricError_ok h
  have e2' : m.H.mulVec ⟨t * c, t * d, t⟩ = lensRay m.l1 x := by
    rw [← e2, ← M3.mulVec_mul, mul_inverse hdet, M3.one_mulVec]
  obtain ⟨D, hD, hpD, hDe⟩ := distort_scale he hl1 hf1 (hr1 a b s e1)
  obtain ⟨D', hD', hqD, hDe'⟩ := distort_scale he hl2 hf2 (hr2 c d t e2')
  rw [hpD] at hp
  rw [hqD] at hq
  subst hp hq
  simp only [squared] at hE
  refine ⟨?_, ?_, ?_⟩
  · rw [hE]
    have := fun z : ℝ => mul_self_nonneg z
    have h1 := this (f1 * x.1 - f1 * a * D)
    have h2 := this (f1 * x.2 - f1 * b * D)
    have h3 := this (f2 * u.1 - f2 * c * D')
    have h4 := this (f2 * u.2 - f2 * d * D')
    linarith
  · intro h0
    rw [h0] at hE
    have := fun z : ℝ => mul_self_nonneg z
    have h1 := this (f1 * x.1 - f1 * a * D)
    have h2 := this (f1 * x.2 - f1 * b * D)
    have h3 := this (f2 * u.1 - f2 * c * D')
    have h4 := this (f2 * u.2 - f2 * d * D')
    have k1 : f1 * x.1 - f1 * a * D = 0 := mul_self_eq_zero.1 (by linarith)
    have k2 : f1 * x.2 - f1 * b * D = 0 := mul_self_eq_zero.1 (by linarith)
    have x1 : x.1 = a * D := mul_left_cancel₀ hf1 (by linarith)
    have x2 : x.2 = b * D := mul_left_cancel₀ hf1 (by linarith)
    have hray : lensRay m.l1 x = ⟨a * D, b * D, D⟩ := by
      apply V3.ext <;> simp only [lensRay]
      · exact x1
      · exact x2
      · rw [x1, x2, hDe]
    unfold MapsOnto
    rw [e1, hray]
    apply V3.ext <;> simp only [V3.cross, V3.zero] <;> ring
  · intro hm
    unfold MapsOnto at hm
    rw [e1] at hm
    have m1 := congrArg V3.x hm
    have m2 := congrArg V3.y hm
    simp only [V3.cross, V3.zero, lensRay] at m1 m2
    set D1 := 1 + m.l1 * (x.1 ^ 2 + x.2 ^ 2) with hD1
    have x1 : x.1 = a * D1 := mul_left_cancel₀ hs (by linarith)
    have x2 : x.2 = b * D1 := mul_left_cancel₀ hs (by linarith)
    have eD : D = D1 := scale_unique hl1 hD hx hDe (by rw [← x1, ← x2])
    -- the other image
    have hray : lensRay m.l1 x = (⟨s * a, s * b, s⟩ : V3 ℝ).smul (s⁻¹ * D1) := by
      apply V3.ext <;> simp only [lensRay, V3.smul]
      · rw [x1]; field_simp
      · rw [x2]; field_simp
      · field_simp
        exact hD1.symm
    rw [hray, ← e1, ← M3.mulVec_smul] at e2'
    have e3 : (⟨t * c, t * d, t⟩ : V3 ℝ) = (lensRay m.l2 u).smul (s⁻¹ * D1) := by
      have := congrArg (inverse m.H).mulVec e2'
      rwa [← M3.mulVec_mul, ← M3.mulVec_mul, inverse_mul hdet, M3.one_mulVec, M3.one_mulVec] at this
    have n1 := congrArg V3.x e3
    have n2 := congrArg V3.y e3
    have n3 := congrArg V3.z e3
    simp only [V3.smul, lensRay] at n1 n2 n3
    set D2 := 1 + m.l2 * (u.1 ^ 2 + u.2 ^ 2) with hD2
    have hg : s⁻¹ * D1 ≠ 0 := mul_ne_zero (inv_ne_zero hs) hx.ne'
    have u1 : u.1 = c * D2 := mul_left_cancel₀ hg (by rw [← n1, n3]; ring)
    have u2 : u.2 = d * D2 := mul_left_cancel₀ hg (by rw [← n2, n3]; ring)
    have eD' : D' = D2 := scale_unique hl2 hD' hu hDe' (by rw [← u1, ← u2])
    rw [hE, eD, eD']
    rw [x1, x2, u1, u2]
    ring

/-! ### A case -/

namespace RadialHomography

/-- Six points of the right image. -/
noncomputable def exRight : List V2 := [(1, 1), (-2, 0), (-1, -2), (-1, -1), (-1, 1), (0, -2)]

/-- Where the left image sees them, with the height of the first one, on the vertical axis, left open: `-1` is right. -/
noncomputable def exLeft (y : ℝ) : List V2 := [(0, y), (5 / 3, 0), (5 / 4, 1 / 2), (2, 1), (2, -1), (1, 2 / 3)]

/-- The homography. -/
noncomputable def exH : M3 ℝ := ⟨⟨1, 0, 1⟩, ⟨0, 1, 0⟩, ⟨0, 0, 1⟩⟩

/-- A basis of what the line constraints leave. -/
noncomputable def exV : Fin 2 → Fin 8 → ℝ := ![![3, -2, -1, 3, 2, 2, 0, 1], ![1, 0, 1, 0, 1, 0, -1, 0]]

noncomputable def exPairs (y : ℝ) : List (V2 × V2) := ((exLeft y).zip exRight).take 6

theorem exPairs_eq (y : ℝ) : exPairs y = [((0, y), (1, 1)), ((5 / 3, 0), (-2, 0)), ((5 / 4, 1 / 2), (-1, -2)), ((2, 1), (-1, -1)),
    ((2, -1), (-1, 1)), ((1, 2 / 3), (0, -2))] := by
  simp [exPairs, exLeft, exRight]

theorem exH_maps : ∀ p ∈ exPairs (-1), MapsOnto exH 0 (-1) p.1 p.2 := by
  rw [exPairs_eq]
  simp only [List.mem_cons, List.not_mem_nil, or_false, forall_eq_or_imp, forall_eq, MapsOnto, exH, M3.mulVec, lensRay, V3.dot,
    V3.cross, V3.zero, V3.mk.injEq]
  norm_num

theorem ex_line {y : ℝ} (hy : y ≠ 0) (v : Fin 8 → ℝ) (h : ∀ p ∈ exPairs y, lineConstraint v p.1 p.2 = 0) :
    v = v 7 • exV 0 + (-v 6) • exV 1 := by
  rw [exPairs_eq] at h
  simp only [List.mem_cons, List.not_mem_nil, or_false, forall_eq_or_imp, forall_eq, lineConstraint] at h
  obtain ⟨h1, h2, h3, h4, h5, h6⟩ := h
  have h1' : v 0 + v 1 + v 2 + 2 * v 6 = 0 := by
    apply mul_left_cancel₀ hy
    linarith
  funext i
  fin_cases i <;> simp [exV] <;> linarith

theorem ex_depth (v : Fin 5 → ℝ) (h : ∀ p ∈ exPairs (-1), depthConstraint exH.r1 (-1) v p.1 p.2 = 0) :
    v = v 4 • ![exH.r3.x, exH.r3.y, exH.r3.z, 0, 1] := by
  rw [exPairs_eq] at h
  simp only [List.mem_cons, List.not_mem_nil, or_false, forall_eq_or_imp, forall_eq, depthConstraint, V3.dot, lensRay, exH] at h
  obtain ⟨h1, h2, h3, h4, h5, h6⟩ := h
  funext i
  fin_cases i <;> simp [exH] <;> linarith

theorem ex_determined : Determined exH 0 (-1) (exPairs (-1)) :=
  ⟨⟨exV 0, exV 1, fun v h => ⟨_, _, ex_line (by norm_num) v h⟩⟩, fun v h => ⟨_, ex_depth v h⟩⟩

theorem exV_independent : LinearIndependent ℝ exV := by
  have : exV = ![exV 0, exV 1] := by funext k; fin_cases k <;> rfl
  rw [this, LinearIndependent.pair_iff]
  intro s t h
  have h7 := congrFun h 7
  have h6 := congrFun h 6
  simp [exV] at h6 h7
  exact ⟨h7, h6⟩

theorem ex_last2 (y : ℝ) : ∃ last2 : List (Fin 8 → ℝ) → Fin 2 → Fin 8 → ℝ, LastTwoVectors last2 ∧ last2 ((exPairs y).map rowM) = exV := by
  refine exists_lastTwo_with _ _ exV_independent ?_
  intro r hr k
  obtain ⟨p, hp, rfl⟩ := List.mem_map.1 hr
  rw [sum_rowM]
  revert p
  rw [exPairs_eq]
  simp only [List.mem_cons, List.not_mem_nil, or_false, forall_eq_or_imp, forall_eq, lineConstraint, List.map_cons, List.map_nil]
  fin_cases k <;> simp [exV] <;> norm_num

/-- The rows for the second root. -/
noncomputable def exN : Fin 8 → ℝ := fun i => 0 * exV 0 i + exV 1 i

/-- The vector of the second stage. -/
noncomputable def exG : Fin 5 → ℝ := (Real.sqrt 2)⁻¹ • ![0, 0, 1, 0, 1]

theorem ex_last5 (y : ℝ) : ∃ last5 : List (Fin 5 → ℝ) → Fin 5 → ℝ, LastSingularVector last5 ∧ last5 ((exPairs y).map (rowT exN (-1))) = exG := by
  have h2 : (Real.sqrt 2)⁻¹ ^ 2 = 1 / 2 := by
    rw [inv_pow, Real.sq_sqrt (by norm_num)]
    norm_num
  refine exists_last_with (by norm_num) _ _ ?_ fun w _ => ?_
  · simp only [exG, Fin.sum_univ_five, Pi.smul_apply, smul_eq_mul, Matrix.cons_val, mul_zero, mul_one, h2]
    norm_num
  · rw [(imageSq_eq_zero _ _).2]
    · exact imageSq_nonneg _ _
    · intro r hr
      obtain ⟨p, hp, rfl⟩ := List.mem_map.1 hr
      rw [sum_rowT]
      revert p
      rw [exPairs_eq]
      simp only [List.mem_cons, List.not_mem_nil, or_false, forall_eq_or_imp, forall_eq, depthConstraint, List.map_cons, List.map_nil]
      simp [exN, exV, exG, V3.dot, lensRay]
      norm_num
      refine ⟨?_, ?_, ?_⟩ <;> ring

theorem ex_roots : roots (1 / 2 ^ 52) (quadratic (exV 0) (exV 1)) = .ok (some [3, 0]) := by
  have hq : quadratic (exV 0) (exV 1) = (1, -3, 0) := by
    simp [quadratic, exV]
    norm_num
  have hd : discriminant (1, -3, 0) = 9 := by norm_num [discriminant]
  rw [hq]
  unfold roots
  simp only [hd]
  have h9 : Real.sqrt 9 = 3 := by
    rw [show (9 : ℝ) = 3 ^ 2 by norm_num]
    exact Real.sqrt_sq (by norm_num)
  rw [if_neg (by unfold NearZero; rw [hd]; norm_num), if_pos (by norm_num), if_neg (by norm_num), h9]
  norm_num

theorem ex_exact : ¬NearZero (1 / 2 ^ 52) (discriminant (quadratic (exV 0) (exV 1))) := by
  have hq : quadratic (exV 0) (exV 1) = (1, -3, 0) := by
    simp [quadratic, exV]
    norm_num
  rw [hq]
  norm_num [discriminant, NearZero]

theorem ex_first (last5 : List (Fin 5 → ℝ) → Fin 5 → ℝ) (pts : List (V2 × V2)) {lmax : ℝ} (hl : lmax ≤ 0) :
    candidate last5 pts (-5) lmax (fun i => 3 * exV 0 i + exV 1 i) = .ok none := by
  unfold candidate
  have h2 : 3 * exV 0 2 + exV 1 2 = -2 := by simp [exV]; try norm_num
  have h6 : 3 * exV 0 6 + exV 1 6 = -1 := by simp [exV]; try norm_num
  simp only [h2, h6]
  rw [if_neg (by norm_num), if_pos (by right; linarith)]

theorem ex_second {last5 : List (Fin 5 → ℝ) → Fin 5 → ℝ} {y : ℝ} (h5 : last5 ((exPairs y).map (rowT exN (-1))) = exG) :
    candidate last5 (exPairs y) (-5) 0 (fun i => 0 * exV 0 i + exV 1 i) = .ok (some ⟨exH, 0, -1⟩) := by
  unfold candidate
  have h2 : 0 * exV 0 2 + exV 1 2 = 1 := by simp [exV]; try norm_num
  have h6 : 0 * exV 0 6 + exV 1 6 = -1 := by simp [exV]; try norm_num
  have hs : (Real.sqrt 2)⁻¹ ≠ 0 := by positivity
  have e4 : exG 4 = (Real.sqrt 2)⁻¹ := by simp [exG]
  have e0 : exG 0 = 0 := by simp [exG]
  have e1 : exG 1 = 0 := by simp [exG]
  have e2 : exG 2 = (Real.sqrt 2)⁻¹ := by simp [exG]
  have e3 : exG 3 = 0 := by simp [exG]
  simp only [h2, h6]
  rw [if_neg (by norm_num), div_one, if_neg (by norm_num)]
  have h5' : last5 ((exPairs y).map (rowT (fun i => 0 * exV 0 i + exV 1 i) (-1))) = exG := h5
  rw [h5']
  rw [e4, if_neg hs, e3, zero_div, if_neg (by norm_num), e0, e1, e2, zero_div, div_self hs]
  simp [exV, exH]

theorem ex_run {last2 : List (Fin 8 → ℝ) → Fin 2 → Fin 8 → ℝ} {last5 : List (Fin 5 → ℝ) → Fin 5 → ℝ} {y : ℝ}
    (h2 : last2 ((exPairs y).map rowM) = exV) (h5 : last5 ((exPairs y).map (rowT exN (-1))) = exG) (results : List Result) :
    sixPoint (1 / 2 ^ 52) last2 last5 (exLeft y) exRight results (-5) 0 = .ok (true, results ++ [⟨exH, 0, -1⟩]) := by
  have h2' : last2 (List.map rowM (List.take 6 ((exLeft y).zip exRight))) = exV := h2
  have h5' := ex_second h5
  have h1' := ex_first last5 (exPairs y) (le_refl 0)
  unfold exPairs at h5' h1'
  unfold sixPoint
  rw [if_neg (by simp [exLeft, exRight])]
  simp only [h2', ex_roots, collect, h1', h5']

end RadialHomography

/-- The hypotheses of `C103_line`, `C103_depth`, `C103_consistent` and `C103_complete_partial` are met: six points seen through a lens with
parameter `-1` on the right. -/
example : ∃ last2 last5, LastTwoVectors last2 ∧ LastSingularVector last5 ∧
    sixPoint (1 / 2 ^ 52) last2 last5 (exLeft (-1)) exRight [] (-5) 0 = .ok (true, [⟨exH, 0, -1⟩]) ∧
    ¬NearZero (1 / 2 ^ 52) (discriminant (quadratic (last2 ((exPairs (-1)).map rowM) 0) (last2 ((exPairs (-1)).map rowM) 1))) ∧
    (∀ p ∈ exPairs (-1), MapsOnto exH 0 (-1) p.1 p.2) ∧ Determined exH 0 (-1) (exPairs (-1)) ∧ exH.r1 ≠ V3.zero := by
  obtain ⟨last2, hs2, h2⟩ := ex_last2 (-1)
  obtain ⟨last5, hs5, h5⟩ := ex_last5 (-1)
  refine ⟨last2, last5, hs2, hs5, ex_run h2 h5 [], by rw [h2]; exact ex_exact, exH_maps, ex_determined, ?_⟩
  intro h
  have := congrArg V3.x h
  simp [exH, V3.zero] at this

/-- C103, counterexample. The claim that the call returns `true` only if it found a solution is false: both solutions can be outside the
range, and are dropped. -/
theorem C103_none_counterexample : ∃ last2 last5, LastTwoVectors last2 ∧ LastSingularVector last5 ∧ ∃ left right : List V2,
    sixPoint (1 / 2 ^ 52) last2 last5 left right [] (-5) (-2) = .ok (true, []) := by
  obtain ⟨last2, hs2, h2⟩ := ex_last2 (-1)
  obtain ⟨last5, hs5, h5⟩ := ex_last5 (-1)
  refine ⟨last2, last5, hs2, hs5, exLeft (-1), exRight, ?_⟩
  have h2' : last2 (List.map rowM (List.take 6 ((exLeft (-1)).zip exRight))) = exV := h2
  have h1' := ex_first last5 (exPairs (-1)) (show (-2 : ℝ) ≤ 0 by norm_num)
  have h3' : candidate last5 (exPairs (-1)) (-5) (-2) (fun i => 0 * exV 0 i + exV 1 i) = .ok none := by
    unfold candidate
    have h2 : 0 * exV 0 2 + exV 1 2 = 1 := by simp [exV]; try norm_num
    have h6 : 0 * exV 0 6 + exV 1 6 = -1 := by simp [exV]; try norm_num
    simp only [h2, h6]
    rw [if_neg (by norm_num), if_pos (by norm_num)]
  unfold exPairs at h1' h3'
  unfold sixPoint
  rw [if_neg (by simp [exLeft, exRight])]
  simp only [h2', ex_roots, collect, h1', h3']

/-- C103, counterexample. The claim that the results explain all six pairs if five of them are exact is false of a left point on the
vertical axis: its height has no influence at all, and the result does not map the right point to it. -/
theorem C103_axis_counterexample (y : ℝ) (hy : y ≠ -1) : ∃ last2 last5, LastTwoVectors last2 ∧ LastSingularVector last5 ∧
    sixPoint (1 / 2 ^ 52) last2 last5 (exLeft y) exRight [] (-5) 0 = .ok (true, [⟨exH, 0, -1⟩]) ∧
    ¬MapsOnto exH 0 (-1) (0, y) (1, 1) := by
  obtain ⟨last2, hs2, h2⟩ := ex_last2 y
  obtain ⟨last5, hs5, h5⟩ := ex_last5 y
  refine ⟨last2, last5, hs2, hs5, ex_run h2 h5 [], fun h => hy ?_⟩
  have := congrArg V3.x h
  simp [exH, M3.mulVec, lensRay, V3.dot, V3.cross, V3.zero] at this
  linarith

/-- The hypotheses of `C103_centred_counterexample` are met by the identity and six points. -/
example : ∃ (last2 : List (Fin 8 → ℝ) → Fin 2 → Fin 8 → ℝ) (pts : List V2), LastTwoVectors last2 ∧
    discriminant (quadratic (last2 (((pts.zip pts).take 6).map rowM) 0) (last2 (((pts.zip pts).take 6).map rowM) 1)) = 0 ∧
    (∀ p ∈ (pts.zip pts).take 6, MapsOnto M3.one 0 0 p.1 p.2) ∧ Determined M3.one 0 0 ((pts.zip pts).take 6) ∧
    (M3.one : M3 ℝ).r1 ≠ V3.zero ∧ (M3.one : M3 ℝ).r1.z = 0 := by
  let W : Fin 2 → Fin 8 → ℝ := ![![1, 0, -1, -1, 0, -1, 1, 0], ![1, 0, 0, 0, 1, 0, 0, 0]]
  let pts : List V2 := [(-2, -1), (-1, -1), (-1, 0), (-1, 1), (0, -1), (0, 1)]
  have hp : (pts.zip pts).take 6 = [((-2, -1), (-2, -1)), ((-1, -1), (-1, -1)), ((-1, 0), (-1, 0)), ((-1, 1), (-1, 1)),
      ((0, -1), (0, -1)), ((0, 1), (0, 1))] := by
    simp [pts]
  have hW : LinearIndependent ℝ W := by
    have : W = ![W 0, W 1] := by funext k; fin_cases k <;> rfl
    rw [this, LinearIndependent.pair_iff]
    intro s t h
    have h4 := congrFun h 4
    have h6 := congrFun h 6
    simp [W] at h4 h6
    exact ⟨h6, h4⟩
  obtain ⟨last2, hs, h2⟩ := exists_lastTwo_with (((pts.zip pts).take 6).map rowM) W hW (by
    intro r hr k
    obtain ⟨p, hp', rfl⟩ := List.mem_map.1 hr
    rw [sum_rowM]
    rw [hp] at hp'
    revert p
    simp only [List.mem_cons, List.not_mem_nil, or_false, forall_eq_or_imp, forall_eq, lineConstraint]
    fin_cases k <;> simp [W] <;> norm_num)
  refine ⟨last2, pts, hs, ?_, ?_, ⟨⟨W 0, W 1, ?_⟩, ?_⟩, ?_, rfl⟩
  · rw [h2]
    simp [W, quadratic, discriminant]
  · rw [hp]
    simp only [List.mem_cons, List.not_mem_nil, or_false, forall_eq_or_imp, forall_eq, MapsOnto, M3.one, M3.mulVec, lensRay, V3.dot,
      V3.cross, V3.zero, V3.mk.injEq]
    norm_num
  · intro v hv
    rw [hp] at hv
    simp only [List.mem_cons, List.not_mem_nil, or_false, forall_eq_or_imp, forall_eq, lineConstraint] at hv
    obtain ⟨h1, h2, h3, h4, h5, h6⟩ := hv
    refine ⟨v 6, v 4, ?_⟩
    funext i
    fin_cases i <;> simp [W] <;> linarith
  · intro v hv
    rw [hp] at hv
    simp only [List.mem_cons, List.not_mem_nil, or_false, forall_eq_or_imp, forall_eq, depthConstraint, V3.dot, lensRay, M3.one] at hv
    obtain ⟨h1, h2, h3, h4, h5, h6⟩ := hv
    refine ⟨v 4, ?_⟩
    funext i
    fin_cases i <;> simp [M3.one]; all_goals linarith
  · intro h
    have := congrArg V3.x h
    simp [M3.one, V3.zero] at this

/-- The hypotheses of `C103_error_partial` are met. -/
example : (∃ e, symmetricError (1 / 2 ^ 52) ⟨exH, 0, -1⟩ (1000 * (5 / 3), 1000 * 0) (1000 * (1 / 2), 1000 * 0) 1000 1000 = .ok e) ∧
    (0 : ℝ) < 1 + 0 * ((5 / 3) ^ 2 + 0 ^ 2) ∧ (0 : ℝ) < 1 + -1 * ((1 / 2) ^ 2 + 0 ^ 2) ∧
    (∀ a b s, exH.mulVec (lensRay (-1) (1 / 2, 0)) = ⟨s * a, s * b, s⟩ → LensResolves (1 / 2 ^ 52) 0 a b) ∧
    ∀ a b s, exH.mulVec ⟨s * a, s * b, s⟩ = lensRay 0 (5 / 3, 0) → LensResolves (1 / 2 ^ 52) (-1) a b := by
  refine ⟨?_, by norm_num, by norm_num, fun a b s _ => Or.inl (by ring), ?_⟩
  · simp [symmetricError, divide, undistortPoint, project, inverseOf, distortPoint, squared, exH, M3.mulVec, V3.dot, M3.det, V3.cross,
      LinearSolvers.inverse, Outcome.ok_bind]
    norm_num [Outcome.ok_bind]
  · intro a b s h
    have h1 := congrArg V3.x h
    have h2 := congrArg V3.y h
    have h3 := congrArg V3.z h
    simp [exH, M3.mulVec, V3.dot, lensRay] at h1 h2 h3
    rw [h3] at h1 h2
    have ha : a = 2 / 3 := by linarith
    have hb : b = 0 := by simpa using h2
    right
    rw [ha, hb]
    norm_num

/-- C103, counterexample. The claim that corresponding pairs have error zero is false of positive lens parameters: a point far from the
centre is taken back to another one. -/
theorem C103_far_counterexample : MapsOnto M3.one 2 0 (1, 0) (1 / 3, 0) ∧
    symmetricError (1 / 2 ^ 52) ⟨M3.one, 2, 0⟩ (1, 0) (1 / 3, 0) 1 1 = .ok (1 / 8) := by
  constructor
  · unfold MapsOnto
    apply V3.ext <;> norm_num [M3.one, M3.mulVec, V3.dot, V3.cross, V3.zero, lensRay]
  · have hs : Real.sqrt (1 / 9) = 1 / 3 := by
      rw [show (1 / 9 : ℝ) = (1 / 3) ^ 2 by norm_num]
      exact Real.sqrt_sq (by norm_num)
    have d1 : divisionDistort (1 / 2 ^ 52) 2 (1 / 3, 0) = (1 / 2, 0) := by
      have : (1 : ℝ) - 4 * 2 * (1 / 3 * (1 / 3) + 0 * 0) = 1 / 9 := by norm_num
      unfold divisionDistort divisionScale
      simp only [this, hs]
      rw [if_neg (by norm_num)]
      norm_num
    have d2 : divisionDistort (1 / 2 ^ 52) 0 (1 / 3, 0) = (1 / 3, 0) := by
      unfold divisionDistort divisionScale
      simp
    have u1 : undistortPoint (1, 0) 1 2 = .ok ⟨1 / 3, 0, 1⟩ := by
      simp [undistortPoint, divide, squared, Outcome.ok_bind]
      norm_num [Outcome.ok_bind]
    have u2 : undistortPoint (1 / 3, 0) 1 0 = .ok ⟨1 / 3, 0, 1⟩ := by
      simp [undistortPoint, divide, squared, Outcome.ok_bind]
    have iv : inverseOf (M3.one : M3 ℝ) = .ok M3.one := by
      unfold inverseOf
      rw [M3.det_one, if_neg one_ne_zero]
      congr 1
      simp [inverse, M3.one, M3.det, V3.dot, V3.cross]
    have pr : project M3.one ⟨1 / 3, 0, 1⟩ = .ok ⟨1 / 3, 0, 1⟩ := by
      unfold project
      rw [M3.one_mulVec]
      simp
    have p1 : ∀ k, distortPoint (1 / 2 ^ 52) ⟨1 / 3, 0, 1⟩ 1 k = .ok (divisionDistort (1 / 2 ^ 52) k (1 / 3, 0)) := by
      intro k
      simp [distortPoint, divide, Outcome.ok_bind]
    unfold symmetricError
    have k1 : divide 2 (1 * 1) = .ok 2 := by norm_num [divide]
    have k2 : divide 0 (1 * 1) = .ok 0 := by norm_num [divide]
    simp only [k1, k2, Outcome.ok_bind, u1, u2, pr, iv, p1, d1, d2]
    norm_num [squared]

/-- C103. In the estimator, a call that ends had at least six correspondences, and the lens parameters of its new results are in the
range of the first correspondence. -/
theorem C103_estimator {eps : ℝ} {last2 : List (Fin 8 → ℝ) → Fin 2 → Fin 8 → ℝ} {last5 : List (Fin 5 → ℝ) → Fin 5 → ℝ}
    {cs : List Correspondence} {results res : List Result} {b : Bool} (h : estimateModel eps last2 last5 cs results = .ok (b, res)) :
    6 ≤ cs.length ∧ ∃ c rest, cs = c :: rest ∧
      ∀ r ∈ res.drop results.length, (c.lmin ≤ r.l1 ∧ r.l1 ≤ c.lmax) ∧ c.lmin ≤ r.l2 ∧ r.l2 ≤ c.lmax := by
  cases cs with
  | nil => cases h
  | cons c rest =>
    have h' : sixPoint eps last2 last5 ((c :: rest).map (·.normalizedLeft)) ((c :: rest).map (·.normalizedRight)) results c.lmin c.lmax =
      .ok (b, res) := h
    obtain ⟨hl, -, -⟩ := sixPoint_ok h'
    obtain ⟨new, e, -, -, hr⟩ := C103_results h'
    refine ⟨by simpa using hl, c, rest, rfl, ?_⟩
    rw [e, List.drop_left]
    exact hr

/-- C103. The error the estimator gives a correspondence is that of its two points in pixels with its two focal lengths. -/
theorem C103_estimator_error_partial {eps : ℝ} (he : 0 < eps) {m : Result} (hl1 : m.l1 ≤ 0) (hl2 : m.l2 ≤ 0) {c : Correspondence} {x u : V2}
    {e : ℝ} (h : error eps c m = .ok e) (hcl : c.left = (c.focalLeft * x.1, c.focalLeft * x.2))
    (hcr : c.right = (c.focalRight * u.1, c.focalRight * u.2))
    (hx : 0 < 1 + m.l1 * (x.1 ^ 2 + x.2 ^ 2)) (hu : 0 < 1 + m.l2 * (u.1 ^ 2 + u.2 ^ 2))
    (hr1 : ∀ a b s, m.H.mulVec (lensRay m.l2 u) = ⟨s * a, s * b, s⟩ → LensResolves eps m.l1 a b)
    (hr2 : ∀ a b s, m.H.mulVec ⟨s * a, s * b, s⟩ = lensRay m.l1 x → LensResolves eps m.l2 a b) :
    0 ≤ e ∧ (e = 0 ↔ MapsOnto m.H m.l1 m.l2 x u) := by
  unfold error at h
  rw [hcl, hcr] at h
  exact C103_error_partial he hl1 hl2 h hx hu hr1 hr2

/-- C103, counterexample. The claim that results respect the ranges of all correspondences is false: only that of the first counts. -/
theorem C103_range_counterexample : ∃ last2 last5, LastTwoVectors last2 ∧ LastSingularVector last5 ∧
    ∃ (cs : List Correspondence) (res : List Result), estimateModel (1 / 2 ^ 52) last2 last5 cs [] = .ok (true, res) ∧
      ∃ c ∈ cs, ∃ r ∈ res, ¬(c.lmin ≤ r.l2 ∧ r.l2 ≤ c.lmax) := by
  obtain ⟨last2, hs2, h2⟩ := ex_last2 (-1)
  obtain ⟨last5, hs5, h5⟩ := ex_last5 (-1)
  let mk : ℝ → V2 × V2 → Correspondence := fun m p => ⟨p.1, p.2, p.1, p.2, 1, 1, m, 0⟩
  refine ⟨last2, last5, hs2, hs5, [mk (-5) ((0, -1), (1, 1)), mk 0 ((5 / 3, 0), (-2, 0)), mk 0 ((5 / 4, 1 / 2), (-1, -2)),
    mk 0 ((2, 1), (-1, -1)), mk 0 ((2, -1), (-1, 1)), mk 0 ((1, 2 / 3), (0, -2))], _, ex_run h2 h5 [], _,
    List.mem_cons_of_mem _ List.mem_cons_self, _, by simp; rfl, ?_⟩
  norm_num [mk]

end Theia
