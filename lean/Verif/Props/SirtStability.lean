import Verif.Props.SirtConv

/-! # C270: SIRT is stable with respect to noise and to the start volume -/

namespace Verif
open Classical DataTerm Finset

variable {ν ι Q : Type} [Fintype ν] [Fintype ι]

/-! ## Weighted distances -/

omit [Fintype ι] in
private theorem dist2_nonneg {w : Arr ν} (hw : ∀ j, 0 < w j) (x z : Arr ν) : 0 ≤ dist2 w x z :=
  sum_nonneg fun j _ => mul_nonneg (hw j).le (sq_nonneg _)

/-- Weighted Cauchy-Schwarz. -/
private theorem wcs {α : Type} [Fintype α] {w : Arr α} (hw : ∀ j, 0 ≤ w j) (f g : Arr α) :
    ∑ j, w j * (f j * g j) ≤ Real.sqrt (∑ j, w j * f j ^ 2) * Real.sqrt (∑ j, w j * g j ^ 2) := by
  have h := Real.sum_mul_le_sqrt_mul_sqrt univ (fun j => Real.sqrt (w j) * f j) fun j => Real.sqrt (w j) * g j
  have e1 : ∀ j, Real.sqrt (w j) * f j * (Real.sqrt (w j) * g j) = w j * (f j * g j) := fun j => by
    rw [mul_mul_mul_comm, Real.mul_self_sqrt (hw j)]
  have e2 : ∀ (k : Arr α) j, (Real.sqrt (w j) * k j) ^ 2 = w j * k j ^ 2 := fun k j => by rw [mul_pow, Real.sq_sqrt (hw j)]
  simpa only [e1, e2] using h

omit [Fintype ι] in
theorem dist2_triangle {w : Arr ν} (hw : ∀ j, 0 < w j) (x y z : Arr ν) :
    Real.sqrt (dist2 w x z) ≤ Real.sqrt (dist2 w x y) + Real.sqrt (dist2 w y z) := by
  have h := wcs (fun j => (hw j).le) (fun j => x j - y j) fun j => y j - z j
  refine Real.sqrt_le_iff.2 ⟨add_nonneg (Real.sqrt_nonneg _) (Real.sqrt_nonneg _), ?_⟩
  have h1 := Real.sq_sqrt (dist2_nonneg hw x y)
  have h2 := Real.sq_sqrt (dist2_nonneg hw y z)
  have h3 : dist2 w x z = dist2 w x y + dist2 w y z + 2 * ∑ j, w j * ((x j - y j) * (y j - z j)) := by
    unfold dist2
    rw [mul_sum, ← sum_add_distrib, ← sum_add_distrib]
    exact sum_congr rfl fun j _ => by ring
  have h4 : ∑ j, w j * ((x j - y j) * (y j - z j)) ≤ Real.sqrt (dist2 w x y) * Real.sqrt (dist2 w y z) := h
  nlinarith

/-! ## One iteration -/

/-- The same volume with other data. -/
theorem sirtMap_noise {M M' : ι → ν → ℝ} {a : Args ν ι} {s t t' : Arr ι} {w : Arr ν} {ω : ℝ} (hω : 0 ≤ ω) (hs : SensibleScale M' a)
    (hok : SirtStepOk M a s w) {z0 : Arr ν} (hz0 : Admissible a z0) (x : Arr ν) :
    Real.sqrt (dist2 w (sirtMap M a s t w ω x) (sirtMap M a s t' w ω x)) ≤ ω * Real.sqrt (∑ i, s i * (t i - t' i) ^ 2) := by
  set g : Arr ν := fun j => ∑ i, M i j * (s i * (t i - t' i)) with hg
  set d : Arr ν := fun j => effXMask a j * g j / w j with hd
  have hd0 : ∀ j, effXMask a j = 0 → d j = 0 := fun j hj => by simp only [hd, hj, zero_mul, zero_div]
  -- the clipped difference
  have h1 : dist2 w (sirtMap M a s t w ω x) (sirtMap M a s t' w ω x) ≤ ω ^ 2 * ∑ j, w j * d j ^ 2 := by
    unfold dist2
    rw [mul_sum]
    refine sum_le_sum fun j _ => ?_
    set u : Arr ν := fun j => x j + ω / w j * wgrad M s t x j with hu
    set v : Arr ν := fun j => x j + ω / w j * wgrad M s t' x j with hv
    have hp := clipMask_admissible hs hz0 u
    have hq := clipMask_admissible hs hz0 v
    have k1 := clip_vi hs hq u j
    have k2 := clip_vi hs hp v j
    change w j * (clipMask a u j - clipMask a v j) ^ 2 ≤ _
    have hdiff : u j - v j = ω * (g j / w j) := by
      have : wgrad M s t x j - wgrad M s t' x j = g j := by
        simp only [wgrad, hg]
        rw [← sum_sub_distrib]
        exact sum_congr rfl fun i _ => by ring
      have e : u j - v j = ω / w j * (wgrad M s t x j - wgrad M s t' x j) := by simp only [hu, hv]; ring
      rw [e, this]
      ring
    rcases effXMask_binary hs j with h | h
    · rw [zeroOutside_eff (admissible_zero hp) j h, zeroOutside_eff (admissible_zero hq) j h, hd0 j h]
      simp
    · have hdj : d j = g j / w j := by simp only [hd, h, one_mul]
      have k3 : (clipMask a u j - clipMask a v j) ^ 2 ≤ (u j - v j) ^ 2 := by
        have : (clipMask a u j - clipMask a v j) ^ 2 ≤ (u j - v j) * (clipMask a u j - clipMask a v j) := by nlinarith
        nlinarith [sq_nonneg (u j - v j - (clipMask a u j - clipMask a v j))]
      rw [hdiff, mul_pow, ← hdj] at k3
      have := mul_le_mul_of_nonneg_left k3 (hok.2.1 j).le
      linarith
  -- the size of the back-projected noise
  have h2 : ∑ j, w j * d j ^ 2 = ∑ i, s i * ((∑ j, M i j * d j) * (t i - t' i)) := by
    have e : ∀ j, w j * d j ^ 2 = ∑ i, s i * (M i j * d j * (t i - t' i)) := by
      intro j
      have hw := (hok.2.1 j).ne'
      have hdw : w j * d j = effXMask a j * g j := by simp only [hd]; field_simp
      have hdm : effXMask a j * d j = d j := by
        rcases effXMask_binary hs j with h | h
        · rw [hd0 j h, mul_zero]
        · rw [h, one_mul]
      calc w j * d j ^ 2 = w j * d j * d j := by ring
        _ = g j * (effXMask a j * d j) := by rw [hdw]; ring
        _ = g j * d j := by rw [hdm]
        _ = ∑ i, s i * (M i j * d j * (t i - t' i)) := by
          simp only [hg, sum_mul]
          exact sum_congr rfl fun i _ => by ring
    rw [sum_congr rfl fun j _ => e j, sum_comm]
    refine sum_congr rfl fun i _ => ?_
    rw [sum_mul, mul_sum]
  have h3 := wcs hok.1 (fun i => ∑ j, M i j * d j) fun i => t i - t' i
  rw [← h2] at h3
  set D := ∑ j, w j * d j ^ 2 with hD
  have hD0 : 0 ≤ D := sum_nonneg fun j _ => mul_nonneg (hok.2.1 j).le (sq_nonneg _)
  have h4 : Real.sqrt (∑ i, s i * (∑ j, M i j * d j) ^ 2) ≤ Real.sqrt D := Real.sqrt_le_sqrt (hok.2.2 d hd0)
  have h5 : Real.sqrt D ≤ Real.sqrt (∑ i, s i * (t i - t' i) ^ 2) := by
    rcases (Real.sqrt_nonneg D).eq_or_lt with h | h
    · rw [← h]; exact Real.sqrt_nonneg _
    · have h6 : Real.sqrt D * Real.sqrt D ≤ Real.sqrt D * Real.sqrt (∑ i, s i * (t i - t' i) ^ 2) := by
        rw [Real.mul_self_sqrt hD0]
        exact h3.trans (mul_le_mul_of_nonneg_right h4 (Real.sqrt_nonneg _))
      exact le_of_mul_le_mul_left h6 h
  refine (Real.sqrt_le_sqrt h1).trans ?_
  rw [Real.sqrt_mul (sq_nonneg ω), Real.sqrt_sq hω]
  exact mul_le_mul_of_nonneg_left h5 hω

/-! ## The claim -/

/-- C270. Two SIRT runs of `n` iterations on the same matrix with the same options (relaxation in [0, 2], l2 data term with any background, no regularizer, no tolerance; limits
that some volume respects, masks), with data `b`, `b'` and start volumes that differ only where the solution mask is not zero: in the volume's weighted norm, the results differ
at most by as much as the start volumes do plus `n` times the relaxation times the difference of the data in the row-normalised norm (in which masked and test pixels count
nothing). In particular, noise is amplified at most proportionally to the number of iterations, and with the same data the distance never grows. -/
theorem C270_sirt_stable {M : ι → ν → ℝ} {S : Solver ν ι Q} {b b' : Arr ι} {a : Args ν ι} {o o' : Option (Arr ν)} {n : ℕ} {x y : Arr ν} {info info' S1 S2}
    (h : sirt S (matrixOp M) b { a with iterations := n, x0 := o } = .ok (x, info, S1))
    (h' : sirt S (matrixOp M) b' { a with iterations := n, x0 := o' } = .ok (y, info', S2)) (hr : S.regs = []) (hk : S.term.kind = .l2)
    (hT : S.tolerance = none) (hω : 0 ≤ S.relaxation) (hω2 : S.relaxation ≤ 2) (hs : SensibleScale M a) (ha : ∃ z, Admissible a z)
    (hst : ∀ m, a.xMask = some m → ∀ j, m j = 0 → (o.getD fun _ => 0) j = (o'.getD fun _ => 0) j) :
    ∃ s w, RowNormalized M a s ∧ ColumnWeights M a w ∧
      Real.sqrt (dist2 w x y) ≤ Real.sqrt (dist2 w (o.getD fun _ => 0) (o'.getD fun _ => 0)) +
        n * (S.relaxation * Real.sqrt (∑ i, s i * (b i - b' i) ^ 2)) := by
  obtain ⟨sigma, tau, tt, hsc, -, -⟩ := sirt_ok h
  have hsc0 : diagonalScaling (absOrSelf (matrixOp M)).1 (absOrSelf (matrixOp M)).2 S.regs 1 S.relaxation a.xMask
      (initBMasks a.bMask a.bTestMask).1 = .ok (sigma, tau) := hsc
  obtain ⟨s, w, hs0, hw0, -, hwc, hPC, hRN, hstep⟩ := sirt_matrix_all hr hk hs hsc0
  obtain ⟨z0, hz0⟩ := ha
  have hok : SirtStepOk M a s w := ⟨hs0, hw0, hPC⟩
  have hx : x = (sirtMap M a s (fun i => b i - S.term.addBackground (fun _ => 0) i) w S.relaxation)^[n] (o.getD fun _ => 0) :=
    sirt_iterate (a := { a with x0 := o }) h hr hT hsc0 (hstep b)
  have hy : y = (sirtMap M a s (fun i => b' i - S.term.addBackground (fun _ => 0) i) w S.relaxation)^[n] (o'.getD fun _ => 0) :=
    sirt_iterate (a := { a with x0 := o' }) h' hr hT hsc0 (hstep b')
  refine ⟨s, w, hRN, fun j => ⟨hw0 j, by simpa only [effMask_eq] using hwc j⟩, ?_⟩
  rw [hx, hy]
  set t : Arr ι := fun i => b i - S.term.addBackground (fun _ => 0) i with ht
  set t' : Arr ι := fun i => b' i - S.term.addBackground (fun _ => 0) i with ht'
  have hn : ∀ i, (t i - t' i) = b i - b' i := fun i => by simp only [ht, ht']; ring
  set u : Arr ν := o.getD fun _ => 0
  set v : Arr ν := o'.getD fun _ => 0
  have key : ∀ k : ℕ, (∀ j, effXMask a j = 0 → (sirtMap M a s t w S.relaxation)^[k] u j = (sirtMap M a s t' w S.relaxation)^[k] v j) ∧
      Real.sqrt (dist2 w ((sirtMap M a s t w S.relaxation)^[k] u) ((sirtMap M a s t' w S.relaxation)^[k] v)) ≤
      Real.sqrt (dist2 w u v) + k * (S.relaxation * Real.sqrt (∑ i, s i * (b i - b' i) ^ 2)) := by
    intro k
    induction k with
    | zero =>
      refine ⟨fun j hj => ?_, by simp⟩
      unfold effXMask at hj
      cases hm : a.xMask with
      | none => simp [hm] at hj
      | some m => exact hst m hm j (by simpa [hm] using hj)
    | succ k ih =>
      rw [Function.iterate_succ_apply', Function.iterate_succ_apply']
      set X := (sirtMap M a s t w S.relaxation)^[k] u
      set Y := (sirtMap M a s t' w S.relaxation)^[k] v
      refine ⟨fun j hj => ?_, ?_⟩
      · unfold sirtMap
        rw [zeroOutside_eff (admissible_zero (clipMask_admissible hs hz0 _)) j hj, zeroOutside_eff (admissible_zero (clipMask_admissible hs hz0 _)) j hj]
      · have h1 := dist2_triangle hw0 (sirtMap M a s t w S.relaxation X) (sirtMap M a s t w S.relaxation Y) (sirtMap M a s t' w S.relaxation Y)
        have h2 := Real.sqrt_le_sqrt (sirtMap_nonexp (t := t) hω hω2 hs hok hz0 ih.1)
        have h3 := sirtMap_noise (t := t) (t' := t') hω hs hok hz0 Y
        simp only [hn] at h3
        push_cast
        linarith [ih.2]
  exact (key n).2

/-- Non-vacuity: two runs (a matrix with both signs, limits) with different data and start volumes, for every number of iterations. -/
example : let S : Solver (Fin 1) (Fin 2) Unit := ⟨1 / 2, none, [], .new .l2 none, .new .l2 none, none⟩
    SensibleScale demoM demoArgs ∧ (∃ z, Admissible demoArgs z) ∧
    ∀ n, (∃ r, sirt S (matrixOp demoM) ![3, 5] { demoArgs with iterations := n, x0 := none } = .ok r) ∧
      ∃ r, sirt S (matrixOp demoM) ![4, 4] { demoArgs with iterations := n, x0 := some fun _ => 3 } = .ok r := by
  refine ⟨demo_scale, ⟨_, demo_admissible⟩, fun n => ?_⟩
  obtain ⟨p, hp⟩ := matrix_scaling_ok (Q := Unit) (M := demoM) 1 (1 / 2) ⟨0, 0, by simp [demoM]⟩
  exact ⟨sirt_runs (p := p) hp rfl, sirt_runs (p := p) hp rfl⟩

end Verif
