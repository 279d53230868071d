import Verif.Props.SirtConv

/-! # C61, in the limit: FISTA reaches the smallest misfit -/

namespace Verif
open Classical DataTerm Finset Filter Topology

variable {ν ι Q : Type} [Fintype ν] [Fintype ι]

/-- The misfit above the minimum controls how far the projections are from those of the minimiser. -/
private theorem proj_gap {M : ι → ν → ℝ} {a : Args ν ι} (hs : SensibleScale M a) {s t : Arr ι} {z x : Arr ν} (hz : Admissible a z)
    (hmin : ∀ y, Admissible a y → wls M s t z ≤ wls M s t y) (hx : Admissible a x) :
    ∑ i, s i * (∑ j, M i j * x j - ∑ j, M i j * z j) ^ 2 ≤ 4 * (wls M s t x - wls M s t z) := by
  have hmid : Admissible a fun j => (x j + z j) / 2 := by
    rw [admissible_iff] at hz hx ⊢
    intro j
    rcases le_total (x j) (z j) with h | h
    · exact (admissible_ordConnected hs j).out (hx j) (hz j) ⟨by linarith, by linarith⟩
    · exact (admissible_ordConnected hs j).out (hz j) (hx j) ⟨by linarith, by linarith⟩
  have h1 := hmin _ hmid
  have h2 : ∀ i, ∑ j, M i j * ((x j + z j) / 2) = (∑ j, M i j * x j + ∑ j, M i j * z j) / 2 := by
    intro i
    rw [← sum_add_distrib, sum_div]
    exact sum_congr rfl fun j _ => by ring
  have h3 : wls M s t (fun j => (x j + z j) / 2) = (wls M s t x + wls M s t z) / 2 -
      (∑ i, s i * (∑ j, M i j * x j - ∑ j, M i j * z j) ^ 2) / 8 := by
    unfold wls
    simp only [h2]
    have e : ∀ (X Z : Arr ι), (∑ i, s i * (t i - (X i + Z i) / 2) ^ 2) / 2 = ((∑ i, s i * (t i - X i) ^ 2) / 2 + (∑ i, s i * (t i - Z i) ^ 2) / 2) / 2 -
        (∑ i, s i * (X i - Z i) ^ 2) / 8 := by
      intro X Z
      simp only [sum_div, ← sum_add_distrib, ← sum_sub_distrib]
      exact sum_congr rfl fun i _ => by ring
    exact e (fun i => ∑ j, M i j * x j) fun i => ∑ j, M i j * z j
  linarith

/-- C61, the limit: FISTA (default preconditioning, no restart, relaxation in (0, 1], no tolerance) on a matrix with the plain l2 term and no regularizer, for any start, masks
and limits that some volume respects: there is an admissible volume `z` of smallest row-normalised training misfit, the misfit of the volumes returned for more and more iterations
tends to that of `z`, and at every pixel of non-zero weight their projections tend to the projection of `z`. -/
theorem C61_fista_limit {M : ι → ν → ℝ} {S : Solver ν ι Q} {b : Arr ι} {a : Args ν ι} {rnd : Arr ι} {x : ℕ → Arr ν}
    (hrun : ∀ n, ∃ info S', fista S (matrixOp M) b { a with iterations := n } true rnd = .ok (x n, info, S')) (hr : S.regs = []) (hk : S.term.kind = .l2)
    (hT : S.tolerance = none) (hR : S.restartPeriod = none) (hω : 0 < S.relaxation) (hω1 : S.relaxation ≤ 1) (hs : SensibleScale M a) (ha : ∃ z, Admissible a z) :
    ∃ s z, RowNormalized M a s ∧ Admissible a z ∧ (∀ y, Admissible a y → misfit S (matrixOp M) b s z ≤ misfit S (matrixOp M) b s y) ∧
      Tendsto (fun n => misfit S (matrixOp M) b s (x n)) atTop (𝓝 (misfit S (matrixOp M) b s z)) ∧
      ∀ i, s i ≠ 0 → Tendsto (fun n => ∑ j, M i j * x n j) atTop (𝓝 (∑ j, M i j * z j)) := by
  obtain ⟨i0, S0, h0⟩ := hrun 0
  obtain ⟨sigma, tau, tt, hsc, -⟩ := fista_ok h0
  have hsc' : fistaScaling S (matrixOp M) a true rnd = .ok (sigma, tau) := hsc
  obtain ⟨s, w, hs0, hw0, hwc, hPC, hRN, htau, hstep⟩ := fista_matrix (b := b) hk hs hsc'
  obtain ⟨z, hz, hmin⟩ := C251_solution_exists hs S b hs0 ha
  have hadm : ∀ n, 1 ≤ n → Admissible a (x n) := by
    intro n hn
    obtain ⟨info, S', h⟩ := hrun n
    have hb := fun m hm => hs.xMask m hm
    have h1 : WithinLimits a (x n) := C03_fista_limits (a := { a with iterations := n }) h ⟨fun l u hl hu j => (hz.1.1 l hl j).trans (hz.1.2 u hu j), hb,
      fun m l hm hl j hj => by have := hz.1.1 l hl j; rw [admissible_zero hz m hm j hj] at this; exact this,
      fun m u hm hu j hj => by have := hz.1.2 u hu j; rw [admissible_zero hz m hm j hj] at this; exact this⟩ hn
    have h2 : ZeroOutsideMask a (x n) := C04_fista_mask (a := { a with iterations := n }) h
    refine ⟨h1, fun m hm j => ?_⟩
    rcases hb m hm j with e | e
    · rw [e, h2 m hm j e, zero_mul]
    · rw [e, mul_one]
  have hrate : ∀ n, 1 ≤ n → misfit S (matrixOp M) b s (x n) - misfit S (matrixOp M) b s z ≤ 2 * dist2 w (startVolume a 0) z / (S.relaxation * ((n : ℝ) + 1) ^ 2) := by
    intro n hn
    obtain ⟨info, S', h⟩ := hrun n
    have hs' : SensibleScale M { a with iterations := n } := ⟨hs.bMask, hs.test, hs.xMask, hs.rows, hs.cols⟩
    have hA := C05_fista_accounting h
    have hit : info.iterations = n := by
      by_contra hne
      have hb : info.iterations ≤ n := hA.bound
      obtain ⟨-, t, v, ht, -⟩ := hA.earlyStop (lt_of_le_of_ne hb hne)
      rw [hT] at ht
      cases ht
    have h2 := fista_core h hR hω hω1 hs' (fun _ => 0) hs0 hw0 hPC (fun sigma' tau' hsc2 => by
        have hsc3 : fistaScaling S (matrixOp M) a true rnd = .ok (sigma', tau') := hsc2
        rw [hsc'] at hsc3
        simp only [Except.ok.injEq, Prod.mk.injEq] at hsc3
        obtain ⟨rfl, rfl⟩ := hsc3
        exact ⟨htau, hstep⟩) (fun v u hu => by
        rw [mul_zero, zero_add, hr]
        refine sum_nonpos fun j _ => ?_
        rw [mul_assoc]
        exact mul_nonpos_of_nonneg_of_nonpos (hw0 j).le (clip_vi hs' hu v j)) (z := z) hz
    rcases h2 with h2 | h2
    · rw [hit] at h2
      have h3 : (misfit S (matrixOp M) b s (x n) + 0) - (misfit S (matrixOp M) b s z + 0) ≤
        2 * dist2 w (startVolume a 0) z / (S.relaxation * ((n : ℝ) + 1) ^ 2) := h2
      rwa [add_zero, add_zero] at h3
    · omega
  have hlim0 : Tendsto (fun n : ℕ => 2 * dist2 w (startVolume a 0) z / (S.relaxation * ((n : ℝ) + 1) ^ 2)) atTop (𝓝 0) := by
    refine Tendsto.div_atTop tendsto_const_nhds ?_
    refine Tendsto.const_mul_atTop hω ?_
    exact (tendsto_pow_atTop two_ne_zero).comp (tendsto_atTop_add_const_right _ _ tendsto_natCast_atTop_atTop)
  have hge : ∀ n, 1 ≤ n → 0 ≤ misfit S (matrixOp M) b s (x n) - misfit S (matrixOp M) b s z := fun n hn => sub_nonneg.2 (hmin _ (hadm n hn))
  have hdiff : Tendsto (fun n => misfit S (matrixOp M) b s (x n) - misfit S (matrixOp M) b s z) atTop (𝓝 0) :=
    tendsto_of_tendsto_of_tendsto_of_le_of_le' tendsto_const_nhds hlim0 (eventually_atTop.2 ⟨1, hge⟩) (eventually_atTop.2 ⟨1, hrate⟩)
  refine ⟨s, z, hRN, hz, hmin, by simpa using hdiff.add_const (misfit S (matrixOp M) b s z), fun i hi => ?_⟩
  have hsi : 0 < s i := lt_of_le_of_ne (hs0 i) (Ne.symm hi)
  have hsq : Tendsto (fun n => (∑ j, M i j * x n j - ∑ j, M i j * z j) ^ 2) atTop (𝓝 0) := by
    have h3 : Tendsto (fun n => (misfit S (matrixOp M) b s (x n) - misfit S (matrixOp M) b s z) * (4 / s i)) atTop (𝓝 0) := by
      simpa using hdiff.mul_const (4 / s i)
    refine tendsto_of_tendsto_of_tendsto_of_le_of_le' tendsto_const_nhds h3 (Eventually.of_forall fun n => sq_nonneg _) (eventually_atTop.2 ⟨1, fun n hn => ?_⟩)
    have h4 := proj_gap hs (s := s) (t := fun i => b i - S.term.addBackground (fun _ => 0) i) hz (fun y hy => by
      have := hmin y hy
      rwa [misfit_eq_wls, misfit_eq_wls] at this) (hadm n hn)
    rw [← misfit_eq_wls, ← misfit_eq_wls] at h4
    have h5 := single_le_sum (f := fun i => s i * (∑ j, M i j * x n j - ∑ j, M i j * z j) ^ 2) (fun i _ => mul_nonneg (hs0 i) (sq_nonneg _)) (mem_univ i)
    rw [mul_div_assoc', le_div_iff₀ hsi]
    linarith
  have h6 := hsq.sqrt
  simp only [Real.sqrt_sq_eq_abs, Real.sqrt_zero] at h6
  have h7 : Tendsto (fun n => ∑ j, M i j * x n j - ∑ j, M i j * z j) atTop (𝓝 0) := (tendsto_zero_iff_abs_tendsto_zero _).2 h6
  simpa using h7.add_const (∑ j, M i j * z j)

/-- Non-vacuity: a matrix with both signs, inconsistent data, limits; it runs for every number of iterations. -/
example : let S : Solver (Fin 1) (Fin 2) Unit := ⟨1 / 2, none, [], .new .l2 none, .new .l2 none, none⟩
    SensibleScale demoM demoArgs ∧ (∃ z, Admissible demoArgs z) ∧
    ∀ n, ∃ r, fista S (matrixOp demoM) ![3, 5] { demoArgs with iterations := n } true (fun _ => 1) = .ok r := by
  refine ⟨demo_scale, ⟨_, demo_admissible⟩, fun n => ?_⟩
  obtain ⟨p, hp⟩ := matrix_scaling_ok (Q := Unit) (M := demoM) 1 (1 / 2) ⟨0, 0, by simp [demoM]⟩
  exact fista_runs (p := p) (by simpa [fistaScaling, matrixOp, demoArgs, initBMasks] using hp) rfl

end Verif
