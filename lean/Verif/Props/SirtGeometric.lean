import Mathlib.Analysis.Normed.Module.FiniteDimension
import Verif.Props.SirtStability
import Verif.Props.Restart

/-! # C283: SIRT with independent columns forgets its start geometrically, and amplifies noise at most by a constant -/

namespace Verif
open Classical DataTerm Finset Filter Topology

variable {ν ι Q : Type} [Fintype ν] [Fintype ι]

/-- Different volumes that the solution mask allows differ in their projections on the training pixels. -/
def Determined (M : ι → ν → ℝ) (a : Args ν ι) : Prop :=
  ∀ d : Arr ν, (∀ m, a.xMask = some m → ∀ j, m j = 0 → d j = 0) → (∀ i, Trains a i → ∑ j, M i j * d j = 0) → d = fun _ => 0

/-- An injective matrix is bounded below. -/
private theorem coercive {M : ι → ν → ℝ} {s : Arr ι} {w m : Arr ν} (hs : ∀ i, 0 ≤ s i) (hw : ∀ j, 0 < w j) (hm : ∀ j, m j = 0 ∨ m j = 1)
    (hinj : ∀ d : Arr ν, (∀ j, m j = 0 → d j = 0) → (∀ i, s i ≠ 0 → ∑ j, M i j * d j = 0) → d = fun _ => 0) :
    ∃ C, 0 < C ∧ ∀ d : Arr ν, (∀ j, m j = 0 → d j = 0) → ∑ j, w j * d j ^ 2 ≤ C * ∑ i, s i * (∑ j, M i j * d j) ^ 2 := by
  set L : (ν → ℝ) →ₗ[ℝ] (ι → ℝ) × (ν → ℝ) :=
    { toFun := fun d => (fun i => Real.sqrt (s i) * ∑ j, M i j * d j, fun j => (1 - m j) * d j)
      map_add' := fun d e => by
        refine Prod.ext (funext fun i => ?_) (funext fun j => ?_)
        · simp only [Pi.add_apply, Prod.mk_add_mk, mul_add, sum_add_distrib]
        · simp only [Pi.add_apply, Prod.mk_add_mk, mul_add]
      map_smul' := fun r d => by
        refine Prod.ext (funext fun i => ?_) (funext fun j => ?_)
        · simp only [Pi.smul_apply, smul_eq_mul, RingHom.id_apply, Prod.smul_mk, mul_sum]
          exact sum_congr rfl fun j _ => by ring
        · simp only [Pi.smul_apply, smul_eq_mul, RingHom.id_apply, Prod.smul_mk]
          ring } with hL
  have hker : LinearMap.ker L = ⊥ := by
    rw [LinearMap.ker_eq_bot']
    intro d hd
    have h1 := congrArg Prod.fst hd
    have h2 := congrArg Prod.snd hd
    refine hinj d (fun j hj => ?_) fun i hi => ?_
    · have := congrFun h2 j
      simpa [hL, hj] using this
    · have := congrFun h1 i
      have h3 : Real.sqrt (s i) * ∑ j, M i j * d j = 0 := this
      exact (mul_eq_zero.1 h3).resolve_left (Real.sqrt_ne_zero'.2 (lt_of_le_of_ne (hs i) (Ne.symm hi)))
  obtain ⟨K, hK, hA⟩ := L.exists_antilipschitzWith hker
  have hW : 0 ≤ ∑ j, w j := sum_nonneg fun j _ => (hw j).le
  refine ⟨(∑ j, w j + 1) * (K : ℝ) ^ 2, mul_pos (by linarith) (pow_pos (by exact_mod_cast hK) 2), fun d hd => ?_⟩
  set q := ∑ i, s i * (∑ j, M i j * d j) ^ 2 with hq
  have hq0 : 0 ≤ q := sum_nonneg fun i _ => mul_nonneg (hs i) (sq_nonneg _)
  have h1 : ‖d‖ ≤ K * ‖L d‖ := by
    have := hA.le_mul_dist d 0
    simpa [dist_zero_right] using this
  have h2 : ‖L d‖ ≤ Real.sqrt q := by
    rw [Prod.norm_def]
    refine max_le ?_ ?_
    · refine (pi_norm_le_iff_of_nonneg (Real.sqrt_nonneg _)).2 fun i => ?_
      rw [Real.norm_eq_abs]
      refine Real.abs_le_sqrt ?_
      show (Real.sqrt (s i) * ∑ j, M i j * d j) ^ 2 ≤ q
      rw [mul_pow, Real.sq_sqrt (hs i)]
      exact single_le_sum (f := fun i => s i * (∑ j, M i j * d j) ^ 2) (fun i _ => mul_nonneg (hs i) (sq_nonneg _)) (mem_univ i)
    · have : (L d).2 = 0 := by
        funext j
        show (1 - m j) * d j = 0
        rcases hm j with h | h
        · rw [hd j h, mul_zero]
        · rw [h]; simp
      rw [this, norm_zero]
      exact Real.sqrt_nonneg _
  have h3 : ‖d‖ ≤ K * Real.sqrt q := h1.trans (mul_le_mul_of_nonneg_left h2 K.2)
  have h4 : ‖d‖ ^ 2 ≤ (K : ℝ) ^ 2 * q := by
    have := pow_le_pow_left₀ (norm_nonneg d) h3 2
    rwa [mul_pow, Real.sq_sqrt hq0] at this
  calc ∑ j, w j * d j ^ 2 ≤ ∑ j, w j * ‖d‖ ^ 2 := sum_le_sum fun j _ => by
        refine mul_le_mul_of_nonneg_left ?_ (hw j).le
        rw [← sq_abs (d j), ← Real.norm_eq_abs]
        exact pow_le_pow_left₀ (norm_nonneg _) (norm_le_pi_norm d j) 2
    _ = (∑ j, w j) * ‖d‖ ^ 2 := by rw [sum_mul]
    _ ≤ (∑ j, w j + 1) * ((K : ℝ) ^ 2 * q) := mul_le_mul (by linarith) h4 (sq_nonneg _) (by linarith)
    _ = _ := by ring

/-- The decrease in one iteration. -/
private theorem sirtMap_dec {M : ι → ν → ℝ} {a : Args ν ι} {s t : Arr ι} {w : Arr ν} {ω : ℝ} (hs : SensibleScale M a)
    (hok : SirtStepOk M a s w) {z0 : Arr ν} (hz0 : Admissible a z0) {x z : Arr ν} (hxz : ∀ j, effXMask a j = 0 → x j = z j) :
    dist2 w (sirtMap M a s t w ω x) (sirtMap M a s t w ω z) ≤ dist2 w x z - ω * (2 - ω) * ∑ i, s i * (∑ j, M i j * (x j - z j)) ^ 2 := by
  have hf := fejer_dec (M := M) (s := s) (w := w) (m := effXMask a) (e := fun j => x j - z j) (ω := ω) hok.1 hok.2.1
    (effXMask_binary hs) (fun j hj => by rw [hxz j hj, sub_self]) hok.2.2
  refine le_trans (sum_le_sum fun j _ => ?_) hf
  set u : Arr ν := fun j => x j + ω / w j * wgrad M s t x j with hu
  set v : Arr ν := fun j => z j + ω / w j * wgrad M s t z j with hv
  have hp := clipMask_admissible hs hz0 u
  have hq := clipMask_admissible hs hz0 v
  have h1 := clip_vi hs hq u j
  have h2 := clip_vi hs hp v j
  change w j * (clipMask a u j - clipMask a v j) ^ 2 ≤ _
  have hdiff : u j - v j = x j - z j - ω / w j * ∑ i, M i j * (s i * ∑ j, M i j * (x j - z j)) := by
    simp only [hu, hv]
    have : wgrad M s t x j - wgrad M s t z j = -∑ i, M i j * (s i * ∑ j, M i j * (x j - z j)) := by
      unfold wgrad
      rw [← sum_sub_distrib, ← sum_neg_distrib]
      refine sum_congr rfl fun i _ => ?_
      simp only [mul_sub, sum_sub_distrib]
      ring
    have e : ω / w j * wgrad M s t x j - ω / w j * wgrad M s t z j = ω / w j * (wgrad M s t x j - wgrad M s t z j) := by ring
    rw [this] at e
    linarith
  rcases effXMask_binary hs j with h | h
  · rw [zeroOutside_eff (admissible_zero hp) j h, zeroOutside_eff (admissible_zero hq) j h, h]
    simp
  · rw [h, one_mul]
    refine mul_le_mul_of_nonneg_left ?_ (hok.2.1 j).le
    rw [← hdiff]
    have h3 : (clipMask a u j - clipMask a v j) ^ 2 ≤ (u j - v j) * (clipMask a u j - clipMask a v j) := by nlinarith
    nlinarith [sq_nonneg (u j - v j - (clipMask a u j - clipMask a v j))]

/-- C283. If volumes that the solution mask allows are determined by their projections on the training pixels, there is a factor `q < 1` - depending on matrix, masks, limits and
relaxation (strictly between 0 and 2) only - such that for any data `b`, `b'`, start volumes that differ only where the solution mask is not zero, and number of iterations `n`, in
the volume's weighted norm the results differ at most by `q ^ n` times the difference of the start volumes plus the constant `relaxation / (1 - q)` times the difference of the
data. With the same data, the choice of the start is forgotten geometrically; the noise amplification is bounded for any number of iterations. -/
theorem C283_sirt_geometric {M : ι → ν → ℝ} {S : Solver ν ι Q} {a : Args ν ι} (hrun : ∃ b r, sirt S (matrixOp M) b a = .ok r) (hr : S.regs = [])
    (hk : S.term.kind = .l2) (hT : S.tolerance = none) (hω : 0 < S.relaxation) (hω2 : S.relaxation < 2) (hs : SensibleScale M a) (ha : ∃ z, Admissible a z)
    (hdet : Determined M a) :
    ∃ (q : ℝ) (s : Arr ι) (w : Arr ν), 0 ≤ q ∧ q < 1 ∧ RowNormalized M a s ∧ ColumnWeights M a w ∧
      ∀ (b b' : Arr ι) (o o' : Option (Arr ν)) (n : ℕ) (x y : Arr ν) (info info' : Info) (S1 S2 : Solver ν ι Q),
        sirt S (matrixOp M) b { a with iterations := n, x0 := o } = .ok (x, info, S1) →
        sirt S (matrixOp M) b' { a with iterations := n, x0 := o' } = .ok (y, info', S2) →
        (∀ m, a.xMask = some m → ∀ j, m j = 0 → (o.getD fun _ => 0) j = (o'.getD fun _ => 0) j) →
        Real.sqrt (dist2 w x y) ≤ q ^ n * Real.sqrt (dist2 w (o.getD fun _ => 0) (o'.getD fun _ => 0)) +
          S.relaxation / (1 - q) * Real.sqrt (∑ i, s i * (b i - b' i) ^ 2) := by
  obtain ⟨b0, ⟨x0, info0, S0⟩, h0⟩ := hrun
  obtain ⟨sigma, tau, tt, hsc, -, -⟩ := sirt_ok h0
  have hsc0 : diagonalScaling (absOrSelf (matrixOp M)).1 (absOrSelf (matrixOp M)).2 S.regs 1 S.relaxation a.xMask
      (initBMasks a.bMask a.bTestMask).1 = .ok (sigma, tau) := hsc
  obtain ⟨s, w, hs0, hw0, -, hwc, hPC, hRN, hstep⟩ := sirt_matrix_all hr hk hs hsc0
  obtain ⟨z0, hz0⟩ := ha
  have hok : SirtStepOk M a s w := ⟨hs0, hw0, hPC⟩
  have htr : ∀ i, Trains a i → s i ≠ 0 := by
    intro i hi
    obtain ⟨R, hR, -, e⟩ := hRN i
    rw [e]
    refine div_ne_zero ?_ hR.ne'
    unfold trainWeight
    refine mul_ne_zero ?_ ?_
    · cases hm : a.bMask with
      | none => norm_num
      | some m => exact hi.1 m hm
    · cases ht : a.bTestMask with
      | none => norm_num
      | some t => exact sub_ne_zero.2 (Ne.symm (hi.2 t ht))
  obtain ⟨C, hC, hcoer⟩ := coercive (M := M) hs0 hw0 (effXMask_binary hs) (fun d hd he => hdet d (fun m hm j hj => hd j (by simp [effXMask, hm, hj]))
    fun i hi => he i (htr i hi))
  set ω := S.relaxation with hωd
  have hω3 : 0 < ω * (2 - ω) := mul_pos hω (by linarith)
  -- the factor
  set q := Real.sqrt (max 0 (1 - ω * (2 - ω) / C)) with hq
  have hq1 : q < 1 := by
    rw [hq, Real.sqrt_lt' one_pos]
    have := div_pos hω3 hC
    exact max_lt (by norm_num) (by linarith)
  have hq0 : 0 ≤ q := Real.sqrt_nonneg _
  have hcontr : ∀ (t : Arr ι) (x z : Arr ν), (∀ j, effXMask a j = 0 → x j = z j) →
      Real.sqrt (dist2 w (sirtMap M a s t w ω x) (sirtMap M a s t w ω z)) ≤ q * Real.sqrt (dist2 w x z) := by
    intro t x z hxz
    have h1 := sirtMap_dec (t := t) (ω := ω) hs hok hz0 hxz
    have h2 := hcoer (fun j => x j - z j) fun j hj => by rw [hxz j hj, sub_self]
    have hd : dist2 w x z = ∑ j, w j * (x j - z j) ^ 2 := rfl
    rw [← hd] at h2
    have hd0 : 0 ≤ dist2 w x z := sum_nonneg fun j _ => mul_nonneg (hw0 j).le (sq_nonneg _)
    set p := ∑ i, s i * (∑ j, M i j * (x j - z j)) ^ 2 with hp
    have h3 : dist2 w x z / C ≤ p := by rw [div_le_iff₀ hC]; linarith
    have h4 : dist2 w (sirtMap M a s t w ω x) (sirtMap M a s t w ω z) ≤ (1 - ω * (2 - ω) / C) * dist2 w x z := by
      have := mul_le_mul_of_nonneg_left h3 hω3.le
      have e : (1 - ω * (2 - ω) / C) * dist2 w x z = dist2 w x z - ω * (2 - ω) * (dist2 w x z / C) := by ring
      rw [e]
      linarith
    have h5 : dist2 w (sirtMap M a s t w ω x) (sirtMap M a s t w ω z) ≤ max 0 (1 - ω * (2 - ω) / C) * dist2 w x z :=
      h4.trans (mul_le_mul_of_nonneg_right (le_max_right _ _) hd0)
    rw [hq, ← Real.sqrt_mul (le_max_left _ _)]
    exact Real.sqrt_le_sqrt h5
  refine ⟨q, s, w, hq0, hq1, hRN, fun j => ⟨hw0 j, by simpa only [effMask_eq] using hwc j⟩, ?_⟩
  intro b b' o o' n x y info info' S1 S2 h h' hst
  have hx : x = (sirtMap M a s (fun i => b i - S.term.addBackground (fun _ => 0) i) w ω)^[n] (o.getD fun _ => 0) :=
    sirt_iterate (a := { a with x0 := o }) h hr hT hsc0 (hstep b)
  have hy : y = (sirtMap M a s (fun i => b' i - S.term.addBackground (fun _ => 0) i) w ω)^[n] (o'.getD fun _ => 0) :=
    sirt_iterate (a := { a with x0 := o' }) h' hr hT hsc0 (hstep b')
  rw [hx, hy]
  set t : Arr ι := fun i => b i - S.term.addBackground (fun _ => 0) i with ht
  set t' : Arr ι := fun i => b' i - S.term.addBackground (fun _ => 0) i with ht'
  have hn : ∀ i, (t i - t' i) = b i - b' i := fun i => by simp only [ht, ht']; ring
  set u : Arr ν := o.getD fun _ => 0
  set v : Arr ν := o'.getD fun _ => 0
  set N := Real.sqrt (∑ i, s i * (b i - b' i) ^ 2) with hN
  have hN0 : 0 ≤ N := Real.sqrt_nonneg _
  have h1q : 0 < 1 - q := by linarith
  have key : ∀ k : ℕ, (∀ j, effXMask a j = 0 → (sirtMap M a s t w ω)^[k] u j = (sirtMap M a s t' w ω)^[k] v j) ∧
      Real.sqrt (dist2 w ((sirtMap M a s t w ω)^[k] u) ((sirtMap M a s t' w ω)^[k] v)) ≤
      q ^ k * Real.sqrt (dist2 w u v) + ω / (1 - q) * N := by
    intro k
    induction k with
    | zero =>
      refine ⟨fun j hj => ?_, ?_⟩
      · unfold effXMask at hj
        cases hm : a.xMask with
        | none => simp [hm] at hj
        | some m => exact hst m hm j (by simpa [hm] using hj)
      · have := mul_nonneg (div_nonneg hω.le h1q.le) hN0
        simp only [Function.iterate_zero, id_eq, pow_zero, one_mul]
        linarith
    | succ k ih =>
      rw [Function.iterate_succ_apply', Function.iterate_succ_apply']
      set X := (sirtMap M a s t w ω)^[k] u
      set Y := (sirtMap M a s t' w ω)^[k] v
      refine ⟨fun j hj => ?_, ?_⟩
      · unfold sirtMap
        rw [zeroOutside_eff (admissible_zero (clipMask_admissible hs hz0 _)) j hj, zeroOutside_eff (admissible_zero (clipMask_admissible hs hz0 _)) j hj]
      · have h1 := dist2_triangle hw0 (sirtMap M a s t w ω X) (sirtMap M a s t w ω Y) (sirtMap M a s t' w ω Y)
        have h2 := hcontr t X Y ih.1
        have h3 := sirtMap_noise (t := t) (t' := t') hω.le hs hok hz0 Y
        simp only [hn] at h3
        have h4 := mul_le_mul_of_nonneg_left ih.2 hq0
        have e : q * (q ^ k * Real.sqrt (dist2 w u v) + ω / (1 - q) * N) + ω * N = q ^ (k + 1) * Real.sqrt (dist2 w u v) + ω / (1 - q) * N := by
          rw [pow_succ]
          field_simp
          ring
        linarith
  exact (key n).2

/-- C283, the solution: in the situation of `C283_sirt_geometric`, started at a volume that is zero where the solution mask is (as the default start is), the volumes approach an
admissible volume of smallest row-normalised training misfit geometrically, with one factor `q < 1` for all data and starts. -/
theorem C283_sirt_solution {M : ι → ν → ℝ} {S : Solver ν ι Q} {a : Args ν ι} (hrun : ∃ b r, sirt S (matrixOp M) b a = .ok r) (hr : S.regs = [])
    (hk : S.term.kind = .l2) (hT : S.tolerance = none) (hω : 0 < S.relaxation) (hω2 : S.relaxation < 2) (hs : SensibleScale M a) (ha : ∃ z, Admissible a z)
    (hdet : Determined M a) :
    ∃ (q : ℝ) (w : Arr ν), 0 ≤ q ∧ q < 1 ∧ ColumnWeights M a w ∧
      ∀ (b : Arr ι) (o : Option (Arr ν)) (x : ℕ → Arr ν), ZeroOutsideMask a (o.getD fun _ => 0) →
        (∀ n, ∃ info S', sirt S (matrixOp M) b { a with iterations := n, x0 := o } = .ok (x n, info, S')) →
        ∃ s z, RowNormalized M a s ∧ Admissible a z ∧ (∀ y, Admissible a y → misfit S (matrixOp M) b s z ≤ misfit S (matrixOp M) b s y) ∧
          ∀ n, Real.sqrt (dist2 w (x n) z) ≤ q ^ n * Real.sqrt (dist2 w (o.getD fun _ => 0) z) := by
  obtain ⟨q, s, w, hq0, hq1, -, hw, key⟩ := C283_sirt_geometric hrun hr hk hT hω hω2 hs ha hdet
  refine ⟨q, w, hq0, hq1, hw, fun b o x ho hx => ?_⟩
  have hs' : SensibleScale M { a with x0 := o } := ⟨hs.bMask, hs.test, hs.xMask, hs.rows, hs.cols⟩
  obtain ⟨s', z, h1, h2, h3, h4⟩ := C251_sirt_converges (a := { a with x0 := o }) hx hr hk hT hω hω2 hs' ha
  refine ⟨s', z, h1, h2, h3, fun n => ?_⟩
  have hcont : ∀ v : ℕ → Arr ν, Tendsto v atTop (𝓝 z) → ∀ y : Arr ν, Tendsto (fun k => Real.sqrt (dist2 w y (v k))) atTop (𝓝 (Real.sqrt (dist2 w y z))) := by
    intro v hv y
    have hc : Continuous fun u : Arr ν => Real.sqrt (dist2 w y u) := by
      unfold dist2
      fun_prop
    exact (hc.tendsto z).comp hv
  have hshift : Tendsto (fun k => x (k + n)) atTop (𝓝 z) := h4.comp (tendsto_add_atTop_nat n)
  refine le_of_tendsto_of_tendsto (hcont _ hshift (x n)) ((hcont x h4 (o.getD fun _ => 0)).const_mul _) (Eventually.of_forall fun k => ?_)
  obtain ⟨i1, S1, e1⟩ := hx n
  obtain ⟨i2, S2, e2⟩ := hx k
  obtain ⟨i3, S3, e3⟩ := hx (k + n)
  obtain ⟨y, i4, S4, i5, S5, e4, e5⟩ := C244_sirt_partial S (matrixOp M) b { a with x0 := o } k n (x k) i2 S2 e2
  have hy : y = x (k + n) := (congrArg Prod.fst (Except.ok.inj (e5.symm.trans e3)))
  have hzo : ZeroOutsideMask a (x k) := C04_sirt_mask (a := { a with iterations := k, x0 := o }) e2 (.inl ho)
  have := key b b o (some (x k)) n (x n) y _ _ _ _ e1 e4 fun m hm j hj => by
    rw [ho m hm j hj]
    exact (hzo m hm j hj).symm
  rw [hy] at this
  simpa using this

/-- Non-vacuity: a matrix with both signs, limits, relaxation 1/2: the volume is determined, and runs succeed for all data. -/
example : let S : Solver (Fin 1) (Fin 2) Unit := ⟨1 / 2, none, [], .new .l2 none, .new .l2 none, none⟩
    SensibleScale demoM demoArgs ∧ (∃ z, Admissible demoArgs z) ∧ Determined demoM demoArgs ∧
    ∀ n b o, ∃ r, sirt S (matrixOp demoM) b { demoArgs with iterations := n, x0 := o } = .ok r := by
  refine ⟨demo_scale, ⟨_, demo_admissible⟩, fun d _ h => ?_, fun n b o => ?_⟩
  · have h0 := h 0 ⟨by simp [demoArgs], by simp [demoArgs]⟩
    funext j
    rw [Subsingleton.elim j 0]
    simpa [demoM] using h0
  · obtain ⟨p, hp⟩ := matrix_scaling_ok (Q := Unit) (M := demoM) 1 (1 / 2) ⟨0, 0, by simp [demoM]⟩
    exact sirt_runs (p := p) hp rfl

end Verif
