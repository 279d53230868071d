import Verif.Props.SolversConv
import Verif.Lemmas.BoxLsq

/-! # C251: SIRT converges to a constrained least-squares solution -/

namespace Verif
open Classical DataTerm Finset Filter Topology

variable {ν ι Q : Type} [Fintype ν] [Fintype ι]

/-- The map of a SIRT iteration. -/
noncomputable def sirtMap (M : ι → ν → ℝ) (a : Args ν ι) (s t : Arr ι) (w : Arr ν) (ω : ℝ) (x : Arr ν) : Arr ν :=
  clipMask a fun j => x j + ω / w j * wgrad M s t x j

omit [Fintype ν] [Fintype ι] in
theorem clipMask_continuous (a : Args ν ι) {f : Arr ν → Arr ν} (hf : ∀ j, Continuous fun x => f x j) (j : ν) :
    Continuous fun x => clipMask a (f x) j := by
  have h1 : Continuous fun x => clip1 (a.lower.map (·.get j)) (a.upper.map (·.get j)) (f x j) := by
    unfold clip1
    cases a.lower <;> cases a.upper <;> simp only [Option.map_none, Option.map_some]
    · exact hf j
    · exact (hf j).min continuous_const
    · exact (hf j).max continuous_const
    · exact ((hf j).max continuous_const).min continuous_const
  unfold clipMask applyMask
  cases a.xMask with
  | none => exact h1
  | some m => exact h1.mul_const _

private theorem stepMap_continuous (M : ι → ν → ℝ) (a : Args ν ι) (s t : Arr ι) (w : Arr ν) (ω : ℝ) (j : ν) :
    Continuous fun x => sirtMap M a s t w ω x j :=
  clipMask_continuous a (fun j => (continuous_apply j).add ((wgrad_continuous M s t j).const_mul _)) j

/-- The step sizes fulfil the convergence condition on the volumes that the mask allows. -/
def SirtStepOk (M : ι → ν → ℝ) (a : Args ν ι) (s : Arr ι) (w : Arr ν) : Prop :=
  (∀ i, 0 ≤ s i) ∧ (∀ j, 0 < w j) ∧
    ∀ d : Arr ν, (∀ j, effXMask a j = 0 → d j = 0) → ∑ i, s i * (∑ j, M i j * d j) ^ 2 ≤ ∑ j, w j * d j ^ 2

theorem sirtMap_nonexp {M M' : ι → ν → ℝ} {a : Args ν ι} {s t : Arr ι} {w : Arr ν} {ω : ℝ} (hω : 0 ≤ ω) (hω2 : ω ≤ 2) (hs : SensibleScale M' a)
    (hok : SirtStepOk M a s w) {z0 : Arr ν} (hz0 : Admissible a z0) {x z : Arr ν} (hxz : ∀ j, effXMask a j = 0 → x j = z j) :
    dist2 w (sirtMap M a s t w ω x) (sirtMap M a s t w ω z) ≤ dist2 w x z := by
  have hf := fejer_step (M := M) (s := s) (w := w) (m := effXMask a) (e := fun j => x j - z j) hω hω2 hok.1 hok.2.1
    (effXMask_binary hs) (fun j hj => by rw [hxz j hj, sub_self]) hok.2.2
  refine le_trans (sum_le_sum fun j _ => ?_) hf
  set u : Arr ν := fun j => x j + ω / w j * wgrad M s t x j with hu
  set v : Arr ν := fun j => z j + ω / w j * wgrad M s t z j with hv
  have hp := clipMask_admissible hs hz0 u
  have hq := clipMask_admissible hs hz0 v
  have h1 := clip_vi hs hq u j
  have h2 := clip_vi hs hp v j
  change w j * (clipMask a u j - clipMask a v j) ^ 2 ≤ _
  have hdiff : u j - v j = x j - z j - ω / w j * ∑ i, M i j * (s i * ∑ j, M i j * (x j - z j)) := by
    simp only [hu, hv]
    have : wgrad M s t x j - wgrad M s t z j = -∑ i, M i j * (s i * ∑ j, M i j * (x j - z j)) := by
      unfold wgrad
      rw [← sum_sub_distrib, ← sum_neg_distrib]
      refine sum_congr rfl fun i _ => ?_
      simp only [mul_sub, sum_sub_distrib]
      ring
    have e : ω / w j * wgrad M s t x j - ω / w j * wgrad M s t z j = ω / w j * (wgrad M s t x j - wgrad M s t z j) := by ring
    rw [this] at e
    linarith
  rcases effXMask_binary hs j with h | h
  · rw [zeroOutside_eff (admissible_zero hp) j h, zeroOutside_eff (admissible_zero hq) j h, h]
    simp
  · rw [h, one_mul]
    refine mul_le_mul_of_nonneg_left ?_ (hok.2.1 j).le
    rw [← hdiff]
    have h3 : (clipMask a u j - clipMask a v j) ^ 2 ≤ (u j - v j) * (clipMask a u j - clipMask a v j) := by nlinarith
    nlinarith [sq_nonneg (u j - v j - (clipMask a u j - clipMask a v j))]

private theorem step_dec {M : ι → ν → ℝ} {a : Args ν ι} {s t : Arr ι} {w : Arr ν} {ω : ℝ} (hω : 0 < ω) (hs : SensibleScale M a)
    (hok : SirtStepOk M a s w) {x : Arr ν} (hx : Admissible a x) :
    wls M s t (sirtMap M a s t w ω x) + (1 / ω - 1 / 2) * dist2 w (sirtMap M a s t w ω x) x ≤ wls M s t x := by
  set u : Arr ν := fun j => x j + ω / w j * wgrad M s t x j with hu
  have hX : sirtMap M a s t w ω x = clipMask a u := rfl
  rw [hX]
  set y := clipMask a u
  have hy : Admissible a y := clipMask_admissible hs hx u
  have h1 := wls_expand M s t x y
  have h2 := hok.2.2 (fun j => y j - x j) fun j hj => by
    rw [zeroOutside_eff (admissible_zero hy) j hj, zeroOutside_eff (admissible_zero hx) j hj, sub_zero]
  have h3 : ∑ j, w j * ((u j - y j) * (x j - y j)) ≤ 0 :=
    sum_nonpos fun j _ => mul_nonpos_of_nonneg_of_nonpos (hok.2.1 j).le (clip_vi hs hx u j)
  have h4 : ∑ j, w j * ((u j - y j) * (x j - y j)) = dist2 w y x - ω * ∑ j, (y j - x j) * wgrad M s t x j := by
    unfold dist2
    rw [mul_sum, ← sum_sub_distrib]
    refine sum_congr rfl fun j _ => ?_
    have := (hok.2.1 j).ne'
    simp only [hu]
    field_simp
    ring
  rw [h4] at h3
  have h5 : dist2 w y x / ω ≤ ∑ j, (y j - x j) * wgrad M s t x j := by
    rw [div_le_iff₀ hω]
    linarith
  have h6 : (1 / ω - 1 / 2) * dist2 w y x = dist2 w y x / ω - dist2 w y x / 2 := by ring
  have h7 : dist2 w y x = ∑ j, w j * (y j - x j) ^ 2 := rfl
  rw [h6, h1]
  linarith

private theorem fixed_optimal {M : ι → ν → ℝ} {a : Args ν ι} {s t : Arr ι} {w : Arr ν} {ω : ℝ} (hω : 0 < ω) (hs : SensibleScale M a)
    (hok : SirtStepOk M a s w) {x z : Arr ν} (hx : sirtMap M a s t w ω x = x) (hz : Admissible a z) : wls M s t x ≤ wls M s t z := by
  have h1 := wls_expand M s t x z
  have h3 : 0 ≤ ∑ i, s i * (∑ j, M i j * (z j - x j)) ^ 2 := sum_nonneg fun i _ => mul_nonneg (hok.1 i) (sq_nonneg _)
  have h2 : ∑ j, (z j - x j) * wgrad M s t x j ≤ 0 := by
    refine sum_nonpos fun j _ => ?_
    have h4 := clip_vi hs hz (fun j => x j + ω / w j * wgrad M s t x j) j
    have h5 : clipMask a (fun j => x j + ω / w j * wgrad M s t x j) j = x j := congrFun hx j
    rw [h5] at h4
    have h6 : (x j + ω / w j * wgrad M s t x j - x j) * (z j - x j) = ω / w j * ((z j - x j) * wgrad M s t x j) := by ring
    rw [h6] at h4
    have hp : 0 < ω / w j := div_pos hω (hok.2.1 j)
    by_contra hn
    push Not at hn
    exact absurd h4 (not_le.2 (mul_pos hp hn))
  linarith

omit [Fintype ν] [Fintype ι] in
theorem admissible_iff (a : Args ν ι) (x : Arr ν) : Admissible a x ↔
    ∀ j, x j ∈ {v : ℝ | (∀ l, a.lower = some l → l.get j ≤ v) ∧ (∀ u, a.upper = some u → v ≤ u.get j) ∧ ∀ m, a.xMask = some m → v * m j = v} := by
  unfold Admissible WithinLimits
  constructor
  · rintro ⟨⟨h1, h2⟩, h3⟩ j
    exact ⟨fun l hl => h1 l hl j, fun u hu => h2 u hu j, fun m hm => h3 m hm j⟩
  · intro h
    exact ⟨⟨fun l hl j => (h j).1 l hl, fun u hu j => (h j).2.1 u hu⟩, fun m hm j => (h j).2.2 m hm⟩

omit [Fintype ν] [Fintype ι] in
theorem admissible_closed (a : Args ν ι) (j : ν) :
    IsClosed {v : ℝ | (∀ l, a.lower = some l → l.get j ≤ v) ∧ (∀ u, a.upper = some u → v ≤ u.get j) ∧ ∀ m, a.xMask = some m → v * m j = v} := by
  simp only [Set.setOf_and, Set.setOf_forall]
  refine IsClosed.inter ?_ (IsClosed.inter ?_ ?_)
  · exact isClosed_iInter fun l => isClosed_iInter fun _ => isClosed_le continuous_const continuous_id
  · exact isClosed_iInter fun l => isClosed_iInter fun _ => isClosed_le continuous_id continuous_const
  · exact isClosed_iInter fun m => isClosed_iInter fun _ => isClosed_eq (continuous_id.mul continuous_const) continuous_id

theorem admissible_ordConnected {M : ι → ν → ℝ} {a : Args ν ι} (hs : SensibleScale M a) (j : ν) :
    Set.OrdConnected {v : ℝ | (∀ l, a.lower = some l → l.get j ≤ v) ∧ (∀ u, a.upper = some u → v ≤ u.get j) ∧ ∀ m, a.xMask = some m → v * m j = v} := by
  refine ⟨fun x hx y hy z hz => ⟨fun l hl => (hx.1 l hl).trans hz.1, fun u hu => hz.2.trans (hy.2.1 u hu), fun m hm => ?_⟩⟩
  rcases hs.xMask m hm j with h | h
  · have h1 := hx.2.2 m hm
    have h2 := hy.2.2 m hm
    rw [h, mul_zero] at h1 h2 ⊢
    have := hz.1
    have := hz.2
    linarith
  · rw [h, mul_one]

/-- C251, an auxiliary fact of its own: whatever the limits and the solution mask, if any volume is admissible, there is one of smallest (weighted) misfit. -/
theorem C251_solution_exists {M : ι → ν → ℝ} {a : Args ν ι} (hs : SensibleScale M a) (S : Solver ν ι Q) (b : Arr ι) {s : Arr ι} (hs0 : ∀ i, 0 ≤ s i)
    (ha : ∃ z, Admissible a z) : ∃ z, Admissible a z ∧ ∀ y, Admissible a y → misfit S (matrixOp M) b s z ≤ misfit S (matrixOp M) b s y := by
  obtain ⟨z0, hz0⟩ := ha
  obtain ⟨z, hz, hmin⟩ := box_lsq_exists (admissible_closed a) (admissible_ordConnected hs) M
    (fun i => b i - S.term.addBackground (fun _ => 0) i) hs0 ((admissible_iff a z0).1 hz0)
  refine ⟨z, (admissible_iff a z).2 hz, fun y hy => ?_⟩
  rw [misfit_eq_wls, misfit_eq_wls]
  exact hmin y ((admissible_iff a y).1 hy)

/-- Iterates of the step map converge to an optimal volume. -/
private theorem iterates_converge {M : ι → ν → ℝ} {a : Args ν ι} {s t : Arr ι} {w : Arr ν} {ω : ℝ} (hω : 0 < ω) (hω2 : ω < 2) (hs : SensibleScale M a)
    (hok : SirtStepOk M a s w) (ha : ∃ z, Admissible a z) (x0 : Arr ν) :
    ∃ z, Admissible a z ∧ (∀ y, Admissible a y → wls M s t z ≤ wls M s t y) ∧
      Tendsto (fun n => (sirtMap M a s t w ω)^[n] x0) atTop (𝓝 z) := by
  obtain ⟨z0, hz0⟩ := ha
  obtain ⟨zm, hzm', hmin'⟩ := box_lsq_exists (admissible_closed a) (admissible_ordConnected hs) M t hok.1 ((admissible_iff a z0).1 hz0)
  have hzm : Admissible a zm := (admissible_iff a zm).2 hzm'
  have hmin : ∀ y, Admissible a y → wls M s t zm ≤ wls M s t y := fun y hy => hmin' y ((admissible_iff a y).1 hy)
  set T := sirtMap M a s t w ω with hT
  have hκ : 0 < 1 / ω - 1 / 2 := by
    have : 1 / 2 < 1 / ω := one_div_lt_one_div_of_lt hω hω2
    linarith
  have hd0 : ∀ x z, 0 ≤ dist2 w x z := fun x z => sum_nonneg fun j _ => mul_nonneg (hok.2.1 j).le (sq_nonneg _)
  have hcomp : ∀ x z : Arr ν, ∀ j, w j * (x j - z j) ^ 2 ≤ dist2 w x z := fun x z j =>
    single_le_sum (f := fun j => w j * (x j - z j) ^ 2) (fun j _ => mul_nonneg (hok.2.1 j).le (sq_nonneg _)) (mem_univ j)
  have hTadm : ∀ x, Admissible a (T x) := fun x => clipMask_admissible hs hz0 _
  -- the minimiser is a fixed point
  have hfixm : T zm = zm := by
    have h1 := step_dec (t := t) hω hs hok hzm
    have h2 := hmin _ (hTadm zm)
    have h3 : dist2 w (T zm) zm ≤ 0 := by
      by_contra hn
      push Not at hn
      have := mul_pos hκ hn
      linarith
    funext j
    have h4 := (hcomp (T zm) zm j).trans h3
    have h5 : (T zm j - zm j) ^ 2 = 0 := by
      have := hok.2.1 j
      nlinarith [sq_nonneg (T zm j - zm j)]
    have := pow_eq_zero_iff (two_ne_zero) |>.1 h5
    linarith
  set Y : ℕ → Arr ν := fun n => T^[n + 1] x0 with hY
  have hYs : ∀ n, Y (n + 1) = T (Y n) := fun n => by simp only [hY, Function.iterate_succ_apply']
  have hYa : ∀ n, Admissible a (Y n) := fun n => by simp only [hY, Function.iterate_succ_apply']; exact hTadm _
  have hfej : ∀ z, T z = z → Admissible a z → Antitone fun n => dist2 w (Y n) z := by
    intro z hz hza
    refine antitone_nat_of_succ_le fun n => ?_
    have := sirtMap_nonexp (t := t) (x := Y n) (z := z) hω.le hω2.le hs hok hz0 (fun j hj => by
      rw [zeroOutside_eff (admissible_zero (hYa n)) j hj, zeroOutside_eff (admissible_zero hza) j hj])
    rw [hYs]
    have hz' : sirtMap M a s t w ω z = z := hz
    rw [hz'] at this
    exact this
  -- bounded
  have hbd : ∀ n j, |Y n j - zm j| ≤ Real.sqrt (dist2 w (Y 0) zm / w j) := by
    intro n j
    have h1 := (hcomp (Y n) zm j).trans (hfej zm hfixm hzm (Nat.zero_le n))
    refine Real.abs_le_sqrt ?_
    rw [le_div_iff₀ (hok.2.1 j)]
    dsimp only at h1
    linarith
  have hK : IsCompact (Set.pi Set.univ fun j : ν => Set.Icc (zm j - Real.sqrt (dist2 w (Y 0) zm / w j)) (zm j + Real.sqrt (dist2 w (Y 0) zm / w j))) :=
    isCompact_univ_pi fun _ => isCompact_Icc
  obtain ⟨z, -, φ, hφ, hlim⟩ := hK.tendsto_subseq (x := Y) fun n j _ => by
    have := abs_le.1 (hbd n j)
    exact ⟨by linarith [this.1], by linarith [this.2]⟩
  have hlimj : ∀ j, Tendsto (fun n => Y (φ n) j) atTop (𝓝 (z j)) := fun j => (tendsto_pi_nhds.1 hlim) j
  have hza : Admissible a z := (admissible_iff a z).2 fun j =>
    (admissible_closed a j).mem_of_tendsto (hlimj j) (Eventually.of_forall fun n => (admissible_iff a _).1 (hYa (φ n)) j)
  -- steps
  have hstep : ∀ j, Tendsto (fun n => Y (n + 1) j - Y n j) atTop (𝓝 0) := by
    have hanti : Antitone fun n => wls M s t (Y n) := antitone_nat_of_succ_le fun n => by
      have h1 := step_dec (t := t) hω hs hok (hYa n)
      have h2 := mul_nonneg hκ.le (hd0 (T (Y n)) (Y n))
      rw [hYs]
      linarith
    have hlow : BddBelow (Set.range fun n => wls M s t (Y n)) := ⟨0, by rintro _ ⟨n, rfl⟩; exact wls_nonneg hok.1 _⟩
    have hl := tendsto_atTop_ciInf hanti hlow
    have hdiff : Tendsto (fun n => wls M s t (Y n) - wls M s t (Y (n + 1))) atTop (𝓝 0) := by
      have := hl.sub ((tendsto_add_atTop_iff_nat 1).2 hl)
      simpa using this
    intro j
    have hsq : Tendsto (fun n => (Y (n + 1) j - Y n j) ^ 2) atTop (𝓝 0) := by
      have hw := hok.2.1 j
      have h3 : Tendsto (fun n => (wls M s t (Y n) - wls M s t (Y (n + 1))) * ((1 / ω - 1 / 2) * w j)⁻¹) atTop (𝓝 0) := by
        simpa using hdiff.mul_const (((1 / ω - 1 / 2) * w j)⁻¹)
      refine squeeze_zero (fun n => sq_nonneg _) (fun n => ?_) h3
      rw [← div_eq_mul_inv, le_div_iff₀ (mul_pos hκ hw)]
      have h1 := step_dec (t := t) hω hs hok (hYa n)
      have h2 := mul_le_mul_of_nonneg_left (hcomp (Y (n + 1)) (Y n) j) hκ.le
      rw [hYs] at h2 ⊢
      have e : (T (Y n) j - Y n j) ^ 2 * ((1 / ω - 1 / 2) * w j) = (1 / ω - 1 / 2) * (w j * (T (Y n) j - Y n j) ^ 2) := by ring
      rw [e]
      linarith
    have := hsq.sqrt
    simp only [Real.sqrt_sq_eq_abs, Real.sqrt_zero] at this
    exact (tendsto_zero_iff_abs_tendsto_zero _).2 this
  have hfix : T z = z := by
    funext j
    have h1 : Tendsto (fun n => Y (φ n + 1) j) atTop (𝓝 (T z j)) := by
      simp_rw [hYs]
      exact ((stepMap_continuous M a s t w ω j).tendsto z).comp hlim
    have h2 : Tendsto (fun n => Y (φ n + 1) j) atTop (𝓝 (z j)) := by
      have := ((hstep j).comp hφ.tendsto_atTop).add (hlimj j)
      simpa using this
    exact tendsto_nhds_unique h1 h2
  -- the whole sequence
  have hsub : Tendsto (fun n => dist2 w (Y (φ n)) z) atTop (𝓝 0) := by
    have : Tendsto (fun n => dist2 w (Y (φ n)) z) atTop (𝓝 (∑ j, w j * (z j - z j) ^ 2)) :=
      tendsto_finset_sum _ fun j _ => (((hlimj j).sub_const _).pow 2).const_mul _
    simpa using this
  have hall : Tendsto (fun n => dist2 w (Y n) z) atTop (𝓝 0) :=
    (tendsto_iff_tendsto_subseq_of_antitone (hfej z hfix hza) hφ.tendsto_atTop).2 hsub
  refine ⟨z, hza, fun y hy => fixed_optimal hω hs hok hfix hy, ?_⟩
  rw [← tendsto_add_atTop_iff_nat 1]
  refine tendsto_pi_nhds.2 fun j => ?_
  have hw := hok.2.1 j
  have hsq : Tendsto (fun n => (Y n j - z j) ^ 2) atTop (𝓝 0) := by
    have h3 : Tendsto (fun n => dist2 w (Y n) z * (w j)⁻¹) atTop (𝓝 0) := by simpa using hall.mul_const ((w j)⁻¹)
    refine squeeze_zero (fun n => sq_nonneg _) (fun n => ?_) h3
    rw [← div_eq_mul_inv, le_div_iff₀ hw]
    have := hcomp (Y n) z j
    linarith
  have h4 := hsq.sqrt
  simp only [Real.sqrt_sq_eq_abs, Real.sqrt_zero] at h4
  have h5 : Tendsto (fun n => Y n j - z j) atTop (𝓝 0) := (tendsto_zero_iff_abs_tendsto_zero _).2 h4
  have h6 : Tendsto (fun n => Y n j) atTop (𝓝 (z j)) := by simpa using h5.add_const (z j)
  exact h6

/-- C251: SIRT on a matrix (any signs) with the plain l2 term, without regularizers and tolerance, relaxation between 0 and 2 (both excluded), for any start
volume, background, data masks, test masks, limits and solution mask that some volume respects: the volumes returned for more and more iterations converge,
and the limit is an admissible volume of smallest row-normalised training misfit. -/
theorem C251_sirt_converges {M : ι → ν → ℝ} {S : Solver ν ι Q} {b : Arr ι} {a : Args ν ι} {x : ℕ → Arr ν}
    (hrun : ∀ n, ∃ info S', sirt S (matrixOp M) b { a with iterations := n } = .ok (x n, info, S')) (hr : S.regs = []) (hk : S.term.kind = .l2)
    (hT : S.tolerance = none) (hω : 0 < S.relaxation) (hω2 : S.relaxation < 2) (hs : SensibleScale M a) (ha : ∃ z, Admissible a z) :
    ∃ s z, RowNormalized M a s ∧ Admissible a z ∧ (∀ y, Admissible a y → misfit S (matrixOp M) b s z ≤ misfit S (matrixOp M) b s y) ∧
      Tendsto x atTop (𝓝 z) := by
  obtain ⟨i0, S0, h0⟩ := hrun 0
  obtain ⟨sigma, tau, tt, hsc, -, -⟩ := sirt_ok h0
  obtain ⟨s, w, hs0, hw0, hsz, hwc, hPC, hRN, hstep⟩ := sirt_matrix (b := b) hr hk hs hsc
  obtain ⟨z, hza, hzm, hlim⟩ := iterates_converge (t := fun i => b i - S.term.addBackground (fun _ => 0) i) hω hω2 hs ⟨hs0, hw0, hPC⟩ ha (startVolume a 0)
  refine ⟨s, z, hRN, hza, fun y hy => ?_, ?_⟩
  · rw [misfit_eq_wls, misfit_eq_wls]
    exact hzm y hy
  · refine hlim.congr fun n => ?_
    obtain ⟨i1, S1, h1⟩ := hrun n
    exact (sirt_iterate h1 hr hT hsc hstep).symm

/-- C251: the upper bound is sharp. With relaxation 2 (one pixel, one voxel, datum 1) the volumes alternate between 0 and 2 forever. -/
theorem C251_relaxation_two_alternates (n : ℕ) : ∃ info S',
    sirt (Q := Unit) ⟨2, none, [], .new .l2 none, .new .l2 none, none⟩ (matrixOp fun (_ _ : Fin 1) => 1) (fun _ => 1) { iterations := n } =
      .ok (fun _ => 1 - (-1) ^ n, info, S') := by
  set S : Solver (Fin 1) (Fin 1) Unit := ⟨2, none, [], .new .l2 none, .new .l2 none, none⟩ with hS
  set M1 : Fin 1 → Fin 1 → ℝ := fun _ _ => 1 with hM1
  obtain ⟨⟨sigma, tau⟩, hp⟩ := matrix_scaling_ok (Q := Unit) (M := M1) 1 2 ⟨0, 0, by simp [M1]⟩
  have hsc : diagonalScaling (absOrSelf (matrixOp M1)).1 (absOrSelf (matrixOp M1)).2 S.regs 1 S.relaxation none
      (initBMasks (ι := Fin 1) none none).1 = .ok (sigma, tau) := hp
  have hs : SensibleScale M1 { iterations := n } := ⟨by simp, by simp, by simp, by simp [M1], by simp [M1]⟩
  obtain ⟨s, w, -, -, -, hwc, -, hRN, hstep⟩ := sirt_matrix (S := S) (b := fun _ => 1) (a := { iterations := n }) rfl rfl hs hsc
  obtain ⟨⟨x, info, S'⟩, h⟩ := sirt_runs (S := S) (A := matrixOp M1) (b := fun _ => 1) (a := { iterations := n }) hsc rfl
  refine ⟨info, S', ?_⟩
  rw [h]
  congr 2
  have h1 := sirt_iterate (a := { iterations := n }) h rfl rfl hsc hstep
  have hw : w 0 = 1 := by
    have := hwc 0
    simpa [M1, effMask, initBMasks, applyMask] using this
  have hs1 : s 0 = 1 := by
    obtain ⟨R, -, hR, e⟩ := hRN 0
    have : R = 1 := by simpa [M1, volumeWeight] using hR
    rw [e, this]
    simp [trainWeight]
  have hbg : (S.term.addBackground fun _ => (0 : ℝ)) 0 = 0 := by simp [S, addBackground, DataTerm.new]
  have hn : ∀ f : Arr (Fin 1), applyMask none f = f := fun _ => rfl
  have key : ∀ k : ℕ, (fun x : Arr (Fin 1) => clipMask ({ iterations := n } : Args (Fin 1) (Fin 1)) fun j => x j + S.relaxation / w j *
          wgrad M1 s (fun i => 1 - S.term.addBackground (fun _ => 0) i) x j)^[k] (startVolume ({ iterations := n } : Args (Fin 1) (Fin 1)) 0) =
        fun _ => 1 - (-1) ^ k := by
    intro k
    induction k with
    | zero => funext j; simp [startVolume]
    | succ k ih =>
      rw [Function.iterate_succ_apply', ih]
      funext j
      rw [Subsingleton.elim j 0]
      simp only [clipMask, clip1, Option.map_none, hn, wgrad, univ_unique, Fin.default_eq_zero, sum_singleton, hw, hs1, hbg, M1]
      rw [pow_succ]
      simp only [S]
      ring
  rw [h1]
  exact key n

/-- Non-vacuity: a matrix with both signs, inconsistent data, limits; it runs for every number of iterations. -/
example : let S : Solver (Fin 1) (Fin 2) Unit := ⟨3 / 2, none, [], .new .l2 none, .new .l2 none, none⟩
    S.relaxation < 2 ∧ SensibleScale demoM demoArgs ∧ (∃ z, Admissible demoArgs z) ∧
    ∀ n, ∃ r, sirt S (matrixOp demoM) ![3, 5] { demoArgs with iterations := n } = .ok r := by
  refine ⟨by norm_num, demo_scale, ⟨_, demo_admissible⟩, fun n => ?_⟩
  obtain ⟨p, hp⟩ := matrix_scaling_ok (Q := Unit) (M := demoM) 1 (3 / 2) ⟨0, 0, by simp [demoM]⟩
  exact sirt_runs hp rfl

end Verif
