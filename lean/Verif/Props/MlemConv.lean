import Verif.Props.Mlem
import Mathlib.Topology.MetricSpace.Sequences
import Mathlib.Topology.Order.MonotoneConvergence
import Mathlib.Topology.Algebra.Order.LiminfLimsup
import Mathlib.Analysis.SpecialFunctions.Log.Basic

/-! # C250: MLEM converges to a maximum-likelihood volume -/

namespace Verif
open Classical DataTerm Finset Filter Topology

variable {ν ι Q : Type} [Fintype ν] [Fintype ι]

/-! ## Specification -/

/-- Volumes that compete: non-negative, zero where the (masked) start is zero, with positive expected counts where counts were measured. -/
def Competes (S : Solver ν ι Q) (M : ι → ν → ℝ) (b : Arr ι) (a : Args ν ι) (z : Arr ν) : Prop :=
  (∀ j, 0 ≤ z j) ∧ (∀ j, applyMask a.xMask (startVolume a 1) j = 0 → z j = 0) ∧ ∀ i, b i ≠ 0 → 0 < expected S (matrixOp M) z i

/-- A volume of maximal Poisson likelihood among the competing ones. -/
def IsMaxLikelihood (S : Solver ν ι Q) (M : ι → ν → ℝ) (b : Arr ι) (a : Args ν ι) (z : Arr ν) : Prop :=
  Competes S M b a z ∧ ∀ w, Competes S M b a w → poissonNLL b (expected S (matrixOp M) z) ≤ poissonNLL b (expected S (matrixOp M) w)

/-! ## One step -/

/-- The factor of an EM step. -/
private noncomputable def emFac (M : ι → ν → ℝ) (b c : Arr ι) (x : Arr ν) (j : ν) : ℝ :=
  (∑ i, M i j * (b i / max (counts M c x i) eps)) / ∑ i, M i j

private theorem emMap_fac (M : ι → ν → ℝ) (b c : Arr ι) (x : Arr ν) (j : ν) : emMap M b c x j = x j * emFac M b c x j := rfl

private theorem eps_pos : (0 : ℝ) < eps := by norm_num [eps]

/-- The optimality condition on the support. -/
private def Kkt (M : ι → ν → ℝ) (b c : Arr ι) (z : Arr ν) : Prop :=
  ∀ j, 0 < z j → ∑ i, M i j * (b i / counts M c z i) = ∑ i, M i j

private theorem fac_floor {M : ι → ν → ℝ} {b c : Arr ι} {x : Arr ν} (hf : ∀ i, b i ≠ 0 → eps ≤ counts M c x i) (j : ν) :
    emFac M b c x j = (∑ i, M i j * (b i / counts M c x i)) / ∑ i, M i j := by
  unfold emFac
  congr 1
  refine sum_congr rfl fun i _ => ?_
  by_cases hb : b i = 0
  · simp [hb]
  · rw [max_eq_left (hf i hb)]

private theorem fac_nonneg {M : ι → ν → ℝ} {b c : Arr ι} (hM : ∀ i j, 0 ≤ M i j) (hb : ∀ i, 0 ≤ b i) (x : Arr ν) (j : ν) : 0 ≤ emFac M b c x j :=
  div_nonneg (sum_nonneg fun i _ => mul_nonneg (hM i j) (div_nonneg (hb i) (le_max_of_le_right eps_pos.le))) (sum_nonneg fun i _ => hM i j)

/-- A factor is positive exactly if the voxel is seen by a pixel with counts, whatever the volume. -/
private theorem fac_pos {M : ι → ν → ℝ} {b c : Arr ι} (hM : ∀ i j, 0 ≤ M i j) (hb : ∀ i, 0 ≤ b i) (x : Arr ν) {j : ν} {i : ι} (hi : M i j ≠ 0) (hbi : b i ≠ 0) :
    0 < emFac M b c x j := by
  have h1 : 0 < M i j := lt_of_le_of_ne (hM i j) hi.symm
  have h2 : 0 < b i := lt_of_le_of_ne (hb i) hbi.symm
  have hn : ∀ i, 0 ≤ M i j * (b i / max (counts M c x i) eps) := fun i =>
    mul_nonneg (hM i j) (div_nonneg (hb i) (le_max_of_le_right eps_pos.le))
  refine div_pos ?_ ?_
  · exact lt_of_lt_of_le (mul_pos h1 (div_pos h2 (lt_max_of_lt_right eps_pos)))
      (single_le_sum (f := fun i => M i j * (b i / max (counts M c x i) eps)) (fun i _ => hn i) (mem_univ i))
  · exact lt_of_lt_of_le h1 (single_le_sum (f := fun i => M i j) (fun i _ => hM i j) (mem_univ i))

private theorem exists_of_sum {f g : ι → ℝ} (h : ∑ i, f i * g i ≠ 0) : ∃ i, f i ≠ 0 ∧ g i ≠ 0 := by
  by_contra hn
  push Not at hn
  refine h (sum_eq_zero fun i _ => ?_)
  by_cases hf : f i = 0
  · simp [hf]
  · simp [hn i hf]

/-- The three-point inequality (Csiszár, Tusnády): an EM step brings the volume closer to every stationary volume, at least by the difference of
the likelihoods. -/
private theorem three_points {M : ι → ν → ℝ} {b c : Arr ι} {x z : Arr ν} (hM : ∀ i j, 0 ≤ M i j) (hb : ∀ i, 0 ≤ b i) (hc0 : ∀ i, 0 ≤ c i)
    (hs : ∀ j, 0 < ∑ i, M i j) (hx : ∀ j, 0 ≤ x j) (hf : ∀ i, b i ≠ 0 → eps ≤ counts M c x i)
    (hz : ∀ j, 0 ≤ z j) (hzp : ∀ i, b i ≠ 0 → 0 < counts M c z i) (hk : Kkt M b c z) (hsup : ∀ j, x j = 0 → z j = 0) :
    (∀ j, emMap M b c x j = 0 → z j = 0) ∧
    poissonNLL b (counts M c x) - poissonNLL b (counts M c z) ≤
      ∑ j, (∑ i, M i j) * klDiv (z j) (x j) - ∑ j, (∑ i, M i j) * klDiv (z j) (emMap M b c x j) := by
  have hxp : ∀ i, b i ≠ 0 → 0 < counts M c x i := fun i hi => lt_of_lt_of_le eps_pos (hf i hi)
  have hGpos : ∀ j, 0 < z j → 0 < emFac M b c x j := by
    intro j hj
    have h1 : ∑ i, M i j * (b i / counts M c z i) ≠ 0 := by rw [hk j hj]; exact (hs j).ne'
    obtain ⟨i, hi, hbi⟩ := exists_of_sum h1
    exact fac_pos hM hb x hi fun h => hbi (by rw [h, zero_div])
  have hsup' : ∀ j, emMap M b c x j = 0 → z j = 0 := by
    intro j hj
    rcases (hz j).lt_or_eq with hp | hp
    · rw [emMap_fac] at hj
      rcases mul_eq_zero.1 hj with h | h
      · exact hsup j h
      · exact absurd h (hGpos j hp).ne'
    · exact hp.symm
  refine ⟨hsup', ?_⟩
  -- the logarithm of the factor
  have hlog : ∀ j, z j * ∑ i, M i j * (b i / counts M c z i) * Real.log (counts M c z i / counts M c x i) ≤
      (∑ i, M i j) * (z j * Real.log (emFac M b c x j)) := by
    intro j
    rcases (hz j).lt_or_eq with hp | hp
    · have hG := hGpos j hp
      have hterm : ∀ i, M i j * (b i / counts M c z i) * Real.log (counts M c z i / counts M c x i) ≤
          M i j * (b i / counts M c z i) * (Real.log (emFac M b c x j) - 1) + M i j * (b i / counts M c x i) / emFac M b c x j := by
        intro i
        by_cases hbi : b i = 0
        · simp [hbi]
        · have h1 := hzp i hbi
          have h2 := hxp i hbi
          have hr : 0 < counts M c z i / counts M c x i := div_pos h1 h2
          have ht := Real.log_le_sub_one_of_pos (div_pos hr hG)
          rw [Real.log_div hr.ne' hG.ne'] at ht
          have hw : 0 ≤ M i j * (b i / counts M c z i) := mul_nonneg (hM i j) (div_nonneg (hb i) h1.le)
          have h3 := mul_le_mul_of_nonneg_left (show Real.log (counts M c z i / counts M c x i) ≤
            (Real.log (emFac M b c x j) - 1) + counts M c z i / counts M c x i / emFac M b c x j by linarith) hw
          refine h3.trans (le_of_eq ?_)
          rw [mul_add]
          congr 1
          field_simp
      have hsum := sum_le_sum fun i (_ : i ∈ univ) => hterm i
      rw [sum_add_distrib, ← sum_mul, ← sum_div, hk j hp] at hsum
      have hfj : ∑ i, M i j * (b i / counts M c x i) = (∑ i, M i j) * emFac M b c x j := by
        rw [fac_floor hf, mul_div_cancel₀ _ (hs j).ne']
      rw [hfj, mul_div_assoc, div_self hG.ne', mul_one] at hsum
      have h4 := mul_le_mul_of_nonneg_left hsum hp.le
      refine h4.trans (le_of_eq ?_)
      ring
    · rw [← hp]; simp
  -- the difference of the divergences
  have hdiff : ∀ j, (∑ i, M i j) * klDiv (z j) (x j) - (∑ i, M i j) * klDiv (z j) (emMap M b c x j) =
      (∑ i, M i j) * (z j * Real.log (emFac M b c x j)) + ((∑ i, M i j) * x j - (∑ i, M i j) * emMap M b c x j) := by
    intro j
    unfold klDiv
    rcases (hz j).lt_or_eq with hp | hp
    · have hxj : 0 < x j := lt_of_le_of_ne (hx j) fun h => hp.ne' (hsup j h.symm)
      have hG := hGpos j hp
      rw [emMap_fac, Real.log_div hp.ne' hxj.ne', Real.log_div hp.ne' (mul_pos hxj hG).ne', Real.log_mul hxj.ne' hG.ne']
      ring
    · rw [← hp]; simp
  rw [← sum_sub_distrib]
  simp_rw [hdiff]
  rw [sum_add_distrib, sum_sub_distrib]
  have e1 : ∑ j, (∑ i, M i j) * x j = ∑ i, (counts M c x i - c i) := by
    simp only [counts, add_sub_cancel_right, sum_mul]
    exact sum_comm
  have e2 : ∑ j, (∑ i, M i j) * emMap M b c x j = ∑ i, b i * ((counts M c x i - c i) / counts M c x i) := by
    rw [emMap_sum hs]
    refine sum_congr rfl fun i _ => ?_
    by_cases hbi : b i = 0
    · simp [hbi]
    · have : max (∑ j, M i j * x j + c i) eps = counts M c x i := max_eq_left (hf i hbi)
      rw [this]
      simp [counts]
  have e3 : ∑ j, (∑ i, M i j) * z j = ∑ i, (counts M c z i - c i) := by
    simp only [counts, add_sub_cancel_right, sum_mul]
    exact sum_comm
  have e4 : ∑ j, (∑ i, M i j) * z j = ∑ i, b i / counts M c z i * (counts M c z i - c i) := by
    have : ∀ j, (∑ i, M i j) * z j = ∑ i, b i / counts M c z i * (M i j * z j) := by
      intro j
      rcases (hz j).lt_or_eq with hp | hp
      · rw [← hk j hp, sum_mul]; exact sum_congr rfl fun i _ => by ring
      · rw [← hp]; simp
    simp_rw [this]
    rw [sum_comm]
    refine sum_congr rfl fun i _ => ?_
    rw [← mul_sum]
    simp [counts]
  have e5 : ∑ j, z j * ∑ i, M i j * (b i / counts M c z i) * Real.log (counts M c z i / counts M c x i) =
      ∑ i, b i / counts M c z i * (counts M c z i - c i) * Real.log (counts M c z i / counts M c x i) := by
    simp_rw [mul_sum]
    rw [sum_comm]
    refine sum_congr rfl fun i _ => ?_
    have : counts M c z i - c i = ∑ j, M i j * z j := by simp [counts]
    rw [this, mul_sum, sum_mul]
    exact sum_congr rfl fun j _ => by ring
  have hS := sum_le_sum fun j (_ : j ∈ univ) => hlog j
  rw [e5] at hS
  -- pixel by pixel
  have hpix : ∀ i, (counts M c x i - b i * Real.log (counts M c x i)) - (counts M c z i - b i * Real.log (counts M c z i)) ≤
      b i / counts M c z i * (counts M c z i - c i) * Real.log (counts M c z i / counts M c x i) +
      ((counts M c x i - c i) - b i * ((counts M c x i - c i) / counts M c x i)) -
      ((counts M c z i - c i) - b i / counts M c z i * (counts M c z i - c i)) := by
    intro i
    by_cases hbi : b i = 0
    · simp [hbi]
    · have h1 := hzp i hbi
      have h2 := hxp i hbi
      set y := counts M c x i
      set w := counts M c z i
      have ht := Real.log_le_sub_one_of_pos (div_pos h1 h2)
      have hl : Real.log (w / y) = Real.log w - Real.log y := Real.log_div h1.ne' h2.ne'
      have hp : 0 ≤ b i * c i / w * (w / y - 1 - Real.log (w / y)) :=
        mul_nonneg (div_nonneg (mul_nonneg (hb i) (hc0 i)) h1.le) (by linarith)
      have e6 : b i / w * (w - c i) = b i - b i * c i / w := by field_simp
      have e7 : b i * ((y - c i) / y) = b i - b i * c i / w * (w / y) := by field_simp
      rw [e6, e7]
      have e8 : b i * Real.log w - b i * Real.log y = b i * Real.log (w / y) := by rw [hl]; ring
      nlinarith
  have hP := sum_le_sum fun i (_ : i ∈ univ) => hpix i
  simp only [sum_sub_distrib, sum_add_distrib] at hP e1 e3
  unfold poissonNLL
  simp only [sum_sub_distrib]
  linarith

/-- Stationary volumes whose factors are at most one have the maximal likelihood; if another has the same likelihood, it is stationary, too. -/
private theorem kkt_optimal {M : ι → ν → ℝ} {b c : Arr ι} {x z : Arr ν} (hb : ∀ i, 0 ≤ b i) (hs : ∀ j, 0 < ∑ i, M i j)
    (hx : ∀ j, 0 ≤ x j) (hxp : ∀ i, b i ≠ 0 → 0 < counts M c x i) (hk : Kkt M b c x)
    (hz : ∀ j, 0 ≤ z j) (hzp : ∀ i, b i ≠ 0 → 0 < counts M c z i)
    (hle : ∀ j, z j ≠ 0 → ∑ i, M i j * (b i / counts M c x i) ≤ ∑ i, M i j) :
    poissonNLL b (counts M c x) ≤ poissonNLL b (counts M c z) ∧ (poissonNLL b (counts M c z) ≤ poissonNLL b (counts M c x) → Kkt M b c z) := by
  have hpix : ∀ i, 0 ≤ (counts M c z i - b i * Real.log (counts M c z i)) - (counts M c x i - b i * Real.log (counts M c x i)) -
      (counts M c z i - counts M c x i) * (1 - b i / counts M c x i) := by
    intro i
    by_cases hbi : b i = 0
    · simp [hbi]
    · have h1 := hzp i hbi
      have h2 := hxp i hbi
      set y := counts M c x i
      set w := counts M c z i
      have ht := Real.log_le_sub_one_of_pos (div_pos h1 h2)
      rw [Real.log_div h1.ne' h2.ne'] at ht
      have h3 := mul_le_mul_of_nonneg_left ht (hb i)
      have e : (w - y) * (1 - b i / y) = (w - y) - b i * (w / y - 1) := by field_simp
      rw [e]
      linarith
  have hgrad : ∑ i, (counts M c z i - counts M c x i) * (1 - b i / counts M c x i) =
      ∑ j, z j * (∑ i, M i j - ∑ i, M i j * (b i / counts M c x i)) := by
    have h1 : ∀ i, (counts M c z i - counts M c x i) * (1 - b i / counts M c x i) = ∑ j, (z j - x j) * (M i j - M i j * (b i / counts M c x i)) := by
      intro i
      have : counts M c z i - counts M c x i = ∑ j, M i j * (z j - x j) := by
        simp only [counts, add_sub_add_right_eq_sub, ← sum_sub_distrib]
        exact sum_congr rfl fun j _ => by ring
      rw [this, sum_mul]
      exact sum_congr rfl fun j _ => by ring
    simp_rw [h1]
    rw [sum_comm]
    refine sum_congr rfl fun j _ => ?_
    rw [← mul_sum, sum_sub_distrib]
    rcases (hx j).lt_or_eq with hp | hp
    · rw [hk j hp]; simp
    · rw [← hp, sub_zero]
  have hg0 : ∀ j, 0 ≤ z j * (∑ i, M i j - ∑ i, M i j * (b i / counts M c x i)) := by
    intro j
    by_cases h : z j = 0
    · simp [h]
    · exact mul_nonneg (hz j) (by linarith [hle j h])
  have hsplit : poissonNLL b (counts M c z) - poissonNLL b (counts M c x) =
      ∑ i, ((counts M c z i - b i * Real.log (counts M c z i)) - (counts M c x i - b i * Real.log (counts M c x i)) -
      (counts M c z i - counts M c x i) * (1 - b i / counts M c x i)) + ∑ j, z j * (∑ i, M i j - ∑ i, M i j * (b i / counts M c x i)) := by
    rw [← hgrad]
    unfold poissonNLL
    simp only [sum_sub_distrib]
    ring
  have p1 := sum_nonneg fun i (_ : i ∈ univ) => hpix i
  have p2 := sum_nonneg fun j (_ : j ∈ univ) => hg0 j
  refine ⟨by linarith, fun hle2 => ?_⟩
  have z1 := (sum_eq_zero_iff_of_nonneg fun i _ => hpix i).1 (le_antisymm (by linarith) p1)
  have z2 := (sum_eq_zero_iff_of_nonneg fun j _ => hg0 j).1 (le_antisymm (by linarith) p2)
  have heq : ∀ i, b i ≠ 0 → counts M c z i = counts M c x i := by
    intro i hbi
    have h1 := hzp i hbi
    have h2 := hxp i hbi
    have h3 := z1 i (mem_univ i)
    set y := counts M c x i
    set w := counts M c z i
    by_contra hne
    have hne' : w / y ≠ 1 := fun h => hne ((div_eq_one_iff_eq h2.ne').1 h)
    have ht := Real.log_lt_sub_one_of_pos (div_pos h1 h2) hne'
    rw [Real.log_div h1.ne' h2.ne'] at ht
    have h4 := mul_lt_mul_of_pos_left ht (lt_of_le_of_ne (hb i) (Ne.symm hbi))
    have e : (w - y) * (1 - b i / y) = (w - y) - b i * (w / y - 1) := by field_simp
    rw [e] at h3
    linarith
  intro j hj
  have h1 := z2 j (mem_univ j)
  rcases mul_eq_zero.1 h1 with h | h
  · exact absurd h hj.ne'
  · have : ∑ i, M i j * (b i / counts M c z i) = ∑ i, M i j * (b i / counts M c x i) := by
      refine sum_congr rfl fun i _ => ?_
      by_cases hbi : b i = 0
      · simp [hbi]
      · rw [heq i hbi]
    rw [this]
    linarith

/-! ## The sequence -/

private theorem counts_continuous (M : ι → ν → ℝ) (c : Arr ι) (i : ι) : Continuous fun x : Arr ν => counts M c x i := by
  unfold counts
  fun_prop

private theorem fac_continuous (M : ι → ν → ℝ) (b c : Arr ι) (j : ν) : Continuous fun x : Arr ν => emFac M b c x j := by
  unfold emFac
  refine Continuous.div_const ?_ _
  refine continuous_finset_sum _ fun i _ => continuous_const.mul ?_
  refine Continuous.div continuous_const ((counts_continuous M c i).max continuous_const) fun x => ?_
  exact (lt_max_of_lt_right eps_pos).ne'

private theorem nll_tendsto {b c : Arr ι} {M : ι → ν → ℝ} {u : ℕ → Arr ν} {z : Arr ν} (h : Tendsto u atTop (𝓝 z))
    (hz : ∀ i, b i ≠ 0 → 0 < counts M c z i) : Tendsto (fun n => poissonNLL b (counts M c (u n))) atTop (𝓝 (poissonNLL b (counts M c z))) := by
  unfold poissonNLL
  refine tendsto_finset_sum _ fun i _ => ?_
  have hy : Tendsto (fun n => counts M c (u n) i) atTop (𝓝 (counts M c z i)) := ((counts_continuous M c i).tendsto z).comp h
  by_cases hb : b i = 0
  · simpa [hb] using hy
  · exact hy.sub ((hy.log (hz i hb).ne').const_mul (b i))

private theorem nll_bounded {b y : Arr ι} (hb : ∀ i, 0 ≤ b i) (hy0 : ∀ i, 0 ≤ y i) (hy : ∀ i, b i ≠ 0 → 0 < y i) :
    ∑ i, (b i - b i * Real.log (b i)) ≤ poissonNLL b y := by
  unfold poissonNLL
  refine sum_le_sum fun i _ => ?_
  by_cases h : b i = 0
  · simpa [h] using hy0 i
  · have hb' : 0 < b i := lt_of_le_of_ne (hb i) (Ne.symm h)
    have ht := Real.log_le_sub_one_of_pos (div_pos (hy i h) hb')
    rw [Real.log_div (hy i h).ne' h] at ht
    have h2 := mul_le_mul_of_nonneg_left ht hb'.le
    rw [mul_sub, mul_sub, mul_div_cancel₀ _ h] at h2
    linarith

private theorem kl_tendsto {u : ℕ → ℝ} {p : ℝ} (hp : 0 ≤ p) (h : Tendsto u atTop (𝓝 p)) : Tendsto (fun n => klDiv p (u n)) atTop (𝓝 0) := by
  unfold klDiv
  rcases hp.lt_or_eq with h0 | h0
  · have h1 : Tendsto (fun n => p / u n) atTop (𝓝 (p / p)) := tendsto_const_nhds.div h h0.ne'
    rw [div_self h0.ne'] at h1
    have h2 := ((h1.log one_ne_zero).const_mul p).sub_const p |>.add h
    simpa using h2
  · subst h0
    simpa using h

private theorem sqrt_of_kl {u : ℕ → ℝ} {p : ℝ} (hp : 0 ≤ p) (hu : ∀ n, 0 ≤ u n) (hsup : ∀ n, u n = 0 → p = 0)
    (h : Tendsto (fun n => klDiv p (u n)) atTop (𝓝 0)) : Tendsto u atTop (𝓝 p) := by
  have h1 : Tendsto (fun n => (Real.sqrt p - Real.sqrt (u n)) ^ 2) atTop (𝓝 0) :=
    squeeze_zero (fun n => sq_nonneg _) (fun n => klDiv_sqrt hp (hu n) (hsup n)) h
  have h2 : Tendsto (fun n => Real.sqrt p - Real.sqrt (u n)) atTop (𝓝 0) := by
    have := h1.sqrt
    simp only [Real.sqrt_sq_eq_abs, Real.sqrt_zero] at this
    exact (tendsto_zero_iff_abs_tendsto_zero _).2 this
  have h3 : Tendsto (fun n => Real.sqrt (u n)) atTop (𝓝 (Real.sqrt p)) := by
    have := h2.const_sub (Real.sqrt p)
    simpa using this
  have h4 := h3.pow 2
  simpa [Real.sq_sqrt hp, Real.sq_sqrt (hu _)] using h4

/-- Steps whose divergence tends to zero and that stay bounded tend to zero. -/
private theorem step_to_zero {u v : ℕ → ℝ} {B : ℝ} (hu : ∀ n, 0 ≤ u n) (hv : ∀ n, 0 ≤ v n) (hub : ∀ n, u n ≤ B) (hvb : ∀ n, v n ≤ B)
    (hsup : ∀ n, v n = 0 → u n = 0) (h : Tendsto (fun n => klDiv (u n) (v n)) atTop (𝓝 0)) : Tendsto (fun n => u n - v n) atTop (𝓝 0) := by
  have h1 : Tendsto (fun n => (Real.sqrt (u n) - Real.sqrt (v n)) ^ 2) atTop (𝓝 0) :=
    squeeze_zero (fun n => sq_nonneg _) (fun n => klDiv_sqrt (hu n) (hv n) (hsup n)) h
  have h2 : Tendsto (fun n => |Real.sqrt (u n) - Real.sqrt (v n)|) atTop (𝓝 0) := by
    have := h1.sqrt
    simpa only [Real.sqrt_sq_eq_abs, Real.sqrt_zero] using this
  have h3 : Tendsto (fun n => |Real.sqrt (u n) - Real.sqrt (v n)| * (2 * Real.sqrt B)) atTop (𝓝 0) := by
    simpa using h2.mul_const (2 * Real.sqrt B)
  refine squeeze_zero_norm (fun n => ?_) h3
  have e : u n - v n = (Real.sqrt (u n) - Real.sqrt (v n)) * (Real.sqrt (u n) + Real.sqrt (v n)) := by
    nlinarith [Real.mul_self_sqrt (hu n), Real.mul_self_sqrt (hv n)]
  rw [e, Real.norm_eq_abs, abs_mul]
  refine mul_le_mul_of_nonneg_left ?_ (abs_nonneg _)
  rw [abs_of_nonneg (add_nonneg (Real.sqrt_nonneg _) (Real.sqrt_nonneg _))]
  have := Real.sqrt_le_sqrt (hub n)
  have := Real.sqrt_le_sqrt (hvb n)
  linarith

/-- What the iterates fulfil. -/
private structure EmSeq (M : ι → ν → ℝ) (b c : Arr ι) (X : ℕ → Arr ν) : Prop where
  matrix : ∀ i j, 0 ≤ M i j
  data : ∀ i, 0 ≤ b i
  bg : ∀ i, 0 ≤ c i
  cols : ∀ j, 0 < ∑ i, M i j
  nonneg : ∀ n j, 0 ≤ X n j
  succ : ∀ n, X (n + 1) = emMap M b c (X n)
  floor : ∀ n i, b i ≠ 0 → eps ≤ counts M c (X n) i

private theorem EmSeq.zero_stays {M : ι → ν → ℝ} {b c : Arr ι} {X : ℕ → Arr ν} (h : EmSeq M b c X) {n m : ℕ} (hnm : n ≤ m) {j : ν}
    (h0 : X n j = 0) : X m j = 0 := by
  induction m, hnm using Nat.le_induction with
  | base => exact h0
  | succ m _ ih => rw [h.succ, emMap_fac, ih, zero_mul]

private theorem EmSeq.step_dec {M : ι → ν → ℝ} {b c : Arr ι} {X : ℕ → Arr ν} (h : EmSeq M b c X) (n : ℕ) :
    poissonNLL b (counts M c (X (n + 1))) + ∑ j, (∑ i, M i j) * klDiv (X (n + 1) j) (X n j) ≤ poissonNLL b (counts M c (X n)) := by
  rw [h.succ]
  exact (emMap_decrease h.matrix h.data h.bg h.cols (h.nonneg n) (h.floor n)).2

private theorem EmSeq.kl_nonneg {M : ι → ν → ℝ} {b c : Arr ι} {X : ℕ → Arr ν} (h : EmSeq M b c X) (n : ℕ) (j : ν) :
    0 ≤ (∑ i, M i j) * klDiv (X (n + 1) j) (X n j) :=
  mul_nonneg (h.cols j).le (klDiv_nonneg (h.nonneg _ j) (h.nonneg _ j) fun h0 => h.zero_stays (Nat.le_succ n) h0)

private theorem EmSeq.anti {M : ι → ν → ℝ} {b c : Arr ι} {X : ℕ → Arr ν} (h : EmSeq M b c X) :
    Antitone fun n => poissonNLL b (counts M c (X n)) := by
  refine antitone_nat_of_succ_le fun n => ?_
  have h1 := h.step_dec n
  have h2 := sum_nonneg fun j (_ : j ∈ univ) => h.kl_nonneg n j
  linarith

private theorem EmSeq.bounded {M : ι → ν → ℝ} {b c : Arr ι} {X : ℕ → Arr ν} (h : EmSeq M b c X) : ∃ B, ∀ n j, X n j ≤ B := by
  have h1 : ∀ n, ∑ j, (∑ i, M i j) * X (n + 1) j ≤ ∑ i, b i := by
    intro n
    rw [h.succ, emMap_sum h.cols]
    refine sum_le_sum fun i _ => ?_
    have hp : 0 ≤ ∑ j, M i j * X n j := sum_nonneg fun j _ => mul_nonneg (h.matrix i j) (h.nonneg n j)
    have h0 : (0 : ℝ) < max (∑ j, M i j * X n j + c i) eps := lt_max_of_lt_right eps_pos
    calc _ ≤ b i * 1 := mul_le_mul_of_nonneg_left ((div_le_one h0).2 (le_max_of_le_left (by linarith [h.bg i]))) (h.data i)
      _ = b i := mul_one _
  have hB0 : 0 ≤ ∑ i, b i := sum_nonneg fun i _ => h.data i
  refine ⟨∑ j, (X 0 j + (∑ i, b i) / ∑ i, M i j), fun n j => ?_⟩
  have hn : ∀ j, 0 ≤ X 0 j + (∑ i, b i) / ∑ i, M i j := fun j => add_nonneg (h.nonneg 0 j) (div_nonneg hB0 (h.cols j).le)
  refine le_trans ?_ (single_le_sum (f := fun j => X 0 j + (∑ i, b i) / ∑ i, M i j) (fun j _ => hn j) (mem_univ j))
  cases n with
  | zero => have := div_nonneg hB0 (h.cols j).le; linarith
  | succ n =>
    have h2 := single_le_sum (f := fun j => (∑ i, M i j) * X (n + 1) j) (fun j _ => mul_nonneg (h.cols j).le (h.nonneg _ j)) (mem_univ j)
    have h3 : X (n + 1) j ≤ (∑ i, b i) / ∑ i, M i j := by
      rw [le_div_iff₀ (h.cols j), mul_comm]
      exact h2.trans (h1 n)
    have := h.nonneg 0 j
    linarith

private theorem EmSeq.steps {M : ι → ν → ℝ} {b c : Arr ι} {X : ℕ → Arr ν} (h : EmSeq M b c X) (j : ν) :
    Tendsto (fun n => X (n + 1) j - X n j) atTop (𝓝 0) := by
  obtain ⟨B, hB⟩ := h.bounded
  have hlow : BddBelow (Set.range fun n => poissonNLL b (counts M c (X n))) := by
    refine ⟨∑ i, (b i - b i * Real.log (b i)), ?_⟩
    rintro _ ⟨n, rfl⟩
    refine nll_bounded h.data (fun i => ?_) fun i hi => lt_of_lt_of_le eps_pos (h.floor n i hi)
    exact add_nonneg (sum_nonneg fun j _ => mul_nonneg (h.matrix i j) (h.nonneg n j)) (h.bg i)
  have hlim := tendsto_atTop_ciInf h.anti hlow
  have hdiff : Tendsto (fun n => poissonNLL b (counts M c (X n)) - poissonNLL b (counts M c (X (n + 1)))) atTop (𝓝 0) := by
    have := hlim.sub ((tendsto_add_atTop_iff_nat 1).2 hlim)
    simpa using this
  have hkl : Tendsto (fun n => (∑ i, M i j) * klDiv (X (n + 1) j) (X n j)) atTop (𝓝 0) := by
    refine squeeze_zero (fun n => h.kl_nonneg n j) (fun n => ?_) hdiff
    have h1 := h.step_dec n
    have h2 := single_le_sum (f := fun j => (∑ i, M i j) * klDiv (X (n + 1) j) (X n j)) (fun j _ => h.kl_nonneg n j) (mem_univ j)
    linarith
  have hkl' : Tendsto (fun n => klDiv (X (n + 1) j) (X n j)) atTop (𝓝 0) := by
    have := hkl.const_mul (∑ i, M i j)⁻¹
    simp only [mul_zero] at this
    refine this.congr fun n => ?_
    rw [← mul_assoc, inv_mul_cancel₀ (h.cols j).ne', one_mul]
  exact step_to_zero (fun n => h.nonneg _ j) (fun n => h.nonneg _ j) (fun n => hB _ j) (fun n => hB _ j)
    (fun n h0 => h.zero_stays (Nat.le_succ n) h0) hkl'

/-- The divergence from a stationary volume that no iterate beats decreases, and its decrease bounds the difference of the likelihoods. -/
private theorem EmSeq.fejer {M : ι → ν → ℝ} {b c : Arr ι} {X : ℕ → Arr ν} (h : EmSeq M b c X) {z : Arr ν} (hz : ∀ j, 0 ≤ z j)
    (hzp : ∀ i, b i ≠ 0 → 0 < counts M c z i) (hk : Kkt M b c z) (hsup : ∀ j, X 0 j = 0 → z j = 0) (n : ℕ) :
    (∀ j, X n j = 0 → z j = 0) ∧
    poissonNLL b (counts M c (X n)) - poissonNLL b (counts M c z) ≤
      ∑ j, (∑ i, M i j) * klDiv (z j) (X n j) - ∑ j, (∑ i, M i j) * klDiv (z j) (X (n + 1) j) := by
  have hs : ∀ n, ∀ j, X n j = 0 → z j = 0 := by
    intro n
    induction n with
    | zero => exact hsup
    | succ n ih =>
      rw [h.succ]
      exact (three_points h.matrix h.data h.bg h.cols (h.nonneg n) (h.floor n) hz hzp hk ih).1
  refine ⟨hs n, ?_⟩
  rw [h.succ]
  exact (three_points h.matrix h.data h.bg h.cols (h.nonneg n) (h.floor n) hz hzp hk (hs n)).2

private theorem EmSeq.limit {M : ι → ν → ℝ} {b c : Arr ι} {X : ℕ → Arr ν} (h : EmSeq M b c X) :
    ∃ z : Arr ν, Tendsto X atTop (𝓝 z) ∧ (∀ j, 0 ≤ z j) ∧ (∀ j, X 0 j = 0 → z j = 0) ∧ (∀ i, b i ≠ 0 → 0 < counts M c z i) ∧ Kkt M b c z ∧
      ∀ j, X 0 j ≠ 0 → ∑ i, M i j * (b i / counts M c z i) ≤ ∑ i, M i j := by
  obtain ⟨B, hB⟩ := h.bounded
  have hcomp : IsCompact (Set.pi Set.univ fun _ : ν => Set.Icc (0 : ℝ) B) := isCompact_univ_pi fun _ => isCompact_Icc
  obtain ⟨z, -, φ, hφ, hlim⟩ := hcomp.tendsto_subseq (x := X) fun n j _ => ⟨h.nonneg n j, hB n j⟩
  have hlimj : ∀ j, Tendsto (fun n => X (φ n) j) atTop (𝓝 (z j)) := fun j => (tendsto_pi_nhds.1 hlim) j
  have hz : ∀ j, 0 ≤ z j := fun j => ge_of_tendsto' (hlimj j) fun n => h.nonneg _ j
  have hfz : ∀ i, b i ≠ 0 → eps ≤ counts M c z i := fun i hi =>
    ge_of_tendsto' (((counts_continuous M c i).tendsto z).comp hlim) fun n => h.floor _ i hi
  have hzp : ∀ i, b i ≠ 0 → 0 < counts M c z i := fun i hi => lt_of_lt_of_le eps_pos (hfz i hi)
  -- fixed point
  have hfix : ∀ j, z j * emFac M b c z j = z j := by
    intro j
    have h1 : Tendsto (fun n => X (φ n + 1) j) atTop (𝓝 (z j * emFac M b c z j)) := by
      have : ∀ n, X (φ n + 1) j = X (φ n) j * emFac M b c (X (φ n)) j := fun n => by rw [h.succ, emMap_fac]
      simp_rw [this]
      exact (hlimj j).mul (((fac_continuous M b c j).tendsto z).comp hlim)
    have h2 : Tendsto (fun n => X (φ n + 1) j) atTop (𝓝 (z j)) := by
      have := ((h.steps j).comp hφ.tendsto_atTop).add (hlimj j)
      simpa using this
    exact tendsto_nhds_unique h1 h2
  have hk : Kkt M b c z := by
    intro j hj
    have h1 : emFac M b c z j = 1 := by
      have := hfix j
      have h2 : z j * emFac M b c z j = z j * 1 := by rw [this, mul_one]
      exact mul_left_cancel₀ hj.ne' h2
    rw [fac_floor hfz, div_eq_one_iff_eq (h.cols j).ne'] at h1
    exact h1
  have hsup : ∀ j, X 0 j = 0 → z j = 0 := fun j h0 =>
    tendsto_nhds_unique (hlimj j) (by simp [h.zero_stays (Nat.zero_le _) h0])
  -- the likelihood of the limit
  have hnll : ∀ n, poissonNLL b (counts M c z) ≤ poissonNLL b (counts M c (X n)) := by
    intro n
    refine le_of_tendsto (nll_tendsto hlim hzp) ?_
    filter_upwards [eventually_ge_atTop n] with m hm
    exact h.anti (hm.trans (hφ.id_le m))
  have hanti : Antitone fun n => ∑ j, (∑ i, M i j) * klDiv (z j) (X n j) := by
    refine antitone_nat_of_succ_le fun n => ?_
    have := (h.fejer hz hzp hk hsup n).2
    linarith [hnll n]
  have hsub : Tendsto (fun n => ∑ j, (∑ i, M i j) * klDiv (z j) (X (φ n) j)) atTop (𝓝 0) := by
    have : Tendsto (fun n => ∑ j, (∑ i, M i j) * klDiv (z j) (X (φ n) j)) atTop (𝓝 (∑ j : ν, (∑ i, M i j) * 0)) :=
      tendsto_finset_sum _ fun j _ => (kl_tendsto (hz j) (hlimj j)).const_mul _
    simpa using this
  have hall : Tendsto (fun n => ∑ j, (∑ i, M i j) * klDiv (z j) (X n j)) atTop (𝓝 0) :=
    (tendsto_iff_tendsto_subseq_of_antitone hanti hφ.tendsto_atTop).2 hsub
  have hconv : ∀ j, Tendsto (fun n => X n j) atTop (𝓝 (z j)) := by
    intro j
    have hs : ∀ n, X n j = 0 → z j = 0 := fun n => (h.fejer hz hzp hk hsup n).1 j
    refine sqrt_of_kl (hz j) (fun n => h.nonneg n j) hs ?_
    have hn : ∀ n j, 0 ≤ (∑ i, M i j) * klDiv (z j) (X n j) := fun n j =>
      mul_nonneg (h.cols j).le (klDiv_nonneg (hz j) (h.nonneg n j) ((h.fejer hz hzp hk hsup n).1 j))
    have h1 : Tendsto (fun n => (∑ i, M i j) * klDiv (z j) (X n j)) atTop (𝓝 0) :=
      squeeze_zero (fun n => hn n j) (fun n => single_le_sum (f := fun j => (∑ i, M i j) * klDiv (z j) (X n j)) (fun j _ => hn n j) (mem_univ j)) hall
    have := h1.const_mul (∑ i, M i j)⁻¹
    simp only [mul_zero] at this
    refine this.congr fun n => ?_
    rw [← mul_assoc, inv_mul_cancel₀ (h.cols j).ne', one_mul]
  refine ⟨z, tendsto_pi_nhds.2 hconv, hz, hsup, hzp, hk, fun j hj => ?_⟩
  by_contra hgt
  push Not at hgt
  have hg1 : 1 < emFac M b c z j := by rw [fac_floor hfz, lt_div_iff₀ (h.cols j), one_mul]; exact hgt
  have hz0 : z j = 0 := by
    by_contra hne
    exact hgt.ne' (hk j (lt_of_le_of_ne (hz j) (Ne.symm hne)))
  have hpos : ∀ n, 0 < X n j := by
    have h1 : ∑ i, M i j * (b i / counts M c z i) ≠ 0 := ((h.cols j).trans hgt).ne'
    obtain ⟨i, hi, hbi⟩ := exists_of_sum h1
    intro n
    induction n with
    | zero => exact lt_of_le_of_ne (h.nonneg 0 j) (Ne.symm hj)
    | succ n ih =>
      rw [h.succ, emMap_fac]
      exact mul_pos ih (fac_pos h.matrix h.data _ hi fun h => hbi (by rw [h, zero_div]))
  have hev : ∀ᶠ n in atTop, 1 < emFac M b c (X n) j :=
    ((((fac_continuous M b c j).tendsto z).comp (tendsto_pi_nhds.2 hconv)).eventually (lt_mem_nhds hg1))
  obtain ⟨N, hN⟩ := eventually_atTop.1 hev
  have hinc : ∀ m, N ≤ m → X N j ≤ X m j := by
    intro m hm
    induction m, hm using Nat.le_induction with
    | base => exact le_refl _
    | succ m hm ih =>
      refine ih.trans ?_
      rw [h.succ, emMap_fac]
      have := hN m hm
      have := hpos m
      nlinarith
  have h0 : X N j ≤ z j := ge_of_tendsto (hconv j) (by filter_upwards [eventually_ge_atTop N] with m hm using hinc m hm)
  have := hpos N
  linarith

/-! ## C250 -/

private theorem emSeq_of_mlem {M : ι → ν → ℝ} {S : Solver ν ι Q} {b : Arr ι} {a : Args ν ι} {x : ℕ → Arr ν}
    (hrun : ∀ n, ∃ info S', mlem S (matrixOp M) b { a with iterations := n } = .ok (x n, info, S')) (hs : MlemSetting M S b a)
    (hbg : ∀ i, 0 ≤ expected S (matrixOp M) (fun _ => 0) i) (hfloor : ∀ n i, b i ≠ 0 → eps ≤ expected S (matrixOp M) (x n) i) :
    EmSeq M b (bgOf S) x ∧ x 0 = applyMask a.xMask (startVolume a 1) := by
  have hE : ∀ x i, expected S (matrixOp M) x i = counts M (bgOf S) x i := fun x i => expected_eq S M x i
  obtain ⟨i0, S0, h0⟩ := hrun 0
  refine ⟨⟨hs.matrix, hs.data, fun i => by have := hbg i; rw [expected_eq] at this; simpa using this, (mlem_iterate h0 hs).2.1, fun n => ?_,
    fun n => ?_, fun n i hi => by rw [← hE]; exact hfloor n i hi⟩, (mlem_iterate h0 hs).1⟩
  · obtain ⟨i1, S1, h1⟩ := hrun n
    exact (mlem_iterate h1 hs).2.2.1
  · obtain ⟨i1, S1, h1⟩ := hrun n
    obtain ⟨i2, S2, h2⟩ := hrun (n + 1)
    exact mlem_succ h1 h2 hs

private theorem competes_iff {M : ι → ν → ℝ} {S : Solver ν ι Q} {b : Arr ι} {a : Args ν ι} (z : Arr ν) :
    Competes S M b a z ↔ (∀ j, 0 ≤ z j) ∧ (∀ j, applyMask a.xMask (startVolume a 1) j = 0 → z j = 0) ∧ ∀ i, b i ≠ 0 → 0 < counts M (bgOf S) z i := by
  have hE : ∀ i, expected S (matrixOp M) z i = counts M (bgOf S) z i := fun i => expected_eq S M z i
  unfold Competes
  simp only [hE]

/-- C250: the volumes returned by MLEM for more and more iterations converge, and the limit is a volume of maximal likelihood (among the non-negative ones
that vanish where the start does), provided the expected counts stay above the division floor where counts were measured. -/
theorem C250_mlem_converges_partial {M : ι → ν → ℝ} {S : Solver ν ι Q} {b : Arr ι} {a : Args ν ι} {x : ℕ → Arr ν}
    (hrun : ∀ n, ∃ info S', mlem S (matrixOp M) b { a with iterations := n } = .ok (x n, info, S')) (hs : MlemSetting M S b a)
    (hbg : ∀ i, 0 ≤ expected S (matrixOp M) (fun _ => 0) i) (hfloor : ∀ n i, b i ≠ 0 → eps ≤ expected S (matrixOp M) (x n) i) :
    ∃ z, IsMaxLikelihood S M b a z ∧ Tendsto x atTop (𝓝 z) := by
  obtain ⟨hseq, hx0⟩ := emSeq_of_mlem hrun hs hbg hfloor
  obtain ⟨z, hlim, hz, hsup, hzp, hk, hle⟩ := hseq.limit
  have hE : ∀ x, expected S (matrixOp M) x = counts M (bgOf S) x := fun x => funext fun i => expected_eq S M x i
  refine ⟨z, ⟨(competes_iff z).2 ⟨hz, by rw [← hx0]; exact hsup, hzp⟩, fun w hw => ?_⟩, hlim⟩
  obtain ⟨hw0, hws, hwp⟩ := (competes_iff w).1 hw
  rw [hE, hE]
  exact (kkt_optimal hs.data hseq.cols hz hzp hk hw0 hwp fun j hj => hle j fun h0 => hj (hws j (by rw [← hx0]; exact h0))).1

/-- C250: the rate, for every volume of maximal likelihood: after `n` iterations the likelihood misses the maximum at most by the divergence of that
volume from the start, divided by `n`; and each iteration brings the volume closer to it (in that divergence). -/
theorem C250_mlem_rate_partial {M : ι → ν → ℝ} {S : Solver ν ι Q} {b : Arr ι} {a : Args ν ι} {x : ℕ → Arr ν} {z : Arr ν}
    (hrun : ∀ n, ∃ info S', mlem S (matrixOp M) b { a with iterations := n } = .ok (x n, info, S')) (hs : MlemSetting M S b a)
    (hbg : ∀ i, 0 ≤ expected S (matrixOp M) (fun _ => 0) i) (hfloor : ∀ n i, b i ≠ 0 → eps ≤ expected S (matrixOp M) (x n) i)
    (hz : IsMaxLikelihood S M b a z) (n : ℕ) :
    n * (poissonNLL b (expected S (matrixOp M) (x n)) - poissonNLL b (expected S (matrixOp M) z)) ≤
      ∑ j, (∑ i, M i j) * klDiv (z j) (x 0 j) ∧
    ∑ j, (∑ i, M i j) * klDiv (z j) (x (n + 1) j) ≤ ∑ j, (∑ i, M i j) * klDiv (z j) (x n j) := by
  obtain ⟨hseq, hx0⟩ := emSeq_of_mlem hrun hs hbg hfloor
  obtain ⟨y, hlim, hy, hysup, hyp, hyk, hyle⟩ := hseq.limit
  have hE : ∀ x, expected S (matrixOp M) x = counts M (bgOf S) x := fun x => funext fun i => expected_eq S M x i
  obtain ⟨hz0, hzs, hzp⟩ := (competes_iff z).1 hz.1
  have hk : Kkt M b (bgOf S) z := by
    refine (kkt_optimal hs.data hseq.cols hy hyp hyk hz0 hzp fun j hj => hyle j fun h0 => hj (hzs j (by rw [← hx0]; exact h0))).2 ?_
    have := hz.2 y ((competes_iff y).2 ⟨hy, by rw [← hx0]; exact hysup, hyp⟩)
    rwa [hE, hE] at this
  have hsup : ∀ j, x 0 j = 0 → z j = 0 := by rw [hx0]; exact hzs
  have hbest : ∀ n, poissonNLL b (counts M (bgOf S) z) ≤ poissonNLL b (counts M (bgOf S) (x n)) := by
    intro n
    have h1 := hz.2 (x n) ((competes_iff (x n)).2 ⟨hseq.nonneg n, fun j h0 => hseq.zero_stays (Nat.zero_le n) (by rw [hx0]; exact h0),
      fun i hi => lt_of_lt_of_le eps_pos (hseq.floor n i hi)⟩)
    rwa [hE, hE] at h1
  have hstep := fun n => hseq.fejer hz0 hzp hk hsup n
  rw [hE, hE]
  refine ⟨?_, by linarith [(hstep n).2, hbest n]⟩
  have hsum : ∀ n : ℕ, n * (poissonNLL b (counts M (bgOf S) (x n)) - poissonNLL b (counts M (bgOf S) z)) ≤
      ∑ j, (∑ i, M i j) * klDiv (z j) (x 0 j) - ∑ j, (∑ i, M i j) * klDiv (z j) (x n j) := by
    intro n
    induction n with
    | zero => simp
    | succ n ih =>
      have h1 := (hstep n).2
      have h2 := hseq.anti (Nat.le_succ n)
      dsimp only at h2
      push_cast
      have h3 : (n : ℝ) * poissonNLL b (counts M (bgOf S) (x (n + 1))) ≤ n * poissonNLL b (counts M (bgOf S) (x n)) :=
        mul_le_mul_of_nonneg_left h2 (Nat.cast_nonneg n)
      nlinarith
  have hn : 0 ≤ ∑ j, (∑ i, M i j) * klDiv (z j) (x n j) :=
    sum_nonneg fun j _ => mul_nonneg (hseq.cols j).le (klDiv_nonneg (hz0 j) (hseq.nonneg n j) ((hstep n).1 j))
  linarith [hsum n]

/-- C250: with a background of at least the division floor nothing else is needed. -/
theorem C250_mlem_background_partial {M : ι → ν → ℝ} {S : Solver ν ι Q} {b : Arr ι} {a : Args ν ι} {x : ℕ → Arr ν}
    (hrun : ∀ n, ∃ info S', mlem S (matrixOp M) b { a with iterations := n } = .ok (x n, info, S')) (hs : MlemSetting M S b a)
    (hbg : ∀ i, eps ≤ expected S (matrixOp M) (fun _ => 0) i) :
    ∃ z, IsMaxLikelihood S M b a z ∧ Tendsto x atTop (𝓝 z) := by
  refine C250_mlem_converges_partial hrun hs (fun i => eps_pos.le.trans (hbg i)) fun n i _ => ?_
  obtain ⟨i1, S1, h1⟩ := hrun n
  have hx := (mlem_iterate h1 hs).2.2.1
  have := hbg i
  rw [expected_eq] at this ⊢
  have h2 : 0 ≤ ∑ j, M i j * x n j := sum_nonneg fun j _ => mul_nonneg (hs.matrix i j) (hx j)
  simp only [mul_zero, sum_const_zero, zero_add] at this
  linarith

/-- C250 is violated for small data: one pixel, one voxel, a datum of half the division floor (`np.finfo(np.float32).eps`, about 1.2e-7): the unique volume
of maximal likelihood is the datum, but the volumes converge to zero. -/
theorem C250_small_data_violated : ∃ (S : Solver (Fin 1) (Fin 1) Unit) (a : Args (Fin 1) (Fin 1)) (x : ℕ → Arr (Fin 1)),
    MlemSetting (fun _ _ => 1) S (fun _ => eps / 2) a ∧
    (∀ n, ∃ info S', mlem S (matrixOp fun _ _ => 1) (fun _ => eps / 2) { a with iterations := n } = .ok (x n, info, S')) ∧
    Tendsto x atTop (𝓝 fun _ => 0) ∧ IsMaxLikelihood S (fun _ _ => 1) (fun _ => eps / 2) a (fun _ => eps / 2) := by
  have hp := eps_pos
  let S : Solver (Fin 1) (Fin 1) Unit := ⟨1, none, [], .new .kl none, .new .kl none, none⟩
  let a : Args (Fin 1) (Fin 1) := { iterations := 0 }
  have hs : MlemSetting (fun _ _ => 1) S (fun _ => eps / 2) a :=
    ⟨fun _ _ => zero_le_one, fun _ => by linarith, fun _ => by simp [startVolume, a], rfl, rfl, rfl, rfl, rfl, by simp [a]⟩
  have hok : ∀ n, ∃ r, mlem S (matrixOp fun _ _ => 1) (fun _ => eps / 2) { a with iterations := n } = .ok r := by
    intro n
    simp [S, a, mlem, matrixOp, initBMasks, Bind.bind, Except.bind, applyMask, testTerm, isArrayBg, DataTerm.new, assignData]
  choose r hr using hok
  have hbg : bgOf S = fun _ => 0 := by funext i; simp [bgOf, S, addBackground, DataTerm.new]
  have hx : ∀ n, (r n).1 = (emMap (fun (_ _ : Fin 1) => 1) (fun _ => eps / 2) (fun _ => 0))^[n] fun _ => 1 := by
    intro n
    have h1 := (mlem_iterate (show mlem S (matrixOp fun _ _ => 1) (fun _ => eps / 2) { a with iterations := n } =
      .ok ((r n).1, (r n).2.1, (r n).2.2) from hr n) hs).1
    rw [h1, hbg]
    rfl
  have hval : ∀ n, (r (n + 1)).1 = fun _ => eps / 2 * (1 / 2) ^ n := by
    intro n
    rw [hx]
    induction n with
    | zero =>
      simp only [zero_add, Function.iterate_one]
      funext j
      have : max (1 : ℝ) eps = 1 := max_eq_left (by norm_num [eps])
      simp [emMap, this]
    | succ n ih =>
      rw [Function.iterate_succ_apply', ih]
      funext j
      have hle : eps / 2 * (1 / 2) ^ n ≤ eps := by
        have : (1 / 2 : ℝ) ^ n ≤ 1 := pow_le_one₀ (by norm_num) (by norm_num)
        nlinarith
      have : max (eps / 2 * (1 / 2) ^ n) eps = eps := max_eq_right hle
      simp only [emMap, univ_unique, sum_const, card_singleton, one_smul, one_mul, add_zero, this]
      rw [pow_succ]
      field_simp
  refine ⟨S, a, fun n => (r n).1, hs, fun n => ⟨_, _, hr n⟩, ?_, ?_⟩
  · rw [← tendsto_add_atTop_iff_nat 1]
    simp_rw [hval]
    refine tendsto_pi_nhds.2 fun _ => ?_
    have := (tendsto_pow_atTop_nhds_zero_of_lt_one (r := (1 / 2 : ℝ)) (by norm_num) (by norm_num)).const_mul (eps / 2)
    simpa using this
  · have hE : ∀ z : Arr (Fin 1), expected S (matrixOp fun _ _ => 1) z = fun _ => z 0 := by
      intro z
      funext i
      rw [expected_eq, hbg]
      simp
    refine ⟨⟨fun _ => by linarith, fun j hj => by simp [a, applyMask, startVolume] at hj, fun i _ => by rw [hE]; linarith⟩, fun w hw => ?_⟩
    have hw0 := hw.2.2 0 (by linarith)
    rw [hE] at hw0 ⊢
    rw [hE]
    simp only [poissonNLL, univ_unique, sum_const, card_singleton, one_smul]
    have ht := Real.log_le_sub_one_of_pos (div_pos hw0 (show (0 : ℝ) < eps / 2 by linarith))
    rw [Real.log_div hw0.ne' (by linarith)] at ht
    have h2 := mul_le_mul_of_nonneg_left ht (show (0 : ℝ) ≤ eps / 2 by linarith)
    rw [mul_sub, mul_sub, mul_div_cancel₀ _ (show eps / 2 ≠ 0 by linarith)] at h2
    linarith

/-- Non-vacuity: two pixels, one voxel, a background of 1: all the hypotheses hold, for the data 3 and 5. -/
example : let M : Fin 2 → Fin 1 → ℝ := fun i _ => if i = 0 then 1 else 2
    let a : Args (Fin 1) (Fin 2) := { iterations := 3 }
    let S : Solver (Fin 1) (Fin 2) Unit := ⟨1, none, [], .new .kl (some (.scalar 1)), .new .kl none, none⟩
    MlemSetting M S ![3, 5] a ∧ (∀ n, ∃ r, mlem S (matrixOp M) ![3, 5] { a with iterations := n } = .ok r) ∧
    ∀ i, eps ≤ expected S (matrixOp M) (fun _ => 0) i := by
  refine ⟨⟨?_, ?_, ?_, rfl, rfl, rfl, rfl, rfl, by simp⟩, fun n => ?_, ?_⟩
  · intro i j; fin_cases i <;> norm_num
  · intro i; fin_cases i <;> norm_num
  · intro j; simp [startVolume]
  · simp [mlem, matrixOp, initBMasks, Bind.bind, Except.bind, applyMask, testTerm, isArrayBg, DataTerm.new, assignData,
      Fin.sum_univ_two]
    norm_num
  · intro i; fin_cases i <;> norm_num [expected, addBackground, DataTerm.new, matrixOp, eps, Attr.get]

end Verif
