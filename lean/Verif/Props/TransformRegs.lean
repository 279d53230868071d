import Verif.Model.TransformRegs
import Verif.Props.Operators
import Verif.Props.Regularizers
import Mathlib.Analysis.SpecialFunctions.Exp

/-! # C155–C158: Fourier and wavelet regularizers -/

namespace Verif
open Finset

/-! ## C155: joint shrinkage of wavelet coefficients -/

/-- Specification: detail coefficients of level `lvl` (band `lvl * nb + lab`) at position `p`, shrunk jointly over the orientations
`lab` to Euclidean length at most `w`. -/
noncomputable def jointShrink {P : Type} {level nb : ℕ} (w : Arr P) (y : Fin level → Fin nb → P → ℝ) (lvl : Fin level) (lab : Fin nb) (p : P) : ℝ :=
  y lvl lab p / max (Real.sqrt (∑ lab', y lvl lab' p ^ 2)) (w p) * w p

/-- The band number of a level and an orientation, as `packSwt` orders them. -/
def bandOf {level nb : ℕ} (lvl : Fin level) (lab : Fin nb) : Fin (level * nb) :=
  ⟨lvl * nb + lab, by
    have h1 := lvl.isLt
    have h2 := lab.isLt
    calc lvl.val * nb + lab < lvl.val * nb + nb := by omega
      _ = (lvl.val + 1) * nb := by ring
      _ ≤ level * nb := Nat.mul_le_mul_right _ h1⟩

/-- C155, one level of the stationary transform: exactly the orientations at one position are shrunk jointly. -/
theorem C155_one_level_partial {P : Type} {nb : ℕ} (w : Arr P) (y : Fin 1 → Fin nb → P → ℝ) (dual : Arr (Fin (1 * nb) × P))
    (hy : ∀ lvl lab p, dual (bandOf lvl lab, p) = y lvl lab p) (lvl : Fin 1) (lab : Fin nb) (p : P) :
    swlProxDetails w dual (bandOf lvl lab, p) = jointShrink w y lvl lab p := by
  have hl : lvl = 0 := Subsingleton.elim _ _
  subst hl
  have hsum : ∑ i : Fin (1 * nb), dual (i, p) ^ 2 = ∑ lab', y 0 lab' p ^ 2 := by
    refine Fintype.sum_equiv (finCongr (Nat.one_mul nb)) _ _ fun i => ?_
    rw [← hy]
    congr 3
    apply Fin.ext
    simp [bandOf]
  simp only [swlProxDetails, jointShrink, hy, Nat.mod_one, if_true, hsum]

/-- C155 is violated with two levels and three orientations (two axes): bands of different levels are shrunk together. -/
theorem C155_levels_mixed_violated : ¬ ∀ (w : Arr Unit) (y : Fin 2 → Fin 3 → Unit → ℝ) (dual : Arr (Fin (2 * 3) × Unit)), 0 < w () →
    (∀ lvl lab p, dual (bandOf lvl lab, p) = y lvl lab p) →
    ∀ lvl lab p, swlProxDetails w dual (bandOf lvl lab, p) = jointShrink w y lvl lab p := by
  intro h
  -- band 0 (level 0, orientation 0) and band 4 (level 1, orientation 1) hold 1, everything else 0
  have h1 := h (fun _ => 1) (fun lvl lab _ => if (lvl = 0 ∧ lab = 0) ∨ (lvl = 1 ∧ lab = 1) then 1 else 0)
    (fun x => if x.1.val = 0 ∨ x.1.val = 4 then 1 else 0) one_pos (by
      intro lvl lab p
      fin_cases lvl <;> fin_cases lab <;> simp [bandOf]) 0 0 ()
  have hs2 : (1 : ℝ) < Real.sqrt (1 + 1) := by
    rw [show (1 : ℝ) = Real.sqrt 1 by simp]
    exact Real.sqrt_lt_sqrt (by norm_num) (by norm_num)
  simp [swlProxDetails, jointShrink, bandOf, Fin.sum_univ_succ] at h1

/-- C155, decimated transform: the details of a level are shrunk jointly over the orientations. -/
theorem C155_decimated_details_partial {P : Type} {nb : ℕ} (w : ℝ) (y : Fin 1 → Fin nb → P → ℝ) (lab : Fin nb) (p : P) :
    dwlProxDetails w (fun x => y 0 x.1 x.2) (lab, p) = jointShrink (fun _ => w) y 0 lab p := rfl

/-- C155, approximation band of the stationary transform: every coefficient by itself, to the interval `[-w, w]`. -/
theorem C155_stationary_approx_partial {P : Type} (w approx : Arr P) (p : P) (hw : 0 < w p) :
    swlProxApprox w approx p = max (-w p) (min (approx p) (w p)) := by
  unfold swlProxApprox
  rw [Real.sqrt_sq_eq_abs]
  rcases le_total (|approx p|) (w p) with h | h
  · rw [max_eq_right h, div_mul_cancel₀ _ hw.ne']
    obtain ⟨h1, h2⟩ := abs_le.1 h
    rw [min_eq_left h2, max_eq_right h1]
  · rw [max_eq_left h]
    rcases le_total 0 (approx p) with h0 | h0
    · rw [abs_of_nonneg h0] at h ⊢
      rw [min_eq_right h, div_self (by linarith), one_mul, max_eq_right (by linarith)]
    · rw [abs_of_nonpos h0] at h ⊢
      rw [min_eq_left (by linarith), max_eq_left (by linarith)]
      have : approx p ≠ 0 := by intro h3; rw [h3] at h; linarith
      field_simp

/-- C155 is violated by the decimated transform's approximation band: its columns are shrunk jointly. -/
theorem C155_decimated_approx_violated : ¬ ∀ (m : ℕ) (w : ℝ) (approx : Arr (Fin m × Unit)) (x : Fin m × Unit), 0 < w →
    dwlProxApprox w approx x = max (-w) (min (approx x) w) := by
  intro h
  have h1 := h 2 1 (fun _ => 1) (0, ()) one_pos
  have hs2 : (1 : ℝ) < Real.sqrt 2 := by
    rw [show (1 : ℝ) = Real.sqrt 1 by simp]
    exact Real.sqrt_lt_sqrt (by norm_num) (by norm_num)
  simp [dwlProxApprox, Fin.sum_univ_succ] at h1

/-! ## C156: the primal proximal map of the Fourier regularizer -/

variable {κ : Type} [Fintype κ] [DecidableEq κ] {n : κ → ℕ}

/-- The negative frequency. -/
private def negFreq (axes : Finset κ) (k : Idx n) : Idx n := fun a =>
  if a ∈ axes then ⟨(n a - k a) % n a, Nat.mod_lt _ (k a).pos⟩ else k a

private theorem negFreq_neg (axes : Finset κ) (k : Idx n) : negFreq axes (negFreq axes k) = k := by
  funext a
  unfold negFreq
  by_cases ha : a ∈ axes
  · simp only [ha, if_true]
    apply Fin.ext
    have hk := (k a).isLt
    rcases Nat.eq_zero_or_pos (k a).val with h0 | h0
    · simp [h0]
    · show (n a - (n a - (k a).val) % n a) % n a = (k a).val
      rw [Nat.mod_eq_of_lt (show n a - (k a).val < n a by omega)]
      rw [Nat.mod_eq_of_lt (by omega)]
      omega
  · simp [ha]

private def negEquiv (axes : Finset κ) : Idx n ≃ Idx n :=
  ⟨negFreq axes, negFreq axes, negFreq_neg axes, negFreq_neg axes⟩

private theorem kernel_neg (axes : Finset κ) (k p : Idx n) :
    fftKernel axes (negFreq axes k) p = (starRingEnd ℂ) (fftKernel axes k p) := by
  unfold fftKernel
  rw [map_prod]
  refine prod_congr rfl fun a _ => ?_
  by_cases ha : a ∈ axes
  · simp only [ha, if_true, negFreq]
    rw [map_div₀, Complex.conj_ofReal, ← Complex.exp_conj]
    congr 1
    have hk := (k a).isLt
    have hn : ((n a : ℕ) : ℂ) ≠ 0 := by
      have : 0 < n a := (k a).pos
      exact_mod_cast this.ne'
    rcases Nat.eq_zero_or_pos (k a).val with h0 | h0
    · simp [h0]
    · rw [Nat.mod_eq_of_lt (show n a - (k a).val < n a by omega)]
      simp only [map_neg, map_div₀, map_mul, Complex.conj_I, Complex.conj_ofReal, map_natCast, map_ofNat]
      rw [Nat.cast_sub hk.le]
      have e : -(2 * (Real.pi : ℂ) * Complex.I * ((n a : ℂ) - ((k a : ℕ) : ℂ)) * ((p a : ℕ) : ℂ) / (n a : ℂ))
          = -(2 * (Real.pi : ℂ) * -Complex.I * ((k a : ℕ) : ℂ) * ((p a : ℕ) : ℂ) / (n a : ℂ))
            + (-((p a : ℕ) : ℤ) : ℤ) * (2 * Real.pi * Complex.I) := by
        push_cast
        field_simp
        ring
      rw [e, Complex.exp_add, Complex.exp_int_mul_two_pi_mul_I, mul_one]
  · simp only [ha, if_false, negFreq]
    split_ifs <;> simp

/-- Coefficients of a real image. -/
private def Hermitian (axes : Finset κ) (z : Arr (Fin 2 × Idx n)) : Prop :=
  ∀ k, z (0, negFreq axes k) = z (0, k) ∧ z (1, negFreq axes k) = -z (1, k)

private theorem fourier_hermitian (axes : Finset κ) (x : Arr (Idx n)) : Hermitian axes (fourier axes x) := by
  intro k
  have h : ∑ p, fftKernel axes (negFreq axes k) p * (x p : ℂ) = (starRingEnd ℂ) (∑ p, fftKernel axes k p * (x p : ℂ)) := by
    rw [map_sum]
    refine sum_congr rfl fun p _ => ?_
    rw [map_mul (starRingEnd ℂ), Complex.conj_ofReal, kernel_neg]
  simp only [fourier, if_true, one_ne_zero, if_false, h, Complex.conj_re, Complex.conj_im, and_self]

private theorem kernel_ortho' (axes : Finset κ) (k l : Idx n) :
    ∑ p, fftKernel axes k p * (starRingEnd ℂ) (fftKernel axes l p) = if k = l then 1 else 0 := by
  let A : Matrix (Idx n) (Idx n) ℂ := Matrix.of fun k p => fftKernel axes k p
  let B : Matrix (Idx n) (Idx n) ℂ := Matrix.of fun p k => (starRingEnd ℂ) (fftKernel axes k p)
  have hBA : B * A = 1 := by
    ext p q
    simp only [Matrix.mul_apply, A, B, Matrix.of_apply, Matrix.one_apply]
    exact kernel_ortho axes p q
  have hAB : A * B = 1 := mul_eq_one_comm.1 hBA
  have := congrFun (congrFun hAB k) l
  simpa only [Matrix.mul_apply, A, B, Matrix.of_apply, Matrix.one_apply] using this

private theorem fourier_adjoint_hermitian (axes : Finset κ) (z : Arr (Fin 2 × Idx n)) (hz : Hermitian axes z) :
    fourier axes (fourierAdjoint axes z) = z := by
  set Z : Idx n → ℂ := fun k => (z (0, k) : ℂ) + Complex.I * (z (1, k) : ℂ) with hZ
  set u : Idx n → ℂ := fun p => ∑ k, (starRingEnd ℂ) (fftKernel axes k p) * Z k with hu
  have hZneg : ∀ k, Z (negFreq axes k) = (starRingEnd ℂ) (Z k) := by
    intro k
    simp only [hZ, (hz k).1, (hz k).2, map_add, map_mul (starRingEnd ℂ), Complex.conj_I, Complex.conj_ofReal]
    push_cast; ring
  have hreal : ∀ p, ((u p).re : ℂ) = u p := by
    intro p
    rw [← Complex.conj_eq_iff_re]
    simp only [hu, map_sum, map_mul (starRingEnd ℂ), Complex.conj_conj]
    refine Fintype.sum_equiv (negEquiv axes) _ _ fun k => ?_
    show _ = (starRingEnd ℂ) (fftKernel axes (negFreq axes k) p) * Z (negFreq axes k)
    rw [hZneg, kernel_neg, Complex.conj_conj]
  have hadj : ∀ p, fourierAdjoint axes z p = (u p).re := fun p => rfl
  have hback : ∀ k, ∑ p, fftKernel axes k p * (fourierAdjoint axes z p : ℂ) = Z k := by
    intro k
    simp only [hadj, hreal]
    simp only [hu, mul_sum]
    rw [sum_comm]
    have : ∀ l, ∑ p, fftKernel axes k p * ((starRingEnd ℂ) (fftKernel axes l p) * Z l) = (if k = l then 1 else 0) * Z l := by
      intro l
      rw [← kernel_ortho' axes k l, sum_mul]
      exact sum_congr rfl fun p _ => by ring
    simp only [this]
    simp
  funext q
  obtain ⟨i, k⟩ := q
  simp only [fourier, hback]
  fin_cases i
  · simp [hZ]
  · simp [hZ]

private theorem delta_zero_one (axes : Finset κ) (k : Idx n) :
    fftSigma axes .delta k = 0 ∨ fftSigma axes .delta k = 1 := by
  unfold fftSigma
  split_ifs <;> simp

private theorem fftfreq_zero_iff {N i : ℕ} (h : i < N) : ((fftfreq N i : ℝ) / N = 0) ↔ i = 0 := by
  have hN : (N : ℝ) ≠ 0 := by have : 0 < N := by omega
                              exact_mod_cast this.ne'
  rw [div_eq_zero_iff]
  simp only [hN, or_false]
  unfold fftfreq
  split_ifs with h2
  · norm_cast
  · constructor
    · intro h3
      have : (i : ℝ) < N := by exact_mod_cast h
      push_cast at h3
      linarith
    · intro h3; omega

private theorem delta_neg (axes : Finset κ) (k : Idx n) : fftSigma axes .delta (negFreq axes k) = fftSigma axes .delta k := by
  unfold fftSigma
  have h : (∀ a ∈ axes, ((fftfreq (n a) (negFreq axes k a) : ℝ) / n a) = 0) ↔ ∀ a ∈ axes, ((fftfreq (n a) (k a) : ℝ) / n a) = 0 := by
    refine forall₂_congr fun a ha => ?_
    rw [fftfreq_zero_iff (negFreq axes k a).isLt, fftfreq_zero_iff (k a).isLt]
    have hk := (k a).isLt
    simp only [negFreq, ha, if_true]
    rcases Nat.eq_zero_or_pos (k a).val with h0 | h0
    · simp [h0]
    · rw [Nat.mod_eq_of_lt (by omega)]; omega
  simp only [h]

private theorem soft_neg (v t : ℝ) : softThreshold (-v) t = -softThreshold v t := by
  unfold softThreshold npSign
  rw [abs_neg]
  rcases lt_trichotomy v 0 with h | h | h
  · simp [h, h.not_gt]
  · simp [h]
  · simp [h, h.not_gt]

/-- Specification: the penalty of an image: the sum of the moduli of the real and imaginary parts of the coefficients whose frequency
is not zero along all the transformed axes. -/
noncomputable def fourierPenalty (axes : Finset κ) (y : Arr (Idx n)) : ℝ :=
  ∑ q : Fin 2 × Idx n, if ∀ a ∈ axes, (q.2 a).val = 0 then 0 else |fourier axes y q|

private theorem delta_eq (axes : Finset κ) (k : Idx n) :
    fftSigma axes .delta k = if ∀ a ∈ axes, (k a).val = 0 then 0 else 1 := by
  unfold fftSigma
  have h : (∀ a ∈ axes, ((fftfreq (n a) (k a) : ℝ) / n a) = 0) ↔ ∀ a ∈ axes, (k a).val = 0 :=
    forall₂_congr fun a _ => fftfreq_zero_iff (k a).isLt
  simp only [h]
  split_ifs <;> norm_num

/-- C156 for the filter "delta" and one threshold: the result is the unique minimiser of `t · penalty(y) + ‖y - x‖² / 2`, for any
image, shape and set of axes. -/
theorem C156_delta_prox_partial (axes : Finset κ) (tau w : ℝ) (ht : 0 < tau * w) (x y : Arr (Idx n))
    (hy : y ≠ fftProxPrimal axes .delta (.scalar w) (fun _ => tau) x) :
    tau * w * fourierPenalty axes (fftProxPrimal axes .delta (.scalar w) (fun _ => tau) x)
        + (∑ j, (fftProxPrimal axes .delta (.scalar w) (fun _ => tau) x j - x j) ^ 2) / 2
      < tau * w * fourierPenalty axes y + (∑ j, (y j - x j) ^ 2) / 2 := by
  set t := tau * w with hts
  set c := fourier axes x with hc
  set z : Arr (Fin 2 × Idx n) := fun q => if ∀ a ∈ axes, (q.2 a).val = 0 then c q else softThreshold (c q) t with hz
  set r := fftProxPrimal axes .delta (.scalar w) (fun _ => tau) x with hr
  have hrz : r = fourierAdjoint axes z := by
    rw [hr, fftProxPrimal]
    congr 1
    funext q
    simp only [Attr.get, delta_eq, hz]
    split_ifs
    · simp [softThreshold, npSign, ← hc]
    · simp [← hc, ← hts]
  have hherm : Hermitian axes z := by
    intro k
    have h1 := fourier_hermitian axes x k
    have h2 : (∀ a ∈ axes, (negFreq axes k a).val = 0) ↔ ∀ a ∈ axes, (k a).val = 0 := by
      refine forall₂_congr fun a ha => ?_
      have hk := (k a).isLt
      simp only [negFreq, ha, if_true]
      rcases Nat.eq_zero_or_pos (k a).val with h0 | h0
      · simp [h0]
      · rw [Nat.mod_eq_of_lt (by omega)]; omega
    simp only [hz, h2, hc, h1.1, h1.2]
    constructor
    · trivial
    · split_ifs
      · rfl
      · exact soft_neg _ _
  have hWr : fourier axes r = z := by rw [hrz]; exact fourier_adjoint_hermitian axes z hherm
  have dist : ∀ v : Arr (Idx n), ∑ j, (v j - x j) ^ 2 = ∑ q, (fourier axes v q - c q) ^ 2 := by
    intro v
    have h1 := (C27_fourier_isometry axes (fun j => v j - x j) (fun j => v j - x j)).2
    have hlin : fourier axes (fun j => v j - x j) = fun q => fourier axes v q - c q := by
      funext q
      have e : ∑ p, fftKernel axes q.2 p * ((v p - x p : ℝ) : ℂ)
          = ∑ p, fftKernel axes q.2 p * (v p : ℂ) - ∑ p, fftKernel axes q.2 p * (x p : ℂ) := by
        rw [← sum_sub_distrib]
        exact sum_congr rfl fun p _ => by push_cast; ring
      simp only [hc, fourier, e, Complex.sub_re, Complex.sub_im]
      split_ifs <;> rfl
    rw [hlin] at h1
    simp only [dot, ← pow_two] at h1
    exact h1.symm
  rw [dist, dist, fourierPenalty, fourierPenalty, mul_sum, mul_sum, sum_div, sum_div, ← sum_add_distrib, ← sum_add_distrib, hWr]
  have hs : ∀ q, fourier axes y q ≠ z q →
      t * (if ∀ a ∈ axes, (q.2 a).val = 0 then 0 else |z q|) + (z q - c q) ^ 2 / 2 <
      t * (if ∀ a ∈ axes, (q.2 a).val = 0 then 0 else |fourier axes y q|) + (fourier axes y q - c q) ^ 2 / 2 := by
    intro q hne
    by_cases h0 : ∀ a ∈ axes, (q.2 a).val = 0
    · have hzq : z q = c q := if_pos h0
      rw [if_pos h0, if_pos h0, hzq]
      rw [hzq] at hne
      simp only [mul_zero, zero_add, sub_self]
      have : 0 < (fourier axes y q - c q) ^ 2 := by have := sub_ne_zero.2 hne; positivity
      simpa using this
    · have hzq : z q = softThreshold (c q) t := if_neg h0
      rw [if_neg h0, if_neg h0, hzq]
      rw [hzq] at hne
      have := (soft_isProx (w := 1) (x := c q) zero_le_one ht).2 (fourier axes y q) trivial (by simpa using hne)
      simpa [Spec.fL1] using this
  have hex : ∃ q, fourier axes y q ≠ z q := by
    by_contra hall
    push Not at hall
    apply hy
    rw [← (C27_fourier_isometry axes y y).1, ← (C27_fourier_isometry axes r r).1, funext hall, hWr]
  obtain ⟨q, hq⟩ := hex
  refine sum_lt_sum (fun q _ => ?_) ⟨q, mem_univ _, hs q hq⟩
  by_cases h : fourier axes y q = z q
  · rw [h]
  · exact (hs q h).le

section expfilter

private noncomputable def alt : Arr (Idx (fun _ : Fin 1 => 2)) := fun p => if (p 0).val = 0 then 1 else -1

private theorem kernel_two (k p : Idx (fun _ : Fin 1 => 2)) :
    fftKernel univ k p = (((if (k 0).val = 1 ∧ (p 0).val = 1 then -1 else 1) / Real.sqrt 2 : ℝ) : ℂ) := by
  simp only [fftKernel, Fintype.univ_ofSubsingleton, Fin.mk_zero', prod_singleton, mem_singleton, if_true]
  rw [Complex.ofReal_div]
  norm_num
  congr 1
  generalize k 0 = a
  generalize p 0 = b
  fin_cases a <;> fin_cases b <;> simp
  rw [show -(2 * (Real.pi : ℂ) * Complex.I / 2) = -(Real.pi * Complex.I) by ring, Complex.exp_neg, Complex.exp_pi_mul_I]
  norm_num

private theorem sum_two {β : Type} [AddCommMonoid β] (g : Idx (fun _ : Fin 1 => 2) → β) :
    ∑ p, g p = g (fun _ => 0) + g (fun _ => 1) := by
  rw [Fintype.sum_equiv (Equiv.funUnique (Fin 1) (Fin 2)) g (fun i => g fun _ => i), Fin.sum_univ_two]
  intro p
  congr 1
  funext a
  rw [Subsingleton.elim a 0]
  rfl

private theorem idx_two (p : Idx (fun _ : Fin 1 => 2)) : p = (fun _ => 0) ∨ p = (fun _ => 1) := by
  have h : p 0 = 0 ∨ p 0 = 1 := by generalize p 0 = a; fin_cases a <;> simp
  rcases h with h | h
  · left; funext a; rw [Subsingleton.elim a 0]; exact h
  · right; funext a; rw [Subsingleton.elim a 0]; exact h

private theorem fourier_alt (s : ℝ) (i : Fin 2) (k : Idx (fun _ : Fin 1 => 2)) :
    fourier univ (fun p => s * alt p) (i, k) = if i = 0 ∧ (k 0).val = 1 then s * Real.sqrt 2 else 0 := by
  have h2 : Real.sqrt 2 ≠ 0 := by positivity
  have hsq : Real.sqrt 2 * Real.sqrt 2 = 2 := Real.mul_self_sqrt (by norm_num)
  have hs : ∑ p, fftKernel univ k p * ((s * alt p : ℝ) : ℂ) = (((if (k 0).val = 1 then s * Real.sqrt 2 else 0) : ℝ) : ℂ) := by
    rw [sum_two, kernel_two, kernel_two]
    rw [← Complex.ofReal_mul, ← Complex.ofReal_mul, ← Complex.ofReal_add]
    congr 1
    rcases idx_two k with h | h <;> subst h <;> simp [alt]
    field_simp
    rw [pow_two, hsq]; ring
  simp only [fourier, hs, Complex.ofReal_re, Complex.ofReal_im]
  split_ifs <;> simp_all

private theorem fourierAdjoint_alt (v : ℝ) (p : Idx (fun _ : Fin 1 => 2)) :
    fourierAdjoint univ (fun q : Fin 2 × Idx (fun _ : Fin 1 => 2) => if q.1 = 0 ∧ (q.2 0).val = 1 then v else 0) p
      = v / Real.sqrt 2 * alt p := by
  simp only [fourierAdjoint, sum_two, kernel_two, Complex.conj_ofReal]
  have h2 : Real.sqrt 2 ≠ 0 := by positivity
  rcases idx_two p with h | h <;> subst h <;> simp [alt] <;> field_simp
  all_goals rw [Real.sq_sqrt (by norm_num)]

private theorem sigma_exp (k : Idx (fun _ : Fin 1 => 2)) :
    fftSigma univ .exp k = if (k 0).val = 1 then 1 - Real.exp (-6) else 0 := by
  have hq : Real.sqrt ((2 ^ 2)⁻¹) = 1 / 2 := by
    rw [show ((2 : ℝ) ^ 2)⁻¹ = (1 / 2) ^ 2 by norm_num]
    exact Real.sqrt_sq (by norm_num)
  rcases idx_two k with h | h <;> subst h <;> simp [fftSigma, fftfreq]
  rw [show ((-1 : ℝ) / 2) ^ 2 = (1 / 2) ^ 2 by norm_num, Real.sqrt_sq (by norm_num)]
  norm_num

/-- Specification: the documented penalty `‖M F y‖₁` for a frequency mask `M`. -/
noncomputable def maskedFourierPenalty (axes : Finset κ) (M : Idx n → ℝ) (y : Arr (Idx n)) : ℝ :=
  ∑ q : Fin 2 × Idx n, |M q.2 * fourier axes y q|

/-- C156 is violated by the default filter "exp": two pixels, `1` and `-1`; the result has a larger value than the zero image. -/
theorem C156_exp_violated : ¬ ∀ (m : ℕ) (tau w : ℝ), 0 < tau * w → ∀ x y : Arr (Idx (fun _ : Fin 1 => m)),
    tau * w * maskedFourierPenalty univ (fftSigma univ .exp) (fftProxPrimal univ .exp (.scalar w) (fun _ => tau) x)
        + (∑ j, (fftProxPrimal univ .exp (.scalar w) (fun _ => tau) x j - x j) ^ 2) / 2
      ≤ tau * w * maskedFourierPenalty univ (fftSigma univ .exp) y + (∑ j, (y j - x j) ^ 2) / 2 := by
  intro h
  have h1 := h 2 4 1 (by norm_num) alt (fun p => 0 * alt p)
  have hsq : Real.sqrt 2 * Real.sqrt 2 = 2 := Real.mul_self_sqrt (by norm_num)
  have hs1 : (1 : ℝ) ≤ Real.sqrt 2 := by rw [show (1 : ℝ) = Real.sqrt 1 by simp]; exact Real.sqrt_le_sqrt (by norm_num)
  have hs2 : Real.sqrt 2 ≤ 2 := by nlinarith
  set e := Real.exp (-6) with he
  have he0 : 0 < e := Real.exp_pos _
  have he1 : e < 1 / 7 := by
    have := Real.add_one_lt_exp (x := 6) (by norm_num)
    rw [he, Real.exp_neg, one_div]
    exact inv_strictAnti₀ (by norm_num) (by linarith)
  have halt : fourier univ alt = fun q : Fin 2 × Idx (fun _ : Fin 1 => 2) => if q.1 = 0 ∧ (q.2 0).val = 1 then Real.sqrt 2 else 0 := by
    funext q
    have := fourier_alt 1 q.1 q.2
    simpa only [one_mul] using this
  have hres : fftProxPrimal univ .exp (.scalar 1) (fun _ => 4) alt = fun p => e * alt p := by
    funext p
    have hc : (fun q : Fin 2 × Idx (fun _ : Fin 1 => 2) => softThreshold (fourier univ alt q * fftSigma univ .exp q.2)
        (4 * (Attr.scalar (1 : ℝ)).get q.2) + fourier univ alt q * (1 - fftSigma univ .exp q.2))
        = fun q => if q.1 = 0 ∧ (q.2 0).val = 1 then Real.sqrt 2 * e else 0 := by
      funext q
      rw [halt, sigma_exp]
      simp only [Attr.get]
      by_cases hk : q.1 = 0 ∧ (q.2 0).val = 1
      · have hk1 := hk.2
        rw [if_pos hk, if_pos hk, if_pos hk1, Spec.softThreshold_of_abs]
        · ring
        · rw [abs_of_nonneg (by nlinarith)]; nlinarith
      · rw [if_neg hk, if_neg hk, Spec.softThreshold_of_abs] <;> simp
    rw [fftProxPrimal]
    simp only [hc]
    rw [fourierAdjoint_alt]
    field_simp
  have hpen : ∀ s : ℝ, 0 ≤ s → maskedFourierPenalty univ (fftSigma univ .exp) (fun p => s * alt p) = (1 - e) * (s * Real.sqrt 2) := by
    intro s hs
    rw [maskedFourierPenalty, Fintype.sum_prod_type, Fin.sum_univ_two]
    simp only [sum_two, fourier_alt, sigma_exp]
    have : |(1 - e) * (s * Real.sqrt 2)| = (1 - e) * (s * Real.sqrt 2) := abs_of_nonneg (by
      have : 0 ≤ s * Real.sqrt 2 := by positivity
      nlinarith)
    simp [← he, this]
  have hd : ∀ s : ℝ, ∑ j, (s * alt j - alt j) ^ 2 = 2 * (s - 1) ^ 2 := by
    intro s
    rw [sum_two]
    simp [alt]; ring
  rw [hres, hpen e he0.le, hpen 0 le_rfl, hd, hd] at h1
  have : e * Real.sqrt 2 ≥ e := by nlinarith
  nlinarith

end expfilter

/-! ## C157: step sizes of the decimated wavelet regularizer -/

/-- Specification: `∑ σ_i (W x)_i² ≤ tau ‖x‖²`, the condition on the step sizes under which the primal-dual iterations are known to
converge for the term alone. -/
def StepsBound {ν δ : Type} [Fintype ν] [Fintype δ] (W : Arr ν → Arr δ) (sigma : δ → ℝ) (tau : ℝ) : Prop :=
  ∀ x, ∑ i, sigma i * W x i ^ 2 ≤ tau * ∑ j, x j ^ 2

private theorem haar_mult : filterMult (Real.sqrt 2) (Real.sqrt 2) 2 = [2, 2, 2] := by
  have hsq : Real.sqrt 2 * Real.sqrt 2 = 2 := Real.mul_self_sqrt (by norm_num)
  have hsq' : Real.sqrt 2 ^ 2 = 2 := Real.sq_sqrt (by norm_num)
  have hl : List.range' 1 (2 ^ 2 - 1) = [1, 2, 3] := rfl
  have h1 : ((List.range 2).filter fun b => Nat.testBit 1 b).length = 1 := by decide
  have h2 : ((List.range 2).filter fun b => Nat.testBit 2 b).length = 1 := by decide
  have h3 : ((List.range 2).filter fun b => Nat.testBit 3 b).length = 2 := by decide
  simp only [filterMult, hl, List.map_cons, List.map_nil, h1, h2, h3]
  simp [hsq']

private theorem haar_lo : Real.sqrt 2 ^ 2 = (2 : ℝ) := Real.sq_sqrt (by norm_num)

/-- C157 for two-dimensional Haar wavelets and at most three levels: `lo`, `mult` are computed from the filters' l1 norms `√2`. -/
theorem C157_three_levels_partial {ν δ : Type} [Fintype ν] [Fintype δ] (W : Arr ν → Arr δ) (band : δ → Option ℕ)
    (hW : ∀ x, ∑ i, W x i ^ 2 = ∑ j, x j ^ 2) (level : ℕ) (h1 : 1 ≤ level) (h3 : level ≤ 3) :
    StepsBound W (fun i => dwlSigma (Real.sqrt 2 ^ 2) (filterMult (Real.sqrt 2) (Real.sqrt 2) 2) level (band i))
      (waveletTau (Real.sqrt 2 ^ 2) (filterMult (Real.sqrt 2) (Real.sqrt 2) 2) 2 level) := by
  intro x
  rw [haar_mult, haar_lo]
  have key : ∀ b, dwlSigma (2 : ℝ) [2, 2, 2] level b ≤ waveletTau 2 [2, 2, 2] 2 level := by
    intro b
    have hm : ∀ (l : List ℝ) (t : ℝ) (c : ℕ), (∀ v ∈ l, v ≤ t) → 0 ≤ t → l.getD c 0 ≤ t := by
      intro l t c hl ht
      rw [List.getD_eq_getElem?_getD]
      rcases h : l[c]? with _ | v
      · simpa using ht
      · simpa using hl v (List.mem_of_getElem? h)
    have hb : ∀ c, (waveletMult (2 : ℝ) [2, 2, 2] level).getD c 0 ≤ waveletTau 2 [2, 2, 2] 2 level := by
      intro c
      interval_cases level <;> refine hm _ _ _ ?_ ?_ <;>
        norm_num [waveletMult, waveletTau, List.range_succ, List.mapIdx_cons]
    cases b <;> exact hb _
  calc ∑ i, dwlSigma (2 : ℝ) [2, 2, 2] level (band i) * W x i ^ 2
      ≤ ∑ i, waveletTau 2 [2, 2, 2] 2 level * W x i ^ 2 := sum_le_sum fun i _ => mul_le_mul_of_nonneg_right (key _) (sq_nonneg _)
    _ = waveletTau 2 [2, 2, 2] 2 level * ∑ j, x j ^ 2 := by rw [← mul_sum, hW]

private theorem haar_tau (level : ℕ) : waveletTau (2 : ℝ) [2, 2, 2] 2 level = 9 - 5 / 2 ^ level := by
  have hr : ∀ (l : List ℝ) (r : ℝ), ((r :: l).mapIdx fun i r => ((2 ^ 2 - 1 : ℝ) + if i = 0 then 1 else 0) / r).sum
      = 4 / r + (l.map fun r => 3 / r).sum := by
    intro l r
    rw [List.mapIdx_cons]
    simp only [List.sum_cons, if_true]
    congr 1
    · norm_num
    · congr 1
      simp only [Nat.add_eq_zero_iff, one_ne_zero, and_false, if_false]
      rw [List.mapIdx_eq_zipIdx_map]
      have hz : (fun x : ℝ × ℕ => (2 ^ 2 - 1 + 0 : ℝ) / x.1) = (fun r : ℝ => 3 / r) ∘ Prod.fst := by
        funext x; norm_num
      show List.map (fun x : ℝ × ℕ => (2 ^ 2 - 1 + 0 : ℝ) / x.1) l.zipIdx = _
      rw [hz, ← List.map_map, List.zipIdx_map_fst]
  rw [waveletTau, waveletMult, hr]
  have hs : ∀ L : ℕ, (((List.range L).flatMap fun i => ([2, 2, 2] : List ℝ).map fun m => m * 2 ^ (L - 1 - i)).map fun r => 3 / r).sum
      = 9 - 9 / 2 ^ L := by
    intro L
    induction L with
    | zero => simp
    | succ L ih =>
      rw [List.range_succ_eq_map, List.flatMap_cons, List.map_append, List.sum_append]
      have : ((List.map Nat.succ (List.range L)).flatMap fun i => ([2, 2, 2] : List ℝ).map fun m => m * 2 ^ (L + 1 - 1 - i))
          = (List.range L).flatMap fun i => ([2, 2, 2] : List ℝ).map fun m => m * 2 ^ (L - 1 - i) := by
        rw [List.flatMap_map]
        congr 1
        funext i
        simp only [Nat.succ_eq_add_one, Nat.add_sub_cancel]
        rw [show L - (i + 1) = L - 1 - i by omega]
      rw [this, ih]
      simp
      field_simp
      ring
  rw [hs]
  ring

/-- C157 is violated for every orthogonal transform with four or more levels and an approximation coefficient. -/
theorem C157_deep_violated {ν δ : Type} [Fintype ν] [Fintype δ] [DecidableEq δ] (W : Arr ν → Arr δ) (band : δ → Option ℕ)
    (hW : ∀ x, ∑ i, W x i ^ 2 = ∑ j, x j ^ 2) (hsurj : Function.Surjective W) (i₀ : δ) (hi : band i₀ = none)
    (level : ℕ) (h4 : 4 ≤ level) :
    ¬ StepsBound W (fun i => dwlSigma (Real.sqrt 2 ^ 2) (filterMult (Real.sqrt 2) (Real.sqrt 2) 2) level (band i))
      (waveletTau (Real.sqrt 2 ^ 2) (filterMult (Real.sqrt 2) (Real.sqrt 2) 2) 2 level) := by
  intro h
  obtain ⟨x, hx⟩ := hsurj (fun i => if i = i₀ then 1 else 0)
  have h1 := h x
  rw [← hW, hx, haar_mult, haar_lo, haar_tau] at h1
  simp [hi, dwlSigma, waveletMult] at h1
  have h16 : (2 : ℝ) ^ 4 ≤ 2 ^ level := pow_le_pow_right₀ (by norm_num) h4
  have : (0 : ℝ) ≤ 5 / 2 ^ level := by positivity
  norm_num at h16
  linarith

/-- The hypotheses of `C157_deep_violated` are met: one coefficient, which is the pixel itself. -/
example : ¬ StepsBound (fun x : Arr Unit => x)
    (fun _ => dwlSigma (Real.sqrt 2 ^ 2) (filterMult (Real.sqrt 2) (Real.sqrt 2) 2) 5 none)
    (waveletTau (Real.sqrt 2 ^ 2) (filterMult (Real.sqrt 2) (Real.sqrt 2) 2) 2 5) :=
  C157_deep_violated (fun x : Arr Unit => x) (fun _ => none) (fun _ => rfl) (fun y => ⟨y, rfl⟩) () rfl 5 (by norm_num)

/-! ## C158: the vectorial wavelet regularizer with a reference -/

/-- C158 when the number of bands is one more than the number of channels: every channel is kept. -/
theorem C158_matching_partial (c cr : ℕ) : vl1wlChannels (c + 1) c cr = some (List.range c) := by
  simp [vl1wlChannels]

/-- C158 is violated: with one level in two dimensions (four bands) and two channels the call fails; and with one level in one dimension
(two bands) and any number of channels above one, all channels become the first. -/
theorem C158_channels_violated :
    (∀ cr, 2 ≤ cr → vl1wlChannels 4 2 cr = none) ∧ vl1wlChannels 4 2 1 = none ∧
    ∀ c cr, 2 ≤ c → vl1wlChannels 2 c cr = some (List.replicate c 0) ∧ List.replicate c 0 ≠ List.range c := by
  refine ⟨fun cr h => ?_, by decide, fun c cr h => ⟨?_, fun he => ?_⟩⟩
  · have : min 3 (2 + cr) = 3 := by omega
    simp [vl1wlChannels, this]
  · have h1 : min 1 (c + cr) = 1 := by omega
    have h2 : ¬ (1 = c) := by omega
    simp [vl1wlChannels, h1, h2]
  · have := congrArg (fun l => l[1]?) he
    have h1 : (List.range c)[1]? = some 1 := by rw [List.getElem?_range]; omega
    simp [List.getElem?_replicate, h1] at this

end Verif
