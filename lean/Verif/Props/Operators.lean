import Verif.Lemmas.Operators
import Verif.Spec.Operators

/-!
# Operators: transposes, explicit matrices (C27, C28, C30) and the disagreements (C66 …)
-/

namespace Verif
open Finset

/-! ## C27: transposes are adjoints -/

section
variable {α β : Type} [Fintype α] [Fintype β]

/-- `TransformIdentity` (src/corrct/operators.py:365-384) and `TransformDiagonalScaling`. -/
theorem C27_identity_diagonal (scale : Arr α) :
    IsAdjoint (fun x : Arr α => x) (fun y => y) ∧ IsAdjoint (diagonalOp scale) (diagonalOp scale) := by
  refine ⟨fun x y => rfl, fun x y => ?_⟩
  unfold dot diagonalOp
  exact sum_congr rfl fun i _ => by ring

/-- The matrix projector, and its transposed object. -/
theorem C27_matrix (A : MatProj α β) : IsAdjoint A.fp A.bp ∧ IsAdjoint A.T.fp A.T.bp := by
  have key : ∀ {α β : Type} [Fintype α] [Fintype β] (A : MatProj α β), IsAdjoint A.fp A.bp := by
    intro α β _ _ A x y
    unfold dot MatProj.fp MatProj.bp
    simp_rw [sum_mul, mul_sum]
    rw [sum_comm]
    exact sum_congr rfl fun j _ => sum_congr rfl fun i _ => by ring
  exact ⟨key A, key A.T⟩
end

variable {κ : Type} [Fintype κ] [DecidableEq κ] {n : κ → ℕ}

private theorem neg_unit (a : κ) : (fun k => -unitAx a k) = fun k => (-1 : ℤ) * unitAx a k := by
  funext k; ring

/-- Indicator that the neighbour at offset `s` lies outside the array. -/
private def outside (p : Idx n) (s : κ → ℤ) : ℝ := if shiftIdx p s = none then 1 else 0

private theorem edge_eq (x : Arr (Idx n)) (p : Idx n) (a : κ) (σ : ℤ) (hσ : σ = 1 ∨ σ = -1) :
    padGet .edge x p (fun k => σ * unitAx a k) =
      padGet .constant x p (fun k => σ * unitAx a k) + outside p (fun k => σ * unitAx a k) * x p := by
  rw [padGet_edge_unit x p a σ hσ]
  unfold outside padGet
  cases h : shiftIdx p (fun k => σ * unitAx a k) <;> simp

private theorem shift_pm {mode : PadMode} (hm : mode ≠ .edge) (s : κ → ℤ) (x y : Arr (Idx n)) :
    ∑ p, padGet mode x p s * y p = ∑ p, x p * padGet mode y p (fun k => -s k) := by
  cases mode with
  | edge => exact absurd rfl hm
  | constant => exact sum_shift_constant s x y
  | wrap => exact sum_shift_wrap s x y

/-- The gradient with zero or periodic padding, along any list of axes, for any shape. -/
theorem C27_gradient {mode : PadMode} (hm : mode ≠ .edge) {m : ℕ} (axes : Fin m → κ) :
    IsAdjoint (gradient (n := n) mode axes) (gradientAdjoint mode axes) := by
  intro x y
  unfold dot gradientAdjoint divergence gradient
  rw [Fintype.sum_prod_type]
  simp only [mul_neg, mul_sum, ← sum_neg_distrib]
  rw [sum_comm (s := univ (α := Idx n))]
  refine sum_congr rfl fun i _ => ?_
  simp only [sub_mul, mul_sub, neg_sub, sum_sub_distrib]
  rw [shift_pm hm (unitAx (axes i)) x fun p => y (i, p)]

/-- The Laplacian is its own adjoint, with every padding mode, along any list of axes, for any shape. -/
theorem C27_laplacian (mode : PadMode) {m : ℕ} (axes : Fin m → κ) :
    IsAdjoint (laplacian (n := n) mode axes) (laplacian mode axes) := by
  intro x y
  unfold dot laplacian
  simp only [sum_mul, mul_sum]
  rw [sum_comm, sum_comm (s := univ (α := Idx n))]
  refine sum_congr rfl fun i _ => ?_
  simp only [sub_mul, mul_sub, add_mul, mul_add, sum_add_distrib, sum_sub_distrib]
  have hmid : ∑ p, 2 * x p * y p = ∑ p, x p * (2 * y p) := sum_congr rfl fun p _ => by ring
  rw [hmid]
  by_cases hm : mode = .edge
  · subst hm
    have e1 : unitAx (axes i) = fun k => (1 : ℤ) * unitAx (axes i) k := by funext k; ring
    have s1 := sum_shift_constant (unitAx (axes i)) x y
    have s2 := sum_shift_constant (fun k => -unitAx (axes i) k) x y
    simp only [neg_neg] at s2
    rw [neg_unit] at s1 s2
    rw [neg_unit]
    have a1 : ∀ z : Arr (Idx n), ∀ p, padGet .edge z p (unitAx (axes i)) =
        padGet .constant z p (unitAx (axes i)) + outside p (unitAx (axes i)) * z p := by
      intro z p
      have := edge_eq z p (axes i) 1 (Or.inl rfl)
      rwa [← e1] at this
    simp only [a1, edge_eq _ _ _ (-1) (Or.inr rfl), add_mul, mul_add, sum_add_distrib]
    change ∑ p, padGet .constant x p (unitAx (axes i)) * y p = _ at s1
    change ∑ p, padGet .constant x p (fun k => (-1 : ℤ) * unitAx (axes i) k) * y p =
      ∑ p, x p * padGet .constant y p (unitAx (axes i)) at s2
    rw [s1, s2]
    have b : ∀ s : κ → ℤ, ∑ p, outside p s * x p * y p = ∑ p, x p * (outside p s * y p) := fun s =>
      sum_congr rfl fun p _ => by ring
    rw [b, b]
    ring
  · rw [shift_pm hm (unitAx (axes i)) x y, shift_pm hm (fun k => -unitAx (axes i) k) x y]
    simp only [neg_neg]
    change _ - _ + ∑ p, x p * padGet mode y p (unitAx (axes i)) = _
    ring

/-! ### Convolution -/

/-- The offset at which kernel element `j` reads. -/
private def off {w : κ → ℕ} (j : Idx w) : κ → ℤ := fun k => ((w k - 1) / 2 : ℕ) - (j k : ℤ)

private theorem conv_eq {w : κ → ℕ} (hw : ∀ k, w k % 2 = 1) {mode : PadMode} (ker : Arr (Idx w)) (x : Arr (Idx n)) (p : Idx n) :
    convolveSame mode ker x p = ∑ j, ker j * padGet mode x p (off j) := by
  unfold convolveSame
  refine sum_congr rfl fun j _ => ?_
  dsimp only
  rw [if_pos]
  · rfl
  · intro k
    have := (p k).isLt
    have := (j k).isLt
    have := hw k
    omega

private theorem off_rev {w : κ → ℕ} (hw : ∀ k, w k % 2 = 1) (j : Idx w) : off (fun k => (j k).rev) = fun k => -off j k := by
  funext k
  unfold off
  have := (j k).isLt
  have := hw k
  simp only [Fin.val_rev]
  omega

private theorem conv_adjoint {w : κ → ℕ} (hw : ∀ k, w k % 2 = 1) {mode : PadMode} (hm : mode ≠ .edge) (ker : Arr (Idx w)) :
    IsAdjoint (convolveSame (n := n) mode ker) (convolveSame mode (flipKernel ker)) := by
  intro x y
  unfold dot
  simp only [conv_eq hw, sum_mul, mul_sum]
  rw [sum_comm, sum_comm (s := univ (α := Idx n))]
  let e : Idx w ≃ Idx w := ⟨fun j k => (j k).rev, fun j k => (j k).rev, fun j => by simp, fun j => by simp⟩
  rw [← Equiv.sum_comp e]
  refine sum_congr rfl fun j _ => ?_
  have h := shift_pm hm (off (e j)) x y
  have he : off (e j) = fun k => -off j k := off_rev hw j
  simp only [he, neg_neg] at h
  change _ = ∑ p, x p * padGet mode y p (off j) at h
  have h2 : ∀ p, ker (e j) * padGet mode x p (fun k => -off j k) * y p =
      ker (e j) * (padGet mode x p (fun k => -off j k) * y p) := fun p => by ring
  have h3 : ∀ p, x p * (flipKernel ker j * padGet mode y p (off j)) = ker (e j) * (x p * padGet mode y p (off j)) :=
    fun p => by unfold flipKernel; change _ * (ker (e j) * _) = _; ring
  rw [he]
  simp only [h2, h3, ← mul_sum]
  rw [h]

/-- A convolution with odd kernel sizes and zero or periodic padding: with `flip_adjoint` for every kernel, and with the
default `flip_adjoint=False` for every centrally symmetric kernel. -/
theorem C27_convolution {w : κ → ℕ} (hw : ∀ k, w k % 2 = 1) (c : Convolution w) (hm : c.padMode ≠ .edge)
    (hs : c.isSymm = true) (hf : c.flipAdjoint = true ∨ ∀ j : Idx w, c.kernel (fun k => (j k).rev) = c.kernel j) :
    IsAdjoint (c.direct (n := n)) c.adjoint := by
  intro x y
  unfold Convolution.direct Convolution.adjoint
  rw [if_pos hs]
  have h := conv_adjoint (n := n) hw hm c.kernel x y
  rcases hf with hf | hf
  · rw [if_pos hf]; exact h
  · have : flipKernel c.kernel = c.kernel := funext hf
    rw [this] at h
    by_cases hfl : c.flipAdjoint = true
    · rw [if_pos hfl, this]; exact h
    · rw [if_neg hfl]; exact h

/-! ### Fourier -/

private theorem re_sum_mul (z : Idx n → ℂ) (x : Arr (Idx n)) :
    (∑ p, z p * x p).re = ∑ p, (z p).re * x p ∧ (∑ p, z p * x p).im = ∑ p, (z p).im * x p := by
  constructor
  · rw [Complex.re_sum]
    exact sum_congr rfl fun p _ => by simp
  · rw [Complex.im_sum]
    exact sum_congr rfl fun p _ => by simp

/-- The orthonormal Fourier transform along any set of axes. -/
theorem C27_fourier (axes : Finset κ) : IsAdjoint (fourier (n := n) axes) (fourierAdjoint axes) := by
  intro x y
  unfold dot fourier fourierAdjoint
  rw [Fintype.sum_prod_type, Fin.sum_univ_two]
  simp only [if_true, one_ne_zero, if_false, (re_sum_mul _ x).1, (re_sum_mul _ x).2, sum_mul, ← sum_add_distrib]
  rw [sum_comm]
  refine sum_congr rfl fun p _ => ?_
  rw [Complex.re_sum, mul_sum]
  refine sum_congr rfl fun k _ => ?_
  simp only [Complex.mul_re, Complex.add_re, Complex.add_im, Complex.conj_re, Complex.conj_im, Complex.ofReal_re,
    Complex.ofReal_im, Complex.I_re, Complex.I_im, Complex.mul_im]
  ring


private theorem geom_root {N : ℕ} (p q : Fin N) :
    ∑ k : Fin N, (starRingEnd ℂ) (Complex.exp (-(2 * Real.pi * Complex.I * (k : ℕ) * (p : ℕ) / (N : ℕ))) / Real.sqrt N) *
      (Complex.exp (-(2 * Real.pi * Complex.I * (k : ℕ) * (q : ℕ) / (N : ℕ))) / Real.sqrt N) = if p = q then 1 else 0 := by
  have hN : 0 < N := lt_of_le_of_lt (Nat.zero_le _) p.isLt
  have hNc : (N : ℂ) ≠ 0 := by exact_mod_cast hN.ne'
  have hs : ((Real.sqrt N : ℝ) : ℂ) * (Real.sqrt N : ℝ) = N := by
    rw [← Complex.ofReal_mul, Real.mul_self_sqrt (Nat.cast_nonneg N)]; simp
  set z : ℂ := Complex.exp (2 * Real.pi * Complex.I * (((p : ℕ) : ℂ) - (q : ℕ)) / N) with hz
  have term : ∀ k : Fin N, (starRingEnd ℂ) (Complex.exp (-(2 * Real.pi * Complex.I * (k : ℕ) * (p : ℕ) / (N : ℕ))) / Real.sqrt N) *
      (Complex.exp (-(2 * Real.pi * Complex.I * (k : ℕ) * (q : ℕ) / (N : ℕ))) / Real.sqrt N) = z ^ (k : ℕ) / N := by
    intro k
    rw [map_div₀, ← Complex.exp_conj, Complex.conj_ofReal, div_mul_div_comm, hs, ← Complex.exp_add, hz, ← Complex.exp_nat_mul]
    congr 2
    simp only [map_neg, map_div₀, map_mul, Complex.conj_I, Complex.conj_ofReal, map_natCast, map_ofNat]
    field_simp
    ring
  rw [sum_congr rfl fun k _ => term k, ← sum_div, Fin.sum_univ_eq_sum_range (fun k => z ^ k) N]
  by_cases hpq : p = q
  · have : z = 1 := by rw [hz, hpq]; simp
    rw [this, if_pos hpq]
    simp [hNc]
  · rw [if_neg hpq]
    have hzN : z ^ N = 1 := by
      rw [hz, ← Complex.exp_nat_mul, Complex.exp_eq_one_iff]
      refine ⟨(p : ℤ) - (q : ℤ), ?_⟩
      push_cast
      field_simp
    have hz1 : z ≠ 1 := by
      intro h
      rw [hz, Complex.exp_eq_one_iff] at h
      obtain ⟨m, hm⟩ := h
      have h2 : (2 * Real.pi * Complex.I : ℂ) ≠ 0 := Complex.two_pi_I_ne_zero
      have h3 : (((p : ℕ) : ℂ) - (q : ℕ)) = m * N := by
        field_simp at hm
        have h4 : (2 * Real.pi * Complex.I : ℂ) * (((p : ℕ) : ℂ) - (q : ℕ)) = 2 * Real.pi * Complex.I * (m * N) := by
          linear_combination (2 * Real.pi * Complex.I) * hm
        exact mul_left_cancel₀ h2 h4
      have h4 : ((p : ℕ) : ℤ) - (q : ℕ) = m * N := by exact_mod_cast h3
      have hp := p.isLt
      have hq := q.isLt
      have hm0 : m = 0 := by
        rcases lt_trichotomy m 0 with h | h | h
        · nlinarith
        · exact h
        · nlinarith
      rw [hm0] at h4
      apply hpq
      apply Fin.ext
      omega
    rw [geom_sum_eq hz1, hzN]
    simp

/-- Orthonormality of the transform's kernel. -/
theorem kernel_ortho (axes : Finset κ) (p q : Idx n) :
    ∑ k, (starRingEnd ℂ) (fftKernel axes k p) * fftKernel axes k q = if p = q then 1 else 0 := by
  unfold fftKernel
  simp only [map_prod, ← prod_mul_distrib]
  have h := Finset.prod_univ_sum (fun a : κ => (univ : Finset (Fin (n a))))
    (fun a (ka : Fin (n a)) => (starRingEnd ℂ) (if a ∈ axes then
        Complex.exp (-(2 * Real.pi * Complex.I * (ka : ℕ) * (p a : ℕ) / (n a : ℕ))) / Real.sqrt (n a)
        else if ka = p a then 1 else 0) *
      (if a ∈ axes then Complex.exp (-(2 * Real.pi * Complex.I * (ka : ℕ) * (q a : ℕ) / (n a : ℕ))) / Real.sqrt (n a)
        else if ka = q a then 1 else 0))
  rw [Fintype.piFinset_univ] at h
  rw [← h]
  have each : ∀ a, (∑ ka : Fin (n a), (starRingEnd ℂ) (if a ∈ axes then
        Complex.exp (-(2 * Real.pi * Complex.I * (ka : ℕ) * (p a : ℕ) / (n a : ℕ))) / Real.sqrt (n a)
        else if ka = p a then 1 else 0) *
      (if a ∈ axes then Complex.exp (-(2 * Real.pi * Complex.I * (ka : ℕ) * (q a : ℕ) / (n a : ℕ))) / Real.sqrt (n a)
        else if ka = q a then 1 else 0)) = if p a = q a then 1 else 0 := by
    intro a
    by_cases ha : a ∈ axes
    · simp only [if_pos ha]
      exact geom_root (p a) (q a)
    · simp only [if_neg ha]
      by_cases hpq : p a = q a
      · simp [hpq]
      · have : ∀ ka : Fin (n a), (starRingEnd ℂ) (if ka = p a then (1 : ℂ) else 0) * (if ka = q a then 1 else 0) = 0 := by
          intro ka
          by_cases h1 : ka = p a
          · subst h1; simp [hpq]
          · simp [h1]
        simp only [this, sum_const_zero, if_neg hpq]
  rw [prod_congr rfl fun a _ => each a]
  by_cases hpq : p = q
  · simp [hpq]
  · rw [if_neg hpq]
    obtain ⟨a, ha⟩ := Function.ne_iff.1 hpq
    exact prod_eq_zero (mem_univ a) (if_neg ha)

/-- The Fourier operator is an isometry: its transpose inverts it, and it preserves inner products (Parseval). -/
theorem C27_fourier_isometry (axes : Finset κ) (x y : Arr (Idx n)) :
    fourierAdjoint axes (fourier axes x) = x ∧ dot (fourier axes x) (fourier axes y) = dot x y := by
  have h1 : ∀ x : Arr (Idx n), fourierAdjoint axes (fourier axes x) = x := by
    intro x
    funext p
    unfold fourierAdjoint fourier
    simp only [if_true, one_ne_zero, if_false]
    have hc : ∀ z : ℂ, ((z.re : ℂ) + Complex.I * (z.im : ℂ)) = z := fun z => by
      rw [mul_comm]; exact Complex.re_add_im z
    simp only [hc, mul_sum]
    rw [sum_comm]
    have : ∀ q, ∑ k, (starRingEnd ℂ) (fftKernel axes k p) * (fftKernel axes k q * (x q : ℂ)) =
        (if p = q then 1 else 0) * (x q : ℂ) := by
      intro q
      rw [← kernel_ortho axes p q, sum_mul]
      exact sum_congr rfl fun k _ => by ring
    simp only [this]
    simp
  refine ⟨h1 x, ?_⟩
  rw [C27_fourier axes x (fourier axes y), h1 y]

example : IsAdjoint (gradient (n := ![2, 5, 3]) .wrap ![0, 2]) (gradientAdjoint .wrap ![0, 2]) :=
  C27_gradient (by decide) _

example : IsAdjoint ((⟨fun j => (j 0 : ℕ), .constant, true, true⟩ : Convolution ![3, 5]).direct (n := ![4, 2]))
    (Convolution.adjoint (w := ![3, 5]) ⟨fun j => (j 0 : ℕ), .constant, true, true⟩) :=
  C27_convolution (by decide) _ (by decide) rfl (Or.inl rfl)

end Verif
