import Verif.Lemmas.Scaling
import Verif.Spec.Solvers

/-! # C13, C64: the power method and the step sizes derived from it -/

namespace Verif
open Classical Finset

variable {ν ι Q : Type} [Fintype ν] [Fintype ι]

/-- Specification: `At` is the adjoint of `A`. -/
def AdjointPair (A : Arr ν → Arr ι) (At : Arr ι → Arr ν) : Prop :=
  ∀ x y, ∑ i, A x i * y i = ∑ j, x j * At y j

/-- Specification: `K` bounds the operator norm of `A` (with respect to the Euclidean norms). -/
def NormBound (A : Arr ν → Arr ι) (K : ℝ) : Prop :=
  0 ≤ K ∧ ∀ x, Real.sqrt (∑ i, A x i ^ 2) ≤ K * Real.sqrt (∑ j, x j ^ 2)

private theorem l2_nonneg {α : Type} [Fintype α] (x : Arr α) : 0 ≤ l2norm x := Real.sqrt_nonneg _

private theorem l2_sq {α : Type} [Fintype α] (x : Arr α) : l2norm x * l2norm x = ∑ i, x i * x i := by
  unfold l2norm
  rw [Real.mul_self_sqrt (sum_nonneg fun i _ => sq_nonneg _)]
  exact sum_congr rfl fun i _ => pow_two _

private theorem cs {α : Type} [Fintype α] (x y : Arr α) : ∑ i, x i * y i ≤ l2norm x * l2norm y :=
  Real.sum_mul_le_sqrt_mul_sqrt _ _ _

private theorem scale {A : Arr ν → Arr ι} {At : Arr ι → Arr ν} (h : AdjointPair A At) (c : ℝ) (x : Arr ν) :
    A (fun j => x j / c) = fun i => A x i / c := by
  have key : ∀ y : Arr ι, ∑ i, (A (fun j => x j / c) i - A x i / c) * y i = 0 := by
    intro y
    simp_rw [sub_mul, sum_sub_distrib]
    rw [h, show ∑ i, A x i / c * y i = (∑ i, A x i * y i) / c by
      rw [sum_div]; exact sum_congr rfl fun i _ => by ring, h, sum_div]
    rw [← sum_sub_distrib]
    exact sum_eq_zero fun j _ => by ring
  have h2 := key fun i => A (fun j => x j / c) i - A x i / c
  rw [sum_eq_zero_iff_of_nonneg fun i _ => mul_self_nonneg _] at h2
  funext i
  have := h2 i (mem_univ i)
  have := mul_self_eq_zero.1 this
  linarith

private theorem l2_div {α : Type} [Fintype α] (x : Arr α) {c : ℝ} (hc : 0 < c) : l2norm (fun i => x i / c) = l2norm x / c := by
  unfold l2norm
  rw [show ∑ i, (x i / c) ^ 2 = (∑ i, x i ^ 2) / c ^ 2 by
    rw [sum_div]; exact sum_congr rfl fun i _ => by rw [div_pow]]
  rw [Real.sqrt_div (sum_nonneg fun i _ => sq_nonneg _), Real.sqrt_sq hc.le]

/-- Loop invariant: the estimate is at most the gain of `A` on the current direction. -/
private def Inv (A : Arr ν → Arr ι) (x : Arr ν) (xNorm L : ℝ) : Prop :=
  xNorm = l2norm x ∧ 0 ≤ L ∧ L * l2norm x ≤ l2norm (A x) ∧ (l2norm x = 0 → L = 0)

private theorem inv_step {A : Arr ν → Arr ι} {At : Arr ι → Arr ν} (h : AdjointPair A At) {x : Arr ν} {n L : ℝ}
    (hI : Inv A x n L) (hn : n ≠ 0) :
    let x' := At (A fun j => x j / n)
    Inv A x' (l2norm x') (Real.sqrt (l2norm x')) ∧ L ≤ Real.sqrt (l2norm x') := by
  obtain ⟨rfl, hL0, hL, -⟩ := hI
  have hpos : 0 < l2norm x := lt_of_le_of_ne (l2_nonneg x) hn.symm
  set z : Arr ν := fun j => x j / l2norm x with hz
  have hz1 : l2norm z = 1 := by rw [hz, l2_div x hpos, div_self hn]
  have hAz : l2norm (A z) = l2norm (A x) / l2norm x := by rw [hz, scale h, l2_div _ hpos]
  have hLz : L ≤ l2norm (A z) := by rw [hAz, le_div_iff₀ hpos]; exact hL
  intro x'
  have e1 : l2norm (A z) * l2norm (A z) ≤ l2norm x' := by
    rw [l2_sq, h]
    have := cs z x'
    rwa [hz1, one_mul] at this
  have e2 : l2norm x' * l2norm x' ≤ l2norm (A z) * l2norm (A x') := by
    rw [l2_sq, ← h]
    have := cs (A x') (A z)
    linarith
  have hs := Real.mul_self_sqrt (l2_nonneg x')
  have hs0 := Real.sqrt_nonneg (l2norm x')
  have hAzs : l2norm (A z) ≤ Real.sqrt (l2norm x') := Real.le_sqrt_of_sq_le (by rw [pow_two]; exact e1)
  refine ⟨⟨rfl, hs0, ?_, fun h0 => by rw [h0, Real.sqrt_zero]⟩, hLz.trans hAzs⟩
  rcases eq_or_lt_of_le hs0 with h0 | h0
  · rw [← h0, zero_mul]; exact l2_nonneg _
  · have h3 : l2norm x' * l2norm x' ≤ Real.sqrt (l2norm x') * l2norm (A x') :=
      e2.trans (mul_le_mul_of_nonneg_right hAzs (l2_nonneg _))
    have h4 : Real.sqrt (l2norm x') * (Real.sqrt (l2norm x') * l2norm x') ≤ Real.sqrt (l2norm x') * l2norm (A x') := by
      rw [← mul_assoc, hs]; exact h3
    exact le_of_mul_le_mul_left h4 h0

private theorem inv_init {A : Arr ν → Arr ι} {At : Arr ι → Arr ν} (h : AdjointPair A At) {rnd : Arr ι}
    (hr : l2norm rnd ≠ 0) : let x := At fun i => rnd i / l2norm rnd; Inv A x (l2norm x) (l2norm x) := by
  intro x
  have hpos : 0 < l2norm rnd := lt_of_le_of_ne (l2_nonneg rnd) hr.symm
  refine ⟨rfl, l2_nonneg _, ?_, id⟩
  rw [l2_sq, ← h]
  have := cs (A x) (fun i => rnd i / l2norm rnd)
  rwa [l2_div rnd hpos, div_self hr, mul_one] at this

private theorem loop_ge {A : Arr ν → Arr ι} {At : Arr ι → Arr ν} (h : AdjointPair A At) :
    ∀ (n : ℕ) (x : Arr ν) (xn L a : ℝ), Inv A x xn L → powerLoop A At n x xn L = .ok a →
      L ≤ a ∧ ∃ x', Inv A x' (l2norm x') a
  | 0, x, xn, L, a, hI, h0 => by
    cases h0
    exact ⟨le_rfl, x, hI.1 ▸ hI⟩
  | n + 1, x, xn, L, a, hI, h0 => by
    rw [powerLoop] at h0
    split_ifs at h0 with hn
    obtain ⟨h1, h2⟩ := inv_step h hI hn
    obtain ⟨h3, h4⟩ := loop_ge h n _ _ _ a h1 h0
    exact ⟨h2.trans h3, h4⟩

private theorem loop_mono {A : Arr ν → Arr ι} {At : Arr ι → Arr ν} (h : AdjointPair A At) :
    ∀ (n k : ℕ) (x : Arr ν) (xn L a b : ℝ), Inv A x xn L → powerLoop A At n x xn L = .ok a →
      powerLoop A At (n + k) x xn L = .ok b → a ≤ b
  | 0, k, x, xn, L, a, b, hI, h0, h1 => by
    cases h0
    exact (loop_ge h _ _ _ _ _ hI h1).1
  | n + 1, k, x, xn, L, a, b, hI, h0, h1 => by
    rw [show n + 1 + k = (n + k) + 1 by omega, powerLoop] at h1
    rw [powerLoop] at h0
    split_ifs at h0 h1 with hn
    exact loop_mono h n k _ _ _ a b (inv_step h hI hn).1 h0 h1

/-- The estimate of the power method never exceeds the operator norm: any `K` with `‖A x‖ ≤ K ‖x‖` for all `x`. -/
theorem C13_power_method_lower_bound {A : Arr ν → Arr ι} {At : Arr ι → Arr ν} (h : AdjointPair A At) {K : ℝ}
    (hK : NormBound A K) (rnd : Arr ι) (n : ℕ) {L : ℝ} (hL : powerMethod A At rnd n = .ok L) : 0 ≤ L ∧ L ≤ K := by
  unfold powerMethod at hL
  split_ifs at hL with hr
  obtain ⟨-, x', hI, h0, h1, h2⟩ := loop_ge h n _ _ _ L (inv_init h hr) hL
  refine ⟨h0, ?_⟩
  rcases eq_or_lt_of_le (l2_nonneg x') with hx | hx
  · rw [h2 hx.symm]; exact hK.1
  · exact le_of_mul_le_mul_right (h1.trans (hK.2 x')) hx

/-- More iterations (with the same random start) never give a smaller estimate. -/
theorem C13_power_method_monotone {A : Arr ν → Arr ι} {At : Arr ι → Arr ν} (h : AdjointPair A At) (rnd : Arr ι)
    {n m : ℕ} (hnm : n ≤ m) {L L' : ℝ} (hL : powerMethod A At rnd n = .ok L) (hL' : powerMethod A At rnd m = .ok L') :
    L ≤ L' := by
  unfold powerMethod at hL hL'
  split_ifs at hL hL' with hr
  obtain ⟨k, rfl⟩ := Nat.exists_eq_add_of_le hnm
  exact loop_mono h n k _ _ _ L L' (inv_init h hr) hL hL'

/-- The estimate is attained: it is at most the gain of `A` on some non-zero volume, unless it is zero. -/
theorem C13_power_method_attained {A : Arr ν → Arr ι} {At : Arr ι → Arr ν} (h : AdjointPair A At) (rnd : Arr ι) (n : ℕ)
    {L : ℝ} (hL : powerMethod A At rnd n = .ok L) (h0 : L ≠ 0) :
    ∃ x : Arr ν, 0 < Real.sqrt (∑ j, x j ^ 2) ∧ L * Real.sqrt (∑ j, x j ^ 2) ≤ Real.sqrt (∑ i, A x i ^ 2) := by
  unfold powerMethod at hL
  split_ifs at hL with hr
  obtain ⟨-, x', hI, -, h1, h2⟩ := loop_ge h n _ _ _ L (inv_init h hr) hL
  exact ⟨x', lt_of_le_of_ne (l2_nonneg x') fun h => h0 (h2 h.symm), h1⟩

/-- Any matrix and its transpose are an adjoint pair. -/
theorem matrix_pair (M : ι → ν → ℝ) : AdjointPair (matrixOp M).fwd (matrixOp M).adj := by
  intro x y
  have := matrix_adjoint M x y
  simp only [matrixOp]
  rw [this]

/-- The diagonal matrix with entries 4 and 1. -/
private noncomputable def diag41 : Fin 2 → Fin 2 → ℝ := fun i j => if i = j then (if i = 0 then 4 else 1) else 0

private theorem diag41_fwd (x : Arr (Fin 2)) : (matrixOp diag41).fwd x = ![4 * x 0, x 1] := by
  funext i; fin_cases i <;> simp [matrixOp, diag41, Fin.sum_univ_two]

private theorem diag41_adj (x : Arr (Fin 2)) : (matrixOp diag41).adj x = ![4 * x 0, x 1] := by
  funext i; fin_cases i <;> simp [matrixOp, diag41, Fin.sum_univ_two]

private theorem l2_e2 : l2norm ![(0 : ℝ), 1] = 1 := by simp [l2norm, Fin.sum_univ_two]

private theorem loop_e2 : ∀ n, powerLoop (matrixOp diag41).fwd (matrixOp diag41).adj n ![0, 1] 1 1 = .ok 1
  | 0 => rfl
  | n + 1 => by
    have h0 : (fun j : Fin 2 => (![(0 : ℝ), 1] j) / (1 : ℝ)) = ![(0 : ℝ), 1] := by funext j; simp
    have h1 : (matrixOp diag41).fwd ![(0 : ℝ), 1] = ![(0 : ℝ), 1] := by
      rw [diag41_fwd]; funext j; fin_cases j <;> simp
    have h2 : (matrixOp diag41).adj ![(0 : ℝ), 1] = ![(0 : ℝ), 1] := by
      rw [diag41_adj]; funext j; fin_cases j <;> simp
    rw [powerLoop, if_neg one_ne_zero]
    dsimp only
    rw [h0, h1, h2, l2_e2, Real.sqrt_one]
    exact loop_e2 n

private theorem power_e2 (n : ℕ) : powerMethod (matrixOp diag41).fwd (matrixOp diag41).adj ![0, 1] n = .ok 1 := by
  have h2 : (matrixOp diag41).adj (fun i => ![(0 : ℝ), 1] i / l2norm ![(0 : ℝ), 1]) = ![(0 : ℝ), 1] := by
    rw [l2_e2, diag41_adj]; funext j; fin_cases j <;> simp
  unfold powerMethod
  rw [l2_e2] at *
  rw [if_neg one_ne_zero]
  dsimp only
  rw [h2, l2_e2]
  exact loop_e2 n

/-- The step sizes computed without preconditioning need not satisfy the convergence condition
`sigma tau ‖A‖² ≤ relaxation²`: with an unlucky random start the estimate stays at 1 for an operator of norm 4, however
many iterations are made, and the product of the step sizes is 16 times too large. -/
theorem C64_lipschitz_scaling_violated :
    ∃ (M : Fin 2 → Fin 2 → ℝ) (rnd : Arr (Fin 2)) (sigma : Arr (Fin 2)) (tau : Arr (Fin 2)) (x : Arr (Fin 2)),
      (∀ i, 0 ≤ rnd i ∧ rnd i ≤ 1) ∧
      lipschitzScaling (Q := Unit) (matrixOp M) rnd [] 1 1 = .ok (sigma, tau) ∧
      ∑ i, sigma i * (matrixOp M).fwd x i ^ 2 = 16 * ∑ j, x j ^ 2 / tau j ∧ 0 < ∑ j, x j ^ 2 / tau j := by
  refine ⟨diag41, ![0, 1], fun _ => 1, fun _ => 1, ![1, 0], ?_, ?_, ?_, ?_⟩
  · intro i; fin_cases i <;> simp
  · unfold lipschitzScaling
    rw [power_e2]
    simp [bind, Except.bind]
  · rw [diag41_fwd]; simp [Fin.sum_univ_two]; norm_num
  · simp [Fin.sum_univ_two]

/-- What holds: whenever the estimate is exact (a bound of the operator norm), the step sizes without regularizers
satisfy the condition, for all relaxations `rs, rt ≥ 0` with product at most 1. -/
theorem C64_lipschitz_scaling_partial (A : Operator ν ι) (rnd : Arr ι) (rs rt : ℝ) (hrs : 0 ≤ rs) (hrt : 0 < rt)
    (hr : rs * rt ≤ 1) {L : ℝ} (hL : powerMethod A.fwd A.adj rnd = .ok L) (hb : NormBound A.fwd L) {sigma tau}
    (h : lipschitzScaling (Q := Q) A rnd [] rs rt = .ok (sigma, tau)) (x : Arr ν) :
    ∑ i, sigma i * A.fwd x i ^ 2 ≤ ∑ j, x j ^ 2 / tau j := by
  unfold lipschitzScaling at h
  rw [hL] at h
  have h0 : L ≠ 0 := by
    intro h0
    simp [bind, Except.bind, h0] at h
  simp [bind, Except.bind, h0] at h
  obtain ⟨rfl, rfl⟩ := h
  have hLpos : 0 < L := lt_of_le_of_ne hb.1 h0.symm
  have hx := hb.2 x
  have hxs : ∑ i, A.fwd x i ^ 2 ≤ L ^ 2 * ∑ j, x j ^ 2 := by
    have := pow_le_pow_left₀ (Real.sqrt_nonneg _) hx 2
    rwa [mul_pow, Real.sq_sqrt (sum_nonneg fun i _ => sq_nonneg _), Real.sq_sqrt (sum_nonneg fun i _ => sq_nonneg _)] at this
  dsimp only
  rw [← mul_sum, ← sum_div]
  have hS : 0 ≤ ∑ j, x j ^ 2 := sum_nonneg fun i _ => sq_nonneg _
  rw [le_div_iff₀ (by positivity)]
  calc (rs / L * ∑ i, A.fwd x i ^ 2) * (rt / L) ≤ rs / L * (L ^ 2 * ∑ j, x j ^ 2) * (rt / L) := by
        have : 0 ≤ rs / L := by positivity
        have h2 : 0 ≤ rt / L := by positivity
        exact mul_le_mul_of_nonneg_right (mul_le_mul_of_nonneg_left hxs this) h2
    _ = rs * rt * ∑ j, x j ^ 2 := by field_simp
    _ ≤ _ := by nlinarith

/-- Non-vacuity: the estimate of a concrete operator and start. -/
example : AdjointPair (matrixOp diag41).fwd (matrixOp diag41).adj ∧ NormBound (matrixOp diag41).fwd 4 ∧
    powerMethod (matrixOp diag41).fwd (matrixOp diag41).adj ![0, 1] 5 = .ok 1 := by
  refine ⟨matrix_pair _, ⟨by norm_num, fun x => ?_⟩, power_e2 5⟩
  rw [diag41_fwd]
  have : Real.sqrt ((4 : ℝ) ^ 2) = 4 := Real.sqrt_sq (by norm_num)
  rw [← this, ← Real.sqrt_mul (by norm_num)]
  apply Real.sqrt_le_sqrt
  simp [Fin.sum_univ_two]
  nlinarith [sq_nonneg (x 1)]

end Verif
