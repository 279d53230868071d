import Verif.Spec.Operators
import Mathlib.Analysis.Asymptotics.SpecificAsymptotics
import Mathlib.Analysis.Convex.Jensen
import Mathlib.Analysis.Convex.Continuous
import Mathlib.Topology.Algebra.Module.FiniteDimension

/-! # The average of a dual iteration certifies a subgradient at the limit of the primal one -/

namespace Verif
open Finset Filter Topology

variable {ν δ : Type} [Fintype ν] [Fintype δ]

theorem linear_continuous {K : Arr ν → Arr δ} (h : IsLinear K) : Continuous K := by
  let L : (ν → ℝ) →ₗ[ℝ] (δ → ℝ) :=
    { toFun := K
      map_add' := fun x y => by
        have := h 1 1 x y
        simp only [one_mul] at this
        exact this
      map_smul' := fun c x => by
        have := h c 0 x x
        simp only [zero_mul, add_zero] at this
        exact this }
  exact L.continuous_of_finiteDimensional

private theorem sq_step (a b : Arr δ) : (∑ k, b k ^ 2 - ∑ k, a k ^ 2) / 2 ≤ ∑ k, b k * (b k - a k) := by
  rw [← sum_sub_distrib, sum_div]
  exact sum_le_sum fun k _ => by nlinarith [sq_nonneg (b k - a k)]

private theorem one_step {K : Arr ν → Arr δ} {Kt : Arr δ → Arr ν} {H : Arr δ → ℝ} (hadj : IsAdjoint K Kt)
    {σ : ℝ} (hσ : 0 < σ) {R : Arr δ → Arr δ}
    (hR : ∀ u z, H (fun k => (u k - R u k) / σ) + ∑ k, R u k * (z k - (u k - R u k) / σ) ≤ H z)
    {a b : Arr δ} {y : Arr ν} (hb : b = R fun k => a k + σ * K y k) (z : Arr ν) :
    H (fun k => K y k + (a k - b k) / σ) + (∑ j, Kt b j * (z j - y j) + (∑ k, b k ^ 2 - ∑ k, a k ^ 2) / (2 * σ)) ≤ H (K z) := by
  have h := hR (fun k => a k + σ * K y k) (K z)
  rw [← hb] at h
  have e : ∀ k, (a k + σ * K y k - b k) / σ = K y k + (a k - b k) / σ := fun k => by field_simp; ring
  simp only [e] at h
  refine le_trans (add_le_add_right ?_ _) h
  have h1 : ∑ j, Kt b j * (z j - y j) = ∑ k, b k * (K z k - K y k) := by
    have a1 : ∑ k, K z k * b k = ∑ j, z j * Kt b j := hadj z b
    have a2 : ∑ k, K y k * b k = ∑ j, y j * Kt b j := hadj y b
    simp only [mul_sub, sum_sub_distrib]
    have c1 : ∑ j, Kt b j * z j = ∑ j, z j * Kt b j := sum_congr rfl fun j _ => mul_comm _ _
    have c2 : ∑ j, Kt b j * y j = ∑ j, y j * Kt b j := sum_congr rfl fun j _ => mul_comm _ _
    have c3 : ∑ k, b k * K z k = ∑ k, K z k * b k := sum_congr rfl fun j _ => mul_comm _ _
    have c4 : ∑ k, b k * K y k = ∑ k, K y k * b k := sum_congr rfl fun j _ => mul_comm _ _
    rw [c1, c2, c3, c4]
    linarith
  have h2 : ∑ k, b k * (K z k - (K y k + (a k - b k) / σ)) =
      ∑ k, b k * (K z k - K y k) + (∑ k, b k * (b k - a k)) / σ := by
    rw [sum_div, ← sum_add_distrib]
    exact sum_congr rfl fun k _ => by field_simp; ring
  rw [h1, h2]
  have h3 := sq_step a b
  have : (∑ k, b k ^ 2 - ∑ k, a k ^ 2) / (2 * σ) = (∑ k, b k ^ 2 - ∑ k, a k ^ 2) / 2 / σ := by field_simp
  rw [this]
  gcongr

private theorem summed {h A Q : ℕ → ℝ} {c s : ℝ} (hs : ∀ n, h n + (A n + (Q (n + 1) - Q n) / s) ≤ c) (N : ℕ) :
    ∑ n ∈ range N, h n + (∑ n ∈ range N, A n + (Q N - Q 0) / s) ≤ N * c := by
  induction N with
  | zero => simp
  | succ N ih =>
    rw [sum_range_succ, sum_range_succ]
    push_cast
    have := hs N
    have e : (Q (N + 1) - Q 0) / s = (Q (N + 1) - Q N) / s + (Q N - Q 0) / s := by ring
    rw [e]
    linarith

private theorem averaged {K : Arr ν → Arr δ} {Kt : Arr δ → Arr ν} {H : Arr δ → ℝ} (hadj : IsAdjoint K Kt)
    (hH : ConvexOn ℝ Set.univ H) {σ : ℝ} (hσ : 0 < σ) {R : Arr δ → Arr δ}
    (hR : ∀ u z, H (fun k => (u k - R u k) / σ) + ∑ k, R u k * (z k - (u k - R u k) / σ) ≤ H z)
    {q : ℕ → Arr δ} {y : ℕ → Arr ν} (hq : ∀ n, q (n + 1) = R fun k => q n k + σ * K (y n) k) (z : Arr ν) {N : ℕ} (hN : 0 < N) :
    H (fun k => (N : ℝ)⁻¹ * ∑ n ∈ range N, K (y n) k + (q 0 k - q N k) / (σ * N)) +
      ((N : ℝ)⁻¹ * ∑ n ∈ range N, ∑ j, Kt (q (n + 1)) j * (z j - y n j) + (∑ k, q N k ^ 2 - ∑ k, q 0 k ^ 2) / (2 * σ * N)) ≤
      H (K z) := by
  have h1 := summed (h := fun n => H fun k => K (y n) k + (q n k - q (n + 1) k) / σ)
    (A := fun n => ∑ j, Kt (q (n + 1)) j * (z j - y n j)) (Q := fun n => ∑ k, q n k ^ 2) (s := 2 * σ)
    (fun n => one_step hadj hσ hR (hq n) z) N
  have hN' : (0 : ℝ) < N := by exact_mod_cast hN
  have hJ := hH.map_sum_le (t := range N) (w := fun _ => (N : ℝ)⁻¹)
    (p := fun n => (fun k => K (y n) k + (q n k - q (n + 1) k) / σ : Arr δ)) (fun _ _ => by positivity)
    (by simp [hN'.ne']) (fun _ _ => Set.mem_univ _)
  have e : (∑ n ∈ range N, (N : ℝ)⁻¹ • (fun k => K (y n) k + (q n k - q (n + 1) k) / σ : Arr δ)) =
      fun k => (N : ℝ)⁻¹ * ∑ n ∈ range N, K (y n) k + (q 0 k - q N k) / (σ * N) := by
    funext k
    rw [Finset.sum_apply]
    simp only [Pi.smul_apply, smul_eq_mul, ← mul_sum, sum_add_distrib, ← sum_div]
    rw [Finset.sum_range_sub' (fun n => q n k)]
    field_simp
  rw [e] at hJ
  simp only [smul_eq_mul, ← mul_sum] at hJ
  have h2 := mul_le_mul_of_nonneg_left h1 (inv_nonneg.2 hN'.le)
  have e2 : (∑ k, q N k ^ 2 - ∑ k, q 0 k ^ 2) / (2 * σ * N) = (N : ℝ)⁻¹ * ((∑ k, q N k ^ 2 - ∑ k, q 0 k ^ 2) / (2 * σ)) := by
    field_simp
  rw [e2]
  rw [mul_add, mul_add, inv_mul_cancel_left₀ hN'.ne'] at h2
  linarith

private theorem cesaro_fun {α : Type} {u : ℕ → Arr α} {l : Arr α} (h : ∀ k, Tendsto (fun n => u n k) atTop (𝓝 (l k))) (k : α) :
    Tendsto (fun N : ℕ => (N : ℝ)⁻¹ * ∑ n ∈ range N, u n k) atTop (𝓝 (l k)) := (h k).cesaro

private theorem dual_small {q : ℕ → Arr δ} {m : Arr δ} {C : ℕ → ℝ} {c σ : ℝ} (hC : Tendsto C atTop (𝓝 c))
    (h : ∀ N : ℕ, 0 < N → (∑ k, q N k ^ 2) / (2 * σ * N) ≤ C N + ∑ k, m k * q N k / (σ * N)) (hσ : 0 < σ) (k : δ) :
    Tendsto (fun N : ℕ => q N k / N) atTop (𝓝 0) := by
  have hb : ∀ N : ℕ, 0 < N → ((q N k - m k) / N) ^ 2 ≤ 2 * σ * C N * (1 / (N : ℝ)) + (∑ k, m k ^ 2) * (1 / (N : ℝ) ^ 2) := by
    intro N hN
    have hN' : (0 : ℝ) < N := by exact_mod_cast hN
    have h1 := mul_le_mul_of_nonneg_left (h N hN) (show (0 : ℝ) ≤ 2 * σ / N by positivity)
    have e1 : 2 * σ / N * ((∑ k, q N k ^ 2) / (2 * σ * N)) = (∑ k, q N k ^ 2) / (N : ℝ) ^ 2 := by field_simp
    have e2 : 2 * σ / N * (C N + ∑ k, m k * q N k / (σ * N)) = 2 * σ * C N * (1 / (N : ℝ)) + 2 * (∑ k, m k * q N k) / (N : ℝ) ^ 2 := by
      rw [← sum_div]; field_simp
    rw [e1, e2] at h1
    have h2 : (q N k - m k) ^ 2 ≤ ∑ k, (q N k - m k) ^ 2 :=
      single_le_sum (f := fun k => (q N k - m k) ^ 2) (fun _ _ => sq_nonneg _) (mem_univ k)
    have e3 : ∑ k, (q N k - m k) ^ 2 = ∑ k, q N k ^ 2 - 2 * (∑ k, m k * q N k) + ∑ k, m k ^ 2 := by
      rw [mul_sum, ← sum_sub_distrib, ← sum_add_distrib]
      exact sum_congr rfl fun k _ => by ring
    rw [div_pow, div_le_iff₀ (by positivity)]
    rw [e3] at h2
    have h4 : (∑ k, q N k ^ 2) ≤ (2 * σ * C N * (1 / (N : ℝ)) + 2 * (∑ k, m k * q N k) / (N : ℝ) ^ 2) * (N : ℝ) ^ 2 := by
      rwa [div_le_iff₀ (by positivity)] at h1
    have e5 : (2 * σ * C N * (1 / (N : ℝ)) + 2 * (∑ k, m k * q N k) / (N : ℝ) ^ 2) * (N : ℝ) ^ 2 =
      2 * σ * C N * N + 2 * (∑ k, m k * q N k) := by field_simp
    have e6 : (2 * σ * C N * (1 / (N : ℝ)) + (∑ k, m k ^ 2) * (1 / (N : ℝ) ^ 2)) * (N : ℝ) ^ 2 =
      2 * σ * C N * N + ∑ k, m k ^ 2 := by field_simp
    rw [e5] at h4
    rw [e6]
    linarith
  have hN1 : Tendsto (fun N : ℕ => 1 / (N : ℝ)) atTop (𝓝 0) := tendsto_one_div_atTop_nhds_zero_nat
  have hN2 : Tendsto (fun N : ℕ => 1 / (N : ℝ) ^ 2) atTop (𝓝 0) := by
    have := hN1.pow 2
    simp only [div_pow, one_pow, ne_eq, OfNat.ofNat_ne_zero, not_false_eq_true, zero_pow] at this
    exact this
  have hup : Tendsto (fun N : ℕ => 2 * σ * C N * (1 / (N : ℝ)) + (∑ k, m k ^ 2) * (1 / (N : ℝ) ^ 2)) atTop (𝓝 0) := by
    have := ((hC.const_mul (2 * σ)).mul hN1).add (hN2.const_mul (∑ k, m k ^ 2))
    simpa using this
  have hsq : Tendsto (fun N : ℕ => ((q N k - m k) / N) ^ 2) atTop (𝓝 0) :=
    squeeze_zero' (Eventually.of_forall fun N => sq_nonneg _) (eventually_atTop.2 ⟨1, fun N hN => hb N hN⟩) hup
  have habs : Tendsto (fun N : ℕ => (q N k - m k) / N) atTop (𝓝 0) := by
    have := hsq.sqrt
    simp only [Real.sqrt_zero, Real.sqrt_sq_eq_abs] at this
    exact tendsto_zero_iff_abs_tendsto_zero _ |>.2 this
  have := habs.add (hN1.const_mul (m k))
  simp only [mul_zero, add_zero] at this
  refine this.congr fun N => ?_
  ring

/-- If a dual sequence is driven by proximal steps at primal points that converge to `x`, and its back-transforms converge
to `-g`, then `-g` is a subgradient of `H ∘ K` at `x`. -/
theorem dual_average {K : Arr ν → Arr δ} {Kt : Arr δ → Arr ν} {H : Arr δ → ℝ} (hlin : IsLinear K) (hadj : IsAdjoint K Kt)
    (hH : ConvexOn ℝ Set.univ H) {σ : ℝ} (hσ : 0 < σ) {R : Arr δ → Arr δ}
    (hR : ∀ u z, H (fun k => (u k - R u k) / σ) + ∑ k, R u k * (z k - (u k - R u k) / σ) ≤ H z)
    {q : ℕ → Arr δ} {y : ℕ → Arr ν} (hq : ∀ n, q (n + 1) = R fun k => q n k + σ * K (y n) k)
    {x g : Arr ν} (hy : Tendsto y atTop (𝓝 x)) (hg : Tendsto (fun n => Kt (q (n + 1))) atTop (𝓝 fun j => -g j)) (z : Arr ν) :
    H (K x) - ∑ j, g j * (z j - x j) ≤ H (K z) := by
  have hKy : ∀ k, Tendsto (fun n => K (y n) k) atTop (𝓝 (K x k)) := fun k =>
    tendsto_pi_nhds.1 (((linear_continuous hlin).tendsto x).comp hy) k
  have hmK := cesaro_fun hKy
  have hA : Tendsto (fun n => ∑ j, Kt (q (n + 1)) j * (z j - y n j)) atTop (𝓝 (∑ j, -g j * (z j - x j))) :=
    tendsto_finset_sum _ fun j _ => (tendsto_pi_nhds.1 hg j).mul (tendsto_const_nhds.sub (tendsto_pi_nhds.1 hy j))
  have hmA := hA.cesaro
  have hav := fun N hN => averaged (N := N) hadj hH hσ hR hq z hN
  have hN1 : Tendsto (fun N : ℕ => 1 / (N : ℝ)) atTop (𝓝 0) := tendsto_one_div_atTop_nhds_zero_nat
  -- the dual grows slower than the number of iterations
  have hR0 := hR (fun _ => 0)
  set v0 : Arr δ := fun k => (0 - R (fun _ => 0) k) / σ
  set m0 : Arr δ := R fun _ => 0
  have hsmall : ∀ k, Tendsto (fun N : ℕ => q N k / N) atTop (𝓝 0) := by
    let C : ℕ → ℝ := fun N => H (K z) - H v0 + ∑ k, m0 k * v0 k -
      ∑ k, m0 k * ((N : ℝ)⁻¹ * ∑ n ∈ range N, K (y n) k + q 0 k / σ * (1 / (N : ℝ))) -
      (N : ℝ)⁻¹ * ∑ n ∈ range N, ∑ j, Kt (q (n + 1)) j * (z j - y n j) + (∑ k, q 0 k ^ 2) / (2 * σ) * (1 / (N : ℝ))
    have hC : Tendsto C atTop (𝓝 (H (K z) - H v0 + ∑ k, m0 k * v0 k - ∑ k, m0 k * (K x k + q 0 k / σ * 0) -
        ∑ j, -g j * (z j - x j) + (∑ k, q 0 k ^ 2) / (2 * σ) * 0)) := by
      refine Tendsto.add (Tendsto.sub (Tendsto.sub tendsto_const_nhds ?_) hmA) (hN1.const_mul _)
      exact tendsto_finset_sum _ fun k _ => ((hmK k).add (hN1.const_mul _)).const_mul _
    refine fun k => dual_small (m := m0) hC (fun N hN => ?_) hσ k
    have hN' : (0 : ℝ) < N := by exact_mod_cast hN
    have h1 := hav N hN
    have h2 := hR0 (fun k => (N : ℝ)⁻¹ * ∑ n ∈ range N, K (y n) k + (q 0 k - q N k) / (σ * N))
    have e1 : ∑ k, m0 k * (((N : ℝ)⁻¹ * ∑ n ∈ range N, K (y n) k + (q 0 k - q N k) / (σ * N)) - (0 - m0 k) / σ) =
        ∑ k, m0 k * ((N : ℝ)⁻¹ * ∑ n ∈ range N, K (y n) k + q 0 k / σ * (1 / (N : ℝ))) - ∑ k, m0 k * q N k / (σ * N) -
          ∑ k, m0 k * v0 k := by
      rw [← sum_sub_distrib, ← sum_sub_distrib]
      refine sum_congr rfl fun k _ => ?_
      have : v0 k = (0 - m0 k) / σ := rfl
      rw [this]
      field_simp
      ring
    rw [e1] at h2
    have e2 : (∑ k, q N k ^ 2 - ∑ k, q 0 k ^ 2) / (2 * σ * N) =
        (∑ k, q N k ^ 2) / (2 * σ * N) - (∑ k, q 0 k ^ 2) / (2 * σ) * (1 / (N : ℝ)) := by field_simp
    rw [e2] at h1
    simp only [C]
    linarith
  have hw : Tendsto (fun N : ℕ => (fun k => (N : ℝ)⁻¹ * ∑ n ∈ range N, K (y n) k + (q 0 k - q N k) / (σ * N) : Arr δ)) atTop
      (𝓝 (K x)) := by
    refine tendsto_pi_nhds.2 fun k => ?_
    have h1 := (hmK k).add (((hN1.const_mul (q 0 k)).sub (hsmall k)).const_mul (1 / σ))
    simp only [mul_zero, sub_zero, add_zero] at h1
    refine h1.congr fun N => ?_
    by_cases hN : (N : ℝ) = 0
    · simp [hN]
    · field_simp
  have hHw := (hH.locallyLipschitz.continuous.tendsto (K x)).comp hw
  have hl := (hHw.add hmA).sub (hN1.const_mul ((∑ k, q 0 k ^ 2) / (2 * σ)))
  have hfin : H (K x) + ∑ j, -g j * (z j - x j) - (∑ k, q 0 k ^ 2) / (2 * σ) * 0 ≤ H (K z) := by
    refine le_of_tendsto hl (eventually_atTop.2 ⟨1, fun N hN => ?_⟩)
    have h1 := hav N hN
    have hN' : (0 : ℝ) < N := by exact_mod_cast hN
    have h3 : 0 ≤ (∑ k, q N k ^ 2) / (2 * σ * N) := by positivity
    have e2 : (∑ k, q N k ^ 2 - ∑ k, q 0 k ^ 2) / (2 * σ * N) =
        (∑ k, q N k ^ 2) / (2 * σ * N) - (∑ k, q 0 k ^ 2) / (2 * σ) * (1 / (N : ℝ)) := by field_simp
    rw [e2] at h1
    simp only [Function.comp]
    linarith
  simp only [mul_zero, sub_zero, neg_mul, sum_neg_distrib] at hfin
  linarith

end Verif
