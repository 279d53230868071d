import Verif.Lemmas.ProxGrad
import Mathlib.Topology.MetricSpace.Sequences
import Mathlib.Topology.Algebra.Module.FiniteDimension
import Mathlib.Analysis.Convex.Basic

/-! # Box-constrained weighted least squares: a minimiser always exists, and projected gradient steps converge -/

namespace Verif
open Finset Filter Topology

variable {ν ι : Type} [Fintype ν] [Fintype ι]

theorem wls_continuous (M : ι → ν → ℝ) (s t : Arr ι) : Continuous (wls M s t) := by
  unfold wls
  fun_prop

theorem wgrad_continuous (M : ι → ν → ℝ) (s t : Arr ι) (j : ν) : Continuous fun x => wgrad M s t x j := by
  unfold wgrad
  fun_prop

theorem wls_nonneg {M : ι → ν → ℝ} {s t : Arr ι} (hs : ∀ i, 0 ≤ s i) (x : Arr ν) : 0 ≤ wls M s t x :=
  div_nonneg (sum_nonneg fun i _ => mul_nonneg (hs i) (sq_nonneg _)) (by norm_num)

theorem wls_convex {M : ι → ν → ℝ} {s t : Arr ι} (hs : ∀ i, 0 ≤ s i) (x z : Arr ν) {r : ℝ} (h0 : 0 ≤ r) (h1 : r ≤ 1) :
    wls M s t (fun j => x j + r * (z j - x j)) ≤ (1 - r) * wls M s t x + r * wls M s t z := by
  have e1 := wls_expand M s t x fun j => x j + r * (z j - x j)
  have e2 := wls_expand M s t x z
  have h3 : 0 ≤ ∑ i, s i * (∑ j, M i j * (z j - x j)) ^ 2 := sum_nonneg fun i _ => mul_nonneg (hs i) (sq_nonneg _)
  have e3 : ∑ j, (x j + r * (z j - x j) - x j) * wgrad M s t x j = r * ∑ j, (z j - x j) * wgrad M s t x j := by
    rw [mul_sum]; exact sum_congr rfl fun j _ => by ring
  have e4 : ∑ i, s i * (∑ j, M i j * (x j + r * (z j - x j) - x j)) ^ 2 = r ^ 2 * ∑ i, s i * (∑ j, M i j * (z j - x j)) ^ 2 := by
    rw [mul_sum]
    refine sum_congr rfl fun i _ => ?_
    have : ∑ j, M i j * (x j + r * (z j - x j) - x j) = r * ∑ j, M i j * (z j - x j) := by
      rw [mul_sum]; exact sum_congr rfl fun j _ => by ring
    rw [this]; ring
  rw [e1, e2, e3, e4]
  have h4 : r ^ 2 * ∑ i, s i * (∑ j, M i j * (z j - x j)) ^ 2 ≤ r * ∑ i, s i * (∑ j, M i j * (z j - x j)) ^ 2 :=
    mul_le_mul_of_nonneg_right (by nlinarith) h3
  nlinarith

/-- Squared Euclidean norm. -/
private noncomputable def nsq (x : Arr ν) : ℝ := ∑ j, x j ^ 2

private theorem nsq_continuous : Continuous (nsq : Arr ν → ℝ) := by unfold nsq; fun_prop

private theorem nsq_nonneg (x : Arr ν) : 0 ≤ nsq x := sum_nonneg fun j _ => sq_nonneg _

private theorem sq_le_nsq (x : Arr ν) (j : ν) : x j ^ 2 ≤ nsq x := single_le_sum (f := fun j => x j ^ 2) (fun j _ => sq_nonneg _) (mem_univ j)

private theorem ball_compact (R : ℝ) : IsCompact {x : Arr ν | nsq x ≤ R ^ 2} := by
  have hc : IsCompact (Set.pi Set.univ fun _ : ν => Set.Icc (-|R|) |R|) := isCompact_univ_pi fun _ => isCompact_Icc
  refine hc.of_isClosed_subset (isClosed_le nsq_continuous continuous_const) fun x hx j _ => ?_
  have h1 := (sq_le_nsq x j).trans hx
  have := abs_le_abs (a := x j) (b := |R|) (by
    have := sq_le_sq.1 h1
    exact (le_abs_self _).trans this) (by
    have := sq_le_sq.1 h1
    exact (neg_le_abs _).trans this)
  rw [abs_abs] at this
  exact abs_le.1 this

/-- The minimiser of smallest norm among the volumes of the box in a ball. -/
private theorem ball_min {C : ν → Set ℝ} (hcl : ∀ j, IsClosed (C j)) (M : ι → ν → ℝ) (s t : Arr ι) {y : Arr ν} (hy : ∀ j, y j ∈ C j) {R : ℝ}
    (hR : nsq y ≤ R ^ 2) : ∃ x : Arr ν, (∀ j, x j ∈ C j) ∧ nsq x ≤ R ^ 2 ∧
      (∀ z : Arr ν, (∀ j, z j ∈ C j) → nsq z ≤ R ^ 2 → wls M s t x ≤ wls M s t z) ∧
      ∀ z : Arr ν, (∀ j, z j ∈ C j) → nsq z ≤ R ^ 2 → wls M s t z ≤ wls M s t x → nsq x ≤ nsq z := by
  have hbox : IsClosed {x : Arr ν | ∀ j, x j ∈ C j} := by
    have : {x : Arr ν | ∀ j, x j ∈ C j} = ⋂ j, (fun x : Arr ν => x j) ⁻¹' C j := by ext x; simp
    rw [this]
    exact isClosed_iInter fun j => (hcl j).preimage (continuous_apply j)
  have hK : IsCompact ({x : Arr ν | nsq x ≤ R ^ 2} ∩ {x | ∀ j, x j ∈ C j}) := (ball_compact R).inter_right hbox
  obtain ⟨m, hm, hmin⟩ := hK.exists_isMinOn ⟨y, hR, hy⟩ (wls_continuous M s t).continuousOn
  have hK2 : IsCompact (({x : Arr ν | nsq x ≤ R ^ 2} ∩ {x | ∀ j, x j ∈ C j}) ∩ {x | wls M s t x ≤ wls M s t m}) :=
    hK.inter_right (isClosed_le (wls_continuous M s t) continuous_const)
  obtain ⟨x, ⟨⟨hx1, hx2⟩, hx3⟩, hxmin⟩ := hK2.exists_isMinOn ⟨m, hm, (le_refl _ : wls M s t m ≤ wls M s t m)⟩ nsq_continuous.continuousOn
  refine ⟨x, hx2, hx1, fun z hz hzR => le_trans hx3 (hmin ⟨hzR, hz⟩), fun z hz hzR hle => hxmin ⟨⟨hzR, hz⟩, le_trans hle hx3⟩⟩

/-- Weighted least squares over a product of closed intervals (bounded or not) always has a solution (Frank, Wolfe). -/
theorem box_lsq_exists {C : ν → Set ℝ} (hcl : ∀ j, IsClosed (C j)) (hoc : ∀ j, (C j).OrdConnected) (M : ι → ν → ℝ) {s : Arr ι} (t : Arr ι)
    (hs : ∀ i, 0 ≤ s i) {y : Arr ν} (hy : ∀ j, y j ∈ C j) :
    ∃ x : Arr ν, (∀ j, x j ∈ C j) ∧ ∀ z : Arr ν, (∀ j, z j ∈ C j) → wls M s t x ≤ wls M s t z := by
  obtain ⟨k0, hk0⟩ : ∃ k0 : ℕ, nsq y ≤ k0 := exists_nat_ge _
  have hR : ∀ k : ℕ, nsq y ≤ ((k + k0 + 1 : ℕ) : ℝ) ^ 2 := by
    intro k
    push_cast
    have h1 : (0 : ℝ) ≤ k := Nat.cast_nonneg k
    have h2 : (0 : ℝ) ≤ k0 := Nat.cast_nonneg k0
    nlinarith
  choose x hxC hxR hxmin hxnorm using fun k => ball_min hcl M s t hy (hR k)
  by_cases hin : ∃ k : ℕ, nsq (x k) < ((k + k0 + 1 : ℕ) : ℝ) ^ 2
  · -- an interior minimiser is a global one
    obtain ⟨k, hk⟩ := hin
    refine ⟨x k, hxC k, fun z hz => ?_⟩
    have hcont : Continuous fun r : ℝ => nsq fun j => x k j + r * (z j - x k j) := by unfold nsq; fun_prop
    have h0 : (fun r : ℝ => nsq fun j => x k j + r * (z j - x k j)) 0 < ((k + k0 + 1 : ℕ) : ℝ) ^ 2 := by simpa using hk
    have hev := (hcont.tendsto 0).eventually (gt_mem_nhds h0)
    obtain ⟨δ, hδ, hball⟩ := Metric.eventually_nhds_iff.1 hev
    set r := min (δ / 2) 1 with hr
    have hr0 : 0 < r := lt_min (by linarith) one_pos
    have hr1 : r ≤ 1 := min_le_right _ _
    have hb := hball (y := r) (by rw [Real.dist_eq, sub_zero, abs_of_pos hr0]; exact lt_of_le_of_lt (min_le_left _ _) (by linarith))
    have hmem : ∀ j, x k j + r * (z j - x k j) ∈ C j := by
      intro j
      have hc := (hoc j).convex (hxC k j) (hz j) (sub_nonneg.2 hr1) hr0.le (by ring)
      have e : (1 - r) • x k j + r • z j = x k j + r * (z j - x k j) := by simp only [smul_eq_mul]; ring
      rwa [e] at hc
    have h1 := hxmin k _ hmem hb.le
    have h2 := wls_convex (M := M) (t := t) hs (x k) z hr0.le hr1
    nlinarith
  · -- otherwise the minimisers of smallest norm escape along a direction that is not seen
    exfalso
    push Not at hin
    have heq : ∀ k, nsq (x k) = ((k + k0 + 1 : ℕ) : ℝ) ^ 2 := fun k => le_antisymm (hxR k) (hin k)
    set c : ℕ → ℝ := fun k => ((k + k0 + 1 : ℕ) : ℝ) with hc
    have hcpos : ∀ k, 0 < c k := fun k => by simp only [hc]; positivity
    have hctop : Tendsto c atTop atTop := by
      refine tendsto_atTop_mono (fun k => ?_) tendsto_natCast_atTop_atTop
      simp only [hc]; push_cast
      have h2 : (0 : ℝ) ≤ k0 := Nat.cast_nonneg k0
      linarith
    set u : ℕ → Arr ν := fun k j => x k j / c k with hu
    have hnu : ∀ k, nsq (u k) = 1 := by
      intro k
      have : nsq (u k) = nsq (x k) / c k ^ 2 := by
        simp only [nsq, hu, div_pow, sum_div]
      rw [this, heq]
      exact div_self (pow_pos (hcpos k) 2).ne'
    obtain ⟨d, hd, φ, hφ, hlim⟩ := (ball_compact (ν := ν) 1).tendsto_subseq (x := u) fun k => by simp [hnu]
    have hd1 : nsq d = 1 := tendsto_nhds_unique ((nsq_continuous.tendsto d).comp hlim) (by
      have : (nsq ∘ u ∘ φ) = fun _ => (1 : ℝ) := funext fun k => hnu _
      rw [this]; exact tendsto_const_nhds)
    have hlimj : ∀ j, Tendsto (fun k => x (φ k) j / c (φ k)) atTop (𝓝 (d j)) := fun j => (tendsto_pi_nhds.1 hlim) j
    have hcφ : Tendsto (fun k => c (φ k)) atTop atTop := hctop.comp hφ.tendsto_atTop
    -- the direction is not seen
    have hMd : ∀ i, s i * (∑ j, M i j * d j) ^ 2 = 0 := by
      intro i
      have hbd : ∀ k, s i * (t i - ∑ j, M i j * x k j) ^ 2 ≤ 2 * wls M s t y := by
        intro k
        have h1 := hxmin k y hy (hR k)
        have h2 := single_le_sum (f := fun i => s i * (t i - ∑ j, M i j * x k j) ^ 2) (fun i _ => mul_nonneg (hs i) (sq_nonneg _)) (mem_univ i)
        have h3 : ∑ i, s i * (t i - ∑ j, M i j * x k j) ^ 2 = 2 * wls M s t (x k) := by unfold wls; ring
        rw [h3] at h2
        linarith
      have h4 : Tendsto (fun k => s i * (t i / c (φ k) - ∑ j, M i j * (x (φ k) j / c (φ k))) ^ 2) atTop
          (𝓝 (s i * (0 - ∑ j, M i j * d j) ^ 2)) := by
        refine Tendsto.const_mul _ (Tendsto.pow (Tendsto.sub (tendsto_const_nhds.div_atTop hcφ) ?_) 2)
        exact tendsto_finset_sum _ fun j _ => (hlimj j).const_mul _
      have h5 : Tendsto (fun k => 2 * wls M s t y / c (φ k) ^ 2) atTop (𝓝 0) :=
        tendsto_const_nhds.div_atTop ((tendsto_pow_atTop (by norm_num)).comp hcφ)
      have h6 : ∀ k, s i * (t i / c (φ k) - ∑ j, M i j * (x (φ k) j / c (φ k))) ^ 2 ≤ 2 * wls M s t y / c (φ k) ^ 2 := by
        intro k
        rw [le_div_iff₀ (pow_pos (hcpos _) 2)]
        refine le_trans (le_of_eq ?_) (hbd (φ k))
        have h7 : t i / c (φ k) - ∑ j, M i j * (x (φ k) j / c (φ k)) = (t i - ∑ j, M i j * x (φ k) j) / c (φ k) := by
          rw [sub_div, sum_div]
          congr 1
          exact sum_congr rfl fun j _ => by ring
        rw [h7, div_pow, mul_assoc, div_mul_cancel₀ _ (pow_pos (hcpos _) 2).ne']
      have h8 := le_of_tendsto_of_tendsto' h4 h5 h6
      rw [zero_sub, neg_sq] at h8
      exact le_antisymm h8 (mul_nonneg (hs i) (sq_nonneg _))
    -- going back along the direction
    have hsame : ∀ k, wls M s t (fun j => x k j - d j) = wls M s t (x k) := by
      intro k
      unfold wls
      congr 1
      refine sum_congr rfl fun i _ => ?_
      rcases mul_eq_zero.1 (hMd i) with h | h
      · simp [h]
      · have h0 : ∑ j, M i j * d j = 0 := by simpa using h
        have : ∑ j, M i j * (x k j - d j) = ∑ j, M i j * x k j := by
          simp only [mul_sub, sum_sub_distrib, h0, sub_zero]
        rw [this]
    have hbox : ∀ j, ∀ᶠ k in atTop, x (φ k) j - d j ∈ C j := by
      intro j
      have hprod : ∀ k, x (φ k) j = c (φ k) * (x (φ k) j / c (φ k)) := fun k => by rw [mul_div_cancel₀ _ (hcpos _).ne']
      rcases lt_trichotomy (d j) 0 with h | h | h
      · have hto : Tendsto (fun k => x (φ k) j) atTop atBot := by
          refine Tendsto.congr (fun k => (hprod k).symm) ?_
          exact Tendsto.atTop_mul_neg h hcφ (hlimj j)
        filter_upwards [hto.eventually (eventually_le_atBot (y j + d j))] with k hk
        exact (hoc j).out (hxC (φ k) j) (hy j) ⟨by linarith, by linarith⟩
      · filter_upwards with k
        rw [h, sub_zero]; exact hxC _ j
      · have hto : Tendsto (fun k => x (φ k) j) atTop atTop := by
          refine Tendsto.congr (fun k => (hprod k).symm) ?_
          exact Tendsto.atTop_mul_pos h hcφ (hlimj j)
        filter_upwards [hto.eventually (eventually_ge_atTop (y j + d j))] with k hk
        exact (hoc j).out (hy j) (hxC (φ k) j) ⟨by linarith, by linarith⟩
    have hshort : ∀ᶠ k in atTop, nsq (fun j => x (φ k) j - d j) < nsq (x (φ k)) := by
      have h1 : Tendsto (fun k => ∑ j, x (φ k) j / c (φ k) * d j) atTop (𝓝 (∑ j, d j * d j)) :=
        tendsto_finset_sum _ fun j _ => (hlimj j).mul_const _
      have h2 : ∑ j, d j * d j = 1 := by rw [← hd1]; unfold nsq; exact sum_congr rfl fun j _ => by ring
      rw [h2] at h1
      have h3 := h1.eventually (lt_mem_nhds (show (1 / 2 : ℝ) < 1 by norm_num))
      have h4 := hcφ.eventually (eventually_gt_atTop (1 : ℝ))
      filter_upwards [h3, h4] with k h3 h4
      have h5 : nsq (fun j => x (φ k) j - d j) = nsq (x (φ k)) - 2 * ∑ j, x (φ k) j * d j + nsq d := by
        unfold nsq
        rw [mul_sum, ← sum_sub_distrib, ← sum_add_distrib]
        exact sum_congr rfl fun j _ => by ring
      have h6 : ∑ j, x (φ k) j * d j = c (φ k) * ∑ j, x (φ k) j / c (φ k) * d j := by
        rw [mul_sum]
        refine sum_congr rfl fun j _ => ?_
        have := (hcpos (φ k)).ne'
        field_simp
      rw [h5, hd1, h6]
      nlinarith
    obtain ⟨k, hk1, hk2⟩ := ((eventually_all.2 hbox).and hshort).exists
    have h9 := hxnorm (φ k) (fun j => x (φ k) j - d j) hk1 (hk2.le.trans (hxR _)) (le_of_eq (hsame _))
    linarith

end Verif
