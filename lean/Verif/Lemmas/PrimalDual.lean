import Mathlib.Topology.Instances.Real.Lemmas
import Mathlib.Topology.MetricSpace.Sequences
import Mathlib.Topology.MetricSpace.ProperSpace.Lemmas
import Mathlib.Topology.Algebra.Order.LiminfLimsup
import Mathlib.Tactic
import Verif.Model.Basic

/-! Convergence of the primal-dual iteration, in the abstract. -/

namespace Verif
open Finset Filter Topology

variable {ν κ : Type} [Fintype ν] [Fintype κ]

/-- The quadratic form of the primal-dual metric. -/
noncomputable def pdForm (K : Arr ν → Arr κ) (σ : Arr κ) (τ : Arr ν) (d : Arr ν) (e : Arr κ) : ℝ :=
  ∑ j, d j ^ 2 / τ j - 2 * ∑ k, K d k * e k + ∑ k, e k ^ 2 / σ k

/-- One iteration, primal first. -/
def pdStep (K : Arr ν → Arr κ) (Kt : Arr κ → Arr ν) (σ : Arr κ) (τ : Arr ν) (P : Arr ν → Arr ν) (R : Arr κ → Arr κ)
    (w : Arr ν × Arr κ) : Arr ν × Arr κ :=
  let x' := P fun j => w.1 j - τ j * Kt w.2 j
  (x', R fun k => w.2 k + σ k * K (fun j => 2 * x' j - w.1 j) k)

/-- The data of a saddle-point problem with its two proximal maps. -/
structure PDSetup (ν κ : Type) [Fintype ν] [Fintype κ] where
  K : Arr ν → Arr κ
  Kt : Arr κ → Arr ν
  σ : Arr κ
  τ : Arr ν
  P : Arr ν → Arr ν
  R : Arr κ → Arr κ
  C : Arr ν → Prop
  D : Arr κ → Prop
  G : Arr κ → Arr κ → Prop
  c : ℝ
  σpos : ∀ k, 0 < σ k
  τpos : ∀ j, 0 < τ j
  cpos : 0 < c
  adj : ∀ x p, ∑ k, K x k * p k = ∑ j, x j * Kt p j
  lin : ∀ (a b : ℝ) x y, K (fun j => a * x j + b * y j) = fun k => a * K x k + b * K y k
  contK : Continuous K
  contKt : Continuous Kt
  contP : Continuous P
  contR : Continuous R
  memC : ∀ u, C (P u)
  memD : ∀ u, D (R u)
  vi : ∀ u z, C z → ∑ j, (z j - P u j) * ((u j - P u j) / τ j) ≤ 0
  graph : ∀ u, G (R u) fun k => (u k - R u k) / σ k
  mono : ∀ p y p' y', G p y → G p' y' → 0 ≤ ∑ k, (p k - p' k) * (y k - y' k)
  definite : ∀ (x x' : Arr ν) (p p' : Arr κ), C x → C x' → D p → D p' →
    c * (∑ j, (x j - x' j) ^ 2 + ∑ k, (p k - p' k) ^ 2) ≤ pdForm K σ τ (fun j => x j - x' j) fun k => p k - p' k

namespace PDSetup
variable (S : PDSetup ν κ)

/-- A saddle point. -/
structure Saddle (w : Arr ν × Arr κ) : Prop where
  C : S.C w.1
  D : S.D w.2
  G : S.G w.2 (S.K w.1)
  vi : ∀ z, S.C z → 0 ≤ ∑ j, (z j - w.1 j) * S.Kt w.2 j

/-- The iteration. -/
def step (w : Arr ν × Arr κ) : Arr ν × Arr κ := pdStep S.K S.Kt S.σ S.τ S.P S.R w

/-- The squared distance in the metric. -/
noncomputable def dist (w w' : Arr ν × Arr κ) : ℝ := pdForm S.K S.σ S.τ (fun j => w.1 j - w'.1 j) fun k => w.2 k - w'.2 k

theorem K_sub (x y : Arr ν) : S.K (fun j => x j - y j) = fun k => S.K x k - S.K y k := by
  have := S.lin 1 (-1) x y
  simp only [one_mul, neg_mul] at this
  simpa [sub_eq_add_neg] using this

theorem fejer {s : Arr ν × Arr κ} (hs : S.Saddle s) (w : Arr ν × Arr κ) :
    S.dist w (S.step w) + S.dist (S.step w) s ≤ S.dist w s := by
  obtain ⟨x, p⟩ := w
  obtain ⟨xs, ps⟩ := s
  set x' := S.P fun j => x j - S.τ j * S.Kt p j with hx'
  set p' := S.R fun k => p k + S.σ k * S.K (fun j => 2 * x' j - x j) k with hp'
  have hstep : S.step (x, p) = (x', p') := rfl
  rw [hstep]
  have hk : S.K (fun j => 2 * x' j - x j) = fun k => 2 * S.K x' k - S.K x k := by
    have := S.lin 2 (-1) x' x
    simpa [sub_eq_add_neg] using this
  have I1 := S.vi (fun j => x j - S.τ j * S.Kt p j) xs hs.C
  have I2 := hs.vi x' (S.memC _)
  have I3 := S.mono _ _ _ _ (S.graph fun k => p k + S.σ k * S.K (fun j => 2 * x' j - x j) k) hs.G
  rw [← hx'] at I1
  rw [← hp'] at I3
  have e1 : ∑ j, (xs j - x' j) * ((x j - S.τ j * S.Kt p j - x' j) / S.τ j) =
      ∑ j, (xs j - x' j) * (x j - x' j) / S.τ j - ∑ k, (S.K xs k - S.K x' k) * p k := by
    have := S.adj (fun j => xs j - x' j) p
    rw [S.K_sub] at this
    rw [this, ← sum_sub_distrib]
    refine sum_congr rfl fun j _ => ?_
    have := (S.τpos j).ne'
    field_simp
    ring
  have e2 : ∑ j, (x' j - xs j) * S.Kt ps j = ∑ k, (S.K x' k - S.K xs k) * ps k := by
    have := S.adj (fun j => x' j - xs j) ps
    rw [S.K_sub] at this
    exact this.symm
  have e3 : ∑ k, (p' k - ps k) * ((p k + S.σ k * S.K (fun j => 2 * x' j - x j) k - p' k) / S.σ k - S.K xs k) =
      ∑ k, (p' k - ps k) * ((p k - p' k) / S.σ k + 2 * S.K x' k - S.K x k - S.K xs k) := by
    refine sum_congr rfl fun k _ => ?_
    have := (S.σpos k).ne'
    rw [hk]
    field_simp
    ring
  simp only at I2
  rw [e1] at I1
  rw [e2] at I2
  rw [e3] at I3
  unfold dist pdForm
  simp only [S.K_sub]
  have key : (∑ j, (x j - xs j) ^ 2 / S.τ j - 2 * ∑ k, (S.K x k - S.K xs k) * (p k - ps k) + ∑ k, (p k - ps k) ^ 2 / S.σ k) -
      ((∑ j, (x j - x' j) ^ 2 / S.τ j - 2 * ∑ k, (S.K x k - S.K x' k) * (p k - p' k) + ∑ k, (p k - p' k) ^ 2 / S.σ k) +
      (∑ j, (x' j - xs j) ^ 2 / S.τ j - 2 * ∑ k, (S.K x' k - S.K xs k) * (p' k - ps k) + ∑ k, (p' k - ps k) ^ 2 / S.σ k)) =
      2 * (-(∑ j, (xs j - x' j) * (x j - x' j) / S.τ j - ∑ k, (S.K xs k - S.K x' k) * p k) +
        ∑ k, (S.K x' k - S.K xs k) * ps k +
        ∑ k, (p' k - ps k) * ((p k - p' k) / S.σ k + 2 * S.K x' k - S.K x k - S.K xs k)) := by
    have h1 : ∑ j, (x j - xs j) ^ 2 / S.τ j - ∑ j, (x j - x' j) ^ 2 / S.τ j - ∑ j, (x' j - xs j) ^ 2 / S.τ j =
        -2 * ∑ j, (xs j - x' j) * (x j - x' j) / S.τ j := by
      rw [← sum_sub_distrib, ← sum_sub_distrib, mul_sum]
      exact sum_congr rfl fun j _ => by ring
    have h2 : (-2 * ∑ k, (S.K x k - S.K xs k) * (p k - ps k) + ∑ k, (p k - ps k) ^ 2 / S.σ k) -
        (-2 * ∑ k, (S.K x k - S.K x' k) * (p k - p' k) + ∑ k, (p k - p' k) ^ 2 / S.σ k) -
        (-2 * ∑ k, (S.K x' k - S.K xs k) * (p' k - ps k) + ∑ k, (p' k - ps k) ^ 2 / S.σ k) =
        2 * (∑ k, (S.K xs k - S.K x' k) * p k + ∑ k, (S.K x' k - S.K xs k) * ps k +
        ∑ k, (p' k - ps k) * ((p k - p' k) / S.σ k + 2 * S.K x' k - S.K x k - S.K xs k)) := by
      simp only [mul_sum, ← sum_sub_distrib, ← sum_add_distrib]
      refine sum_congr rfl fun k _ => ?_
      have := (S.σpos k).ne'
      field_simp
      ring
    linarith
  linarith

theorem cont_form : Continuous fun q : Arr ν × Arr κ => pdForm S.K S.σ S.τ q.1 q.2 := by
  have := S.contK
  unfold pdForm
  fun_prop

theorem cont_step : Continuous S.step := by
  have h1 := S.contK
  have h2 := S.contKt
  have h3 := S.contP
  have h4 := S.contR
  unfold step pdStep
  have hx : Continuous fun w : Arr ν × Arr κ => S.P fun j => w.1 j - S.τ j * S.Kt w.2 j :=
    h3.comp (by fun_prop)
  refine hx.prodMk (h4.comp ?_)
  have hk : Continuous fun w : Arr ν × Arr κ =>
      S.K fun j => 2 * (S.P fun j => w.1 j - S.τ j * S.Kt w.2 j) j - w.1 j := h1.comp (by fun_prop)
  fun_prop

theorem cont_dist (s : Arr ν × Arr κ) : Continuous fun w => S.dist w s := by
  have := S.cont_form.comp (f := fun w : Arr ν × Arr κ => ((fun j => w.1 j - s.1 j : Arr ν), (fun k => w.2 k - s.2 k : Arr κ)))
    (by fun_prop)
  exact this

theorem fixed_saddle {w : Arr ν × Arr κ} (h : S.step w = w) : S.Saddle w := by
  obtain ⟨x, p⟩ := w
  have hx : S.P (fun j => x j - S.τ j * S.Kt p j) = x := congrArg Prod.fst h
  have hp : S.R (fun k => p k + S.σ k * S.K x k) = p := by
    have := congrArg Prod.snd h
    simp only [step, pdStep, hx] at this
    rw [show (fun j => 2 * x j - x j) = x by funext j; ring] at this
    exact this
  refine ⟨by rw [← hx]; exact S.memC _, by rw [← hp]; exact S.memD _, ?_, fun z hz => ?_⟩
  · have := S.graph fun k => p k + S.σ k * S.K x k
    rw [hp] at this
    convert this using 2 with k
    have := (S.σpos k).ne'
    field_simp
    ring
  · have := S.vi (fun j => x j - S.τ j * S.Kt p j) z hz
    rw [hx] at this
    have e : ∑ j, (z j - x j) * ((x j - S.τ j * S.Kt p j - x j) / S.τ j) = -∑ j, (z j - x j) * S.Kt p j := by
      rw [← sum_neg_distrib]
      refine sum_congr rfl fun j _ => ?_
      have := (S.τpos j).ne'
      field_simp
      ring
    rw [e] at this
    linarith

theorem dist_lower {w w' : Arr ν × Arr κ} (h1 : S.C w.1) (h2 : S.D w.2) (h3 : S.C w'.1) (h4 : S.D w'.2) :
    S.c * (∑ j, (w.1 j - w'.1 j) ^ 2 + ∑ k, (w.2 k - w'.2 k) ^ 2) ≤ S.dist w w' := S.definite _ _ _ _ h1 h3 h2 h4

theorem dist_nonneg {w w' : Arr ν × Arr κ} (h1 : S.C w.1) (h2 : S.D w.2) (h3 : S.C w'.1) (h4 : S.D w'.2) :
    0 ≤ S.dist w w' :=
  (mul_nonneg S.cpos.le (add_nonneg (sum_nonneg fun _ _ => sq_nonneg _) (sum_nonneg fun _ _ => sq_nonneg _))).trans
    (S.dist_lower h1 h2 h3 h4)

private theorem tendsto_of_dist {u : ℕ → Arr ν × Arr κ} {z : Arr ν × Arr κ} (hu : ∀ n, S.C (u n).1 ∧ S.D (u n).2)
    (hz : S.C z.1 ∧ S.D z.2) (h : Tendsto (fun n => S.dist (u n) z) atTop (𝓝 0)) : Tendsto u atTop (𝓝 z) := by
  have hsq : Tendsto (fun n => ∑ j, ((u n).1 j - z.1 j) ^ 2 + ∑ k, ((u n).2 k - z.2 k) ^ 2) atTop (𝓝 0) := by
    have h2 : Tendsto (fun n => S.dist (u n) z / S.c) atTop (𝓝 0) := by simpa using h.div_const S.c
    refine squeeze_zero (fun n => add_nonneg (sum_nonneg fun _ _ => sq_nonneg _) (sum_nonneg fun _ _ => sq_nonneg _))
      (fun n => ?_) h2
    rw [le_div_iff₀ S.cpos, mul_comm]
    exact S.dist_lower (hu n).1 (hu n).2 hz.1 hz.2
  have hsqrt : ∀ a : ℕ → ℝ, (∀ n, 0 ≤ a n ^ 2) → Tendsto (fun n => a n ^ 2) atTop (𝓝 0) → Tendsto a atTop (𝓝 0) := by
    intro a _ ha
    have := (Real.continuous_sqrt.tendsto 0).comp ha
    simp only [Real.sqrt_zero] at this
    rw [tendsto_zero_iff_abs_tendsto_zero]
    refine this.congr fun n => ?_
    simp [Real.sqrt_sq_eq_abs]
  have h1 : Tendsto (fun n => (u n).1) atTop (𝓝 z.1) := by
    rw [tendsto_pi_nhds]
    intro j
    have : Tendsto (fun n => (u n).1 j - z.1 j) atTop (𝓝 0) := by
      refine hsqrt _ (fun _ => sq_nonneg _) (squeeze_zero (fun _ => sq_nonneg _) (fun n => ?_) hsq)
      have h3 := single_le_sum (f := fun j => ((u n).1 j - z.1 j) ^ 2) (fun _ _ => sq_nonneg _) (mem_univ j)
      have h4 : 0 ≤ ∑ k, ((u n).2 k - z.2 k) ^ 2 := sum_nonneg fun _ _ => sq_nonneg _
      linarith
    simpa using this.add_const (z.1 j)
  have h2 : Tendsto (fun n => (u n).2) atTop (𝓝 z.2) := by
    rw [tendsto_pi_nhds]
    intro j
    have : Tendsto (fun n => (u n).2 j - z.2 j) atTop (𝓝 0) := by
      refine hsqrt _ (fun _ => sq_nonneg _) (squeeze_zero (fun _ => sq_nonneg _) (fun n => ?_) hsq)
      have h3 := single_le_sum (f := fun j => ((u n).2 j - z.2 j) ^ 2) (fun _ _ => sq_nonneg _) (mem_univ j)
      have h4 : 0 ≤ ∑ k, ((u n).1 k - z.1 k) ^ 2 := sum_nonneg fun _ _ => sq_nonneg _
      linarith
    simpa using this.add_const (z.2 j)
  exact h1.prodMk_nhds h2

/-- The iteration converges to a saddle point if there is one. -/
theorem converges {s : Arr ν × Arr κ} (hs : S.Saddle s) (w : ℕ → Arr ν × Arr κ) (hw : ∀ n, w (n + 1) = S.step (w n)) :
    ∃ z, S.Saddle z ∧ Tendsto w atTop (𝓝 z) := by
  have hmem : ∀ n, S.C (w (n + 1)).1 ∧ S.D (w (n + 1)).2 := fun n => by rw [hw]; exact ⟨S.memC _, S.memD _⟩
  set u : ℕ → Arr ν × Arr κ := fun n => w (n + 1) with hu
  have hus : ∀ n, u (n + 1) = S.step (u n) := fun n => hw (n + 1)
  have hum : ∀ n, S.C (u n).1 ∧ S.D (u n).2 := hmem
  have hdec : ∀ t, S.Saddle t → ∀ n, S.dist (u n) (u (n + 1)) + S.dist (u (n + 1)) t ≤ S.dist (u n) t := by
    intro t ht n; rw [hus]; exact S.fejer ht _
  have hanti : ∀ t, S.Saddle t → Antitone fun n => S.dist (u n) t := by
    intro t ht
    refine antitone_nat_of_succ_le fun n => ?_
    have := hdec t ht n
    have h0 := S.dist_nonneg (hum n).1 (hum n).2 (hum (n + 1)).1 (hum (n + 1)).2
    linarith
  -- successive distances tend to zero
  have hlim : Tendsto (fun n => S.dist (u n) (u (n + 1))) atTop (𝓝 0) := by
    have hbb : BddBelow (Set.range fun n => S.dist (u n) s) :=
      ⟨0, by rintro _ ⟨n, rfl⟩; exact S.dist_nonneg (hum n).1 (hum n).2 hs.C hs.D⟩
    have hc := tendsto_atTop_ciInf (hanti s hs) hbb
    have hc1 := hc.comp (tendsto_add_atTop_nat 1)
    have hd := hc.sub hc1
    rw [sub_self] at hd
    refine squeeze_zero (fun n => S.dist_nonneg (hum n).1 (hum n).2 (hum (n + 1)).1 (hum (n + 1)).2) (fun n => ?_) hd
    have := hdec s hs n
    simp only [Function.comp]
    linarith
  -- bounded
  obtain ⟨B, hB⟩ : ∃ B : ℝ, ∀ n, u n ∈ Metric.closedBall s B := by
    refine ⟨Real.sqrt (S.dist (u 0) s / S.c), fun n => ?_⟩
    have h1 : S.dist (u n) s ≤ S.dist (u 0) s := hanti s hs (Nat.zero_le n)
    have h2 := S.dist_lower (hum n).1 (hum n).2 hs.C hs.D
    have h3 : ∑ j, ((u n).1 j - s.1 j) ^ 2 + ∑ k, ((u n).2 k - s.2 k) ^ 2 ≤ S.dist (u 0) s / S.c := by
      rw [le_div_iff₀ S.cpos, mul_comm]; linarith
    have hb : 0 ≤ Real.sqrt (S.dist (u 0) s / S.c) := Real.sqrt_nonneg _
    rw [Metric.mem_closedBall, Prod.dist_eq, max_le_iff, dist_pi_le_iff hb, dist_pi_le_iff hb]
    refine ⟨fun j => ?_, fun k => ?_⟩
    · rw [Real.dist_eq]
      refine Real.abs_le_sqrt ?_
      have h5 := single_le_sum (f := fun j => ((u n).1 j - s.1 j) ^ 2) (fun _ _ => sq_nonneg _) (mem_univ j)
      have h4 : 0 ≤ ∑ k, ((u n).2 k - s.2 k) ^ 2 := sum_nonneg fun _ _ => sq_nonneg _
      linarith
    · rw [Real.dist_eq]
      refine Real.abs_le_sqrt ?_
      have h5 := single_le_sum (f := fun k => ((u n).2 k - s.2 k) ^ 2) (fun _ _ => sq_nonneg _) (mem_univ k)
      have h4 : 0 ≤ ∑ k, ((u n).1 k - s.1 k) ^ 2 := sum_nonneg fun _ _ => sq_nonneg _
      linarith
  obtain ⟨z, -, φ, hφ, hz⟩ := tendsto_subseq_of_bounded (Metric.isBounded_closedBall (x := s) (r := B)) hB
  -- the successors of the subsequence have the same limit
  have hz1 : Tendsto (fun n => u (φ n + 1)) atTop (𝓝 (S.step z)) := by
    have := (S.cont_step.tendsto z).comp hz
    refine this.congr fun n => ?_
    simp only [Function.comp]
    exact (hus _).symm
  have hdiff : S.step z = z := by
    have h1 : Tendsto (fun n => S.dist (u (φ n)) (u (φ n + 1))) atTop (𝓝 0) := hlim.comp hφ.tendsto_atTop
    have hsum : Tendsto (fun n => S.c * (∑ j, ((u (φ n)).1 j - (u (φ n + 1)).1 j) ^ 2 +
        ∑ k, ((u (φ n)).2 k - (u (φ n + 1)).2 k) ^ 2)) atTop (𝓝 0) := by
      refine squeeze_zero (fun n => mul_nonneg S.cpos.le
        (add_nonneg (sum_nonneg fun _ _ => sq_nonneg _) (sum_nonneg fun _ _ => sq_nonneg _))) (fun n => ?_) h1
      exact S.dist_lower (hum _).1 (hum _).2 (hum _).1 (hum _).2
    have hcont : Continuous fun q : (Arr ν × Arr κ) × (Arr ν × Arr κ) =>
        S.c * (∑ j, (q.1.1 j - q.2.1 j) ^ 2 + ∑ k, (q.1.2 k - q.2.2 k) ^ 2) := by fun_prop
    have h2 := (hcont.tendsto (z, S.step z)).comp (hz.prodMk_nhds hz1)
    have h3 := tendsto_nhds_unique h2 hsum
    have h4 : ∑ j, (z.1 j - (S.step z).1 j) ^ 2 + ∑ k, (z.2 k - (S.step z).2 k) ^ 2 = 0 := by
      rcases mul_eq_zero.1 h3 with h | h
      · exact absurd h S.cpos.ne'
      · exact h
    have h5 : 0 ≤ ∑ j, (z.1 j - (S.step z).1 j) ^ 2 := sum_nonneg fun _ _ => sq_nonneg _
    have h6 : 0 ≤ ∑ k, (z.2 k - (S.step z).2 k) ^ 2 := sum_nonneg fun _ _ => sq_nonneg _
    have h7 : ∑ j, (z.1 j - (S.step z).1 j) ^ 2 = 0 := by linarith
    have h8 : ∑ k, (z.2 k - (S.step z).2 k) ^ 2 = 0 := by linarith
    rw [sum_eq_zero_iff_of_nonneg fun _ _ => sq_nonneg _] at h7 h8
    refine Prod.ext (funext fun j => ?_) (funext fun k => ?_)
    · have := pow_eq_zero_iff (two_ne_zero) |>.1 (h7 j (mem_univ _)); linarith
    · have := pow_eq_zero_iff (two_ne_zero) |>.1 (h8 k (mem_univ _)); linarith
  have hzs := S.fixed_saddle hdiff
  refine ⟨z, hzs, ?_⟩
  have hd0 : S.dist z z = 0 := by
    unfold dist pdForm
    simp only [sub_self, mul_zero]
    simp
  have hsub : Tendsto (fun n => S.dist (u (φ n)) z) atTop (𝓝 0) := by
    have := ((S.cont_dist z).tendsto z).comp hz
    rw [hd0] at this
    exact this
  have hall : Tendsto (fun n => S.dist (u n) z) atTop (𝓝 0) := by
    rw [Metric.tendsto_atTop] at hsub ⊢
    intro ε hε
    obtain ⟨N, hN⟩ := hsub ε hε
    refine ⟨φ N, fun n hn => ?_⟩
    have h1 := hN N le_rfl
    have h2 : S.dist (u n) z ≤ S.dist (u (φ N)) z := hanti z hzs hn
    have h3 := S.dist_nonneg (hum n).1 (hum n).2 hzs.C hzs.D
    have h4 := S.dist_nonneg (hum (φ N)).1 (hum (φ N)).2 hzs.C hzs.D
    rw [Real.dist_eq, sub_zero, abs_of_nonneg h3]
    rw [Real.dist_eq, sub_zero, abs_of_nonneg h4] at h1
    linarith
  exact (tendsto_add_atTop_iff_nat 1).1 (S.tendsto_of_dist hum ⟨hzs.C, hzs.D⟩ hall)

end PDSetup

end Verif
