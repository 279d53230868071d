import Mathlib.Analysis.LocallyConvex.Separation
import Mathlib.Analysis.Convex.Topology
import Mathlib.Analysis.Normed.Module.FiniteDimension
import Mathlib.Analysis.Convex.Continuous
import Verif.Lemmas.PrimalDual

/-! Saddle-point problems with a convex functional: the setup of the iteration and existence of a saddle point. -/

namespace Verif
open Finset Filter Topology

variable {ν κ : Type} [Fintype ν] [Fintype κ]

/-- `p` is a subgradient at `y` of the functional with domain `dom` and values `F`. -/
def SubGrad (dom : Set (Arr κ)) (F : Arr κ → ℝ) (p y : Arr κ) : Prop :=
  y ∈ dom ∧ ∀ z ∈ dom, F y + ∑ k, p k * (z k - y k) ≤ F z

theorem SubGrad.mono {dom : Set (Arr κ)} {F : Arr κ → ℝ} {p y p' y' : Arr κ} (h : SubGrad dom F p y)
    (h' : SubGrad dom F p' y') : 0 ≤ ∑ k, (p k - p' k) * (y k - y' k) := by
  have h1 := h.2 y' h'.1
  have h2 := h'.2 y h.1
  have : ∑ k, (p k - p' k) * (y k - y' k) = -(∑ k, p k * (y' k - y k)) - ∑ k, p' k * (y k - y' k) := by
    rw [← sum_neg_distrib, ← sum_sub_distrib]
    exact sum_congr rfl fun k _ => by ring
  rw [this]; linarith

/-- A map that is non-expansive for a weighted norm is continuous. -/
theorem continuous_of_weighted {α : Type} [Fintype α] (w : Arr α) (hw : ∀ i, 0 < w i) (f : Arr α → Arr α)
    (h : ∀ u v, ∑ i, (f u i - f v i) ^ 2 / w i ≤ ∑ i, (u i - v i) ^ 2 / w i) : Continuous f := by
  rw [continuous_iff_continuousAt]
  intro v
  rw [ContinuousAt, tendsto_pi_nhds]
  intro i
  have h1 : Tendsto (fun u : Arr α => w i * ∑ j, (u j - v j) ^ 2 / w j) (𝓝 v) (𝓝 0) := by
    have : Continuous fun u : Arr α => w i * ∑ j, (u j - v j) ^ 2 / w j := by fun_prop
    have := this.tendsto v
    simpa using this
  have h2 : Tendsto (fun u => (f u i - f v i) ^ 2) (𝓝 v) (𝓝 0) := by
    refine squeeze_zero (fun _ => sq_nonneg _) (fun u => ?_) h1
    have h3 := single_le_sum (f := fun i => (f u i - f v i) ^ 2 / w i)
      (fun i _ => div_nonneg (sq_nonneg _) (hw i).le) (mem_univ i)
    have h4 := h3.trans (h u v)
    rw [div_le_iff₀ (hw i)] at h4
    linarith
  have h3 : Tendsto (fun u => f u i - f v i) (𝓝 v) (𝓝 0) := by
    have := h2.sqrt
    simp only [Real.sqrt_sq_eq_abs, Real.sqrt_zero] at this
    exact (tendsto_zero_iff_abs_tendsto_zero _).2 this
  simpa using h3.add_const (f v i)

/-- Linearity written out is a linear map. -/
def toLinear (K : Arr ν → Arr κ) (lin : ∀ (a b : ℝ) x y, K (fun j => a * x j + b * y j) = fun k => a * K x k + b * K y k) :
    Arr ν →ₗ[ℝ] Arr κ where
  toFun := K
  map_add' := fun x y => by
    have := lin 1 1 x y
    simp only [one_mul] at this
    exact this
  map_smul' := fun c x => by
    have := lin c 0 x x
    simp only [zero_mul, add_zero] at this
    exact this

theorem continuous_of_lin (K : Arr ν → Arr κ)
    (lin : ∀ (a b : ℝ) x y, K (fun j => a * x j + b * y j) = fun k => a * K x k + b * K y k) : Continuous K :=
  (toLinear K lin).continuous_of_finiteDimensional

/-- The adjoint of a linear map is linear. -/
theorem adjoint_lin [DecidableEq ν] {K : Arr ν → Arr κ} {Kt : Arr κ → Arr ν}
    (adj : ∀ x p, ∑ k, K x k * p k = ∑ j, x j * Kt p j) (a b : ℝ) (p q : Arr κ) :
    Kt (fun j => a * p j + b * q j) = fun k => a * Kt p k + b * Kt q k := by
  have e : ∀ p j, Kt p j = ∑ k, K (fun j' => if j' = j then 1 else 0) k * p k := by
    intro p j
    rw [adj]
    simp
  funext j
  rw [e, e, e, mul_sum, mul_sum, ← sum_add_distrib]
  exact sum_congr rfl fun k _ => by ring

/-- A convex problem `min F(K x)` over `x ∈ C` with its two proximal maps and step sizes. -/
structure PDProblem (ν κ : Type) [Fintype ν] [Fintype κ] where
  K : Arr ν → Arr κ
  Kt : Arr κ → Arr ν
  σ : Arr κ
  τ : Arr ν
  P : Arr ν → Arr ν
  R : Arr κ → Arr κ
  C : Set (Arr ν)
  dom : Set (Arr κ)
  F : Arr κ → ℝ
  ω : ℝ
  ωpos : 0 < ω
  ωlt : ω < 1
  σpos : ∀ k, 0 < σ k
  τpos : ∀ j, 0 < τ j
  adj : ∀ x p, ∑ k, K x k * p k = ∑ j, x j * Kt p j
  lin : ∀ (a b : ℝ) x y, K (fun j => a * x j + b * y j) = fun k => a * K x k + b * K y k
  memC : ∀ u, P u ∈ C
  vi : ∀ u z, z ∈ C → ∑ j, (z j - P u j) * ((u j - P u j) / τ j) ≤ 0
  cert : ∀ u, SubGrad dom F (R u) fun k => (u k - R u k) / σ k
  energy : ∀ x ∈ C, ∀ x' ∈ C, ∑ k, σ k * (K x k - K x' k) ^ 2 ≤ ω * ∑ j, (x j - x' j) ^ 2 / τ j

namespace PDProblem
variable (S : PDProblem ν κ)

theorem K_sub' (x y : Arr ν) : S.K (fun j => x j - y j) = fun k => S.K x k - S.K y k := by
  have := S.lin 1 (-1) x y
  simp only [one_mul, neg_mul] at this
  simpa [sub_eq_add_neg] using this

theorem contP : Continuous S.P := by
  refine continuous_of_weighted S.τ S.τpos _ fun u v => ?_
  have h1 := S.vi u _ (S.memC v)
  have h2 := S.vi v _ (S.memC u)
  have h3 : ∑ j, (S.P u j - S.P v j) ^ 2 / S.τ j ≤ ∑ j, (S.P u j - S.P v j) * (u j - v j) / S.τ j := by
    have e : ∑ j, (S.P u j - S.P v j) ^ 2 / S.τ j - ∑ j, (S.P u j - S.P v j) * (u j - v j) / S.τ j =
        ∑ j, (S.P v j - S.P u j) * ((u j - S.P u j) / S.τ j) + ∑ j, (S.P u j - S.P v j) * ((v j - S.P v j) / S.τ j) := by
      rw [← sum_sub_distrib, ← sum_add_distrib]
      refine sum_congr rfl fun j _ => ?_
      have := (S.τpos j).ne'
      field_simp
      ring
    linarith
  have h4 : 2 * ∑ j, (S.P u j - S.P v j) * (u j - v j) / S.τ j ≤
      ∑ j, (S.P u j - S.P v j) ^ 2 / S.τ j + ∑ j, (u j - v j) ^ 2 / S.τ j := by
    rw [mul_sum, ← sum_add_distrib]
    refine sum_le_sum fun j _ => ?_
    rw [← add_div, ← mul_div_assoc]
    exact div_le_div_of_nonneg_right (by nlinarith [sq_nonneg (S.P u j - S.P v j - (u j - v j))]) (S.τpos j).le
  linarith

theorem contR : Continuous S.R := by
  refine continuous_of_weighted S.σ S.σpos _ fun u v => ?_
  have h1 := (S.cert u).mono (S.cert v)
  have h3 : ∑ j, (S.R u j - S.R v j) ^ 2 / S.σ j ≤ ∑ j, (S.R u j - S.R v j) * (u j - v j) / S.σ j := by
    have e : ∑ j, (S.R u j - S.R v j) * (u j - v j) / S.σ j - ∑ j, (S.R u j - S.R v j) ^ 2 / S.σ j =
        ∑ k, (S.R u k - S.R v k) * ((u k - S.R u k) / S.σ k - (v k - S.R v k) / S.σ k) := by
      rw [← sum_sub_distrib]
      refine sum_congr rfl fun j _ => ?_
      have := (S.σpos j).ne'
      field_simp
      ring
    linarith
  have h4 : 2 * ∑ j, (S.R u j - S.R v j) * (u j - v j) / S.σ j ≤
      ∑ j, (S.R u j - S.R v j) ^ 2 / S.σ j + ∑ j, (u j - v j) ^ 2 / S.σ j := by
    rw [mul_sum, ← sum_add_distrib]
    refine sum_le_sum fun j _ => ?_
    rw [← add_div, ← mul_div_assoc]
    exact div_le_div_of_nonneg_right (by nlinarith [sq_nonneg (S.R u j - S.R v j - (u j - v j))]) (S.σpos j).le
  linarith

theorem form_lower (d : Arr ν) (e : Arr κ) (h : ∑ k, S.σ k * S.K d k ^ 2 ≤ S.ω * ∑ j, d j ^ 2 / S.τ j) :
    (1 - Real.sqrt S.ω) * (∑ j, d j ^ 2 / S.τ j + ∑ k, e k ^ 2 / S.σ k) ≤ pdForm S.K S.σ S.τ d e := by
  have hs : 0 < Real.sqrt S.ω := Real.sqrt_pos.2 S.ωpos
  have hss : Real.sqrt S.ω * Real.sqrt S.ω = S.ω := Real.mul_self_sqrt S.ωpos.le
  set t := Real.sqrt S.ω with ht
  have h1 : 2 * ∑ k, S.K d k * e k ≤ t⁻¹ * ∑ k, S.σ k * S.K d k ^ 2 + t * ∑ k, e k ^ 2 / S.σ k := by
    rw [mul_sum, mul_sum, mul_sum, ← sum_add_distrib]
    refine sum_le_sum fun k _ => ?_
    have hk := S.σpos k
    have e1 : t⁻¹ * (S.σ k * S.K d k ^ 2) + t * (e k ^ 2 / S.σ k) - 2 * (S.K d k * e k) =
        (S.σ k * S.K d k - t * e k) ^ 2 / (t * S.σ k) := by
      field_simp
      ring
    have : 0 ≤ (S.σ k * S.K d k - t * e k) ^ 2 / (t * S.σ k) := by positivity
    linarith
  have h2 : t⁻¹ * ∑ k, S.σ k * S.K d k ^ 2 ≤ t * ∑ j, d j ^ 2 / S.τ j := by
    calc t⁻¹ * ∑ k, S.σ k * S.K d k ^ 2 ≤ t⁻¹ * (S.ω * ∑ j, d j ^ 2 / S.τ j) :=
          mul_le_mul_of_nonneg_left h (inv_pos.2 hs).le
      _ = t * ∑ j, d j ^ 2 / S.τ j := by rw [← hss]; field_simp
  unfold pdForm
  linarith

/-- The setup of the abstract iteration. -/
noncomputable def setup [DecidableEq ν] : PDSetup ν κ where
  K := S.K
  Kt := S.Kt
  σ := S.σ
  τ := S.τ
  P := S.P
  R := S.R
  C := fun x => x ∈ S.C
  D := fun _ => True
  G := SubGrad S.dom S.F
  c := (1 - Real.sqrt S.ω) / (1 + (∑ j, S.τ j + ∑ k, S.σ k))
  σpos := S.σpos
  τpos := S.τpos
  cpos := by
    have : Real.sqrt S.ω < 1 := by rw [Real.sqrt_lt' one_pos]; simpa using S.ωlt
    have h1 : 0 ≤ ∑ j, S.τ j := sum_nonneg fun j _ => (S.τpos j).le
    have h2 : 0 ≤ ∑ j, S.σ j := sum_nonneg fun j _ => (S.σpos j).le
    exact div_pos (by linarith) (by linarith)
  adj := S.adj
  lin := S.lin
  contK := continuous_of_lin S.K S.lin
  contKt := continuous_of_lin S.Kt (adjoint_lin S.adj)
  contP := S.contP
  contR := S.contR
  memC := S.memC
  memD := fun _ => trivial
  vi := S.vi
  graph := S.cert
  mono := fun _ _ _ _ h h' => h.mono h'
  definite := fun x x' p p' hx hx' _ _ => by
    have hlt : Real.sqrt S.ω < 1 := by rw [Real.sqrt_lt' one_pos]; simpa using S.ωlt
    have h1 : 0 ≤ ∑ j, S.τ j := sum_nonneg fun j _ => (S.τpos j).le
    have h2 : 0 ≤ ∑ j, S.σ j := sum_nonneg fun j _ => (S.σpos j).le
    have hE : ∑ k, S.σ k * S.K (fun j => x j - x' j) k ^ 2 ≤ S.ω * ∑ j, (x j - x' j) ^ 2 / S.τ j := by
      rw [S.K_sub']; exact S.energy x hx x' hx'
    refine le_trans ?_ (S.form_lower (fun j => x j - x' j) (fun k => p k - p' k) hE)
    have hT : 0 < 1 + (∑ j, S.τ j + ∑ k, S.σ k) := by linarith
    rw [div_mul_eq_mul_div, mul_div_assoc]
    refine mul_le_mul_of_nonneg_left ?_ (by linarith)
    rw [add_div, sum_div, sum_div]
    refine add_le_add (sum_le_sum fun j _ => ?_) (sum_le_sum fun k _ => ?_)
    · refine div_le_div_of_nonneg_left (sq_nonneg _) (S.τpos j) ?_
      have := single_le_sum (f := S.τ) (fun j _ => (S.τpos j).le) (mem_univ j)
      linarith
    · refine div_le_div_of_nonneg_left (sq_nonneg _) (S.σpos k) ?_
      have := single_le_sum (f := S.σ) (fun j _ => (S.σpos j).le) (mem_univ k)
      linarith

/-- Solution of the problem. -/
def IsMin (x : Arr ν) : Prop := x ∈ S.C ∧ S.K x ∈ S.dom ∧ ∀ z ∈ S.C, S.K z ∈ S.dom → S.F (S.K x) ≤ S.F (S.K z)

theorem saddle_isMin [DecidableEq ν] {w : Arr ν × Arr κ} (h : S.setup.Saddle w) : S.IsMin w.1 := by
  refine ⟨h.C, h.G.1, fun z hz hd => ?_⟩
  have h1 := h.G.2 _ hd
  have h2 := h.vi z hz
  have e : ∑ j, (z j - w.1 j) * S.Kt w.2 j = ∑ k, w.2 k * (S.K z k - S.K w.1 k) := by
    have := S.adj (fun j => z j - w.1 j) w.2
    rw [S.K_sub'] at this
    rw [← this]
    exact sum_congr rfl fun k _ => by ring
  have h3 : (0 : ℝ) ≤ ∑ j, (z j - w.1 j) * S.Kt w.2 j := h2
  rw [e] at h3
  have h4 : S.F (S.K w.1) + ∑ k, w.2 k * (S.K z k - S.K w.1 k) ≤ S.F (S.K z) := h1
  linarith

/-- A solution is the primal part of a saddle point: separation of the epigraph from the feasible set. -/
theorem exists_saddle [DecidableEq ν] [DecidableEq κ] (hC : Convex ℝ S.C) (hF : ConvexOn ℝ S.dom S.F)
    {x : Arr ν} (hx : S.IsMin x) {x0 : Arr ν} (hx0 : x0 ∈ S.C)
    (hint : S.K x0 ∈ interior S.dom) : ∃ p, S.setup.Saddle (x, p) := by
  have hopen : ContinuousOn S.F (interior S.dom) := hF.continuousOn_interior
  set U : Set (Arr κ × ℝ) := {q | q.1 ∈ interior S.dom ∧ S.F q.1 < q.2} with hU
  set T : Set (Arr κ × ℝ) := {q | ∃ z ∈ S.C, q = (S.K z, S.F (S.K x))} with hT
  have hUc : Convex ℝ U := by
    intro a ha b hb s t hs ht hst
    refine ⟨hF.1.interior ha.1 hb.1 hs ht hst, ?_⟩
    have h1 := hF.2 (interior_subset ha.1) (interior_subset hb.1) hs ht hst
    simp only [smul_eq_mul] at h1
    show S.F (s • a.1 + t • b.1) < s * a.2 + t * b.2
    rcases hs.eq_or_lt with h0 | h0
    · have : t = 1 := by linarith
      subst this; rw [← h0] at h1 ⊢
      have := hb.2; linarith
    · have h3 : s * S.F a.1 < s * a.2 := mul_lt_mul_of_pos_left ha.2 h0
      have h4 : t * S.F b.1 ≤ t * b.2 := mul_le_mul_of_nonneg_left hb.2.le ht
      linarith
  have hUo : IsOpen U := by
    have h1 : IsOpen {q : Arr κ × ℝ | q.1 ∈ interior S.dom} := isOpen_interior.preimage continuous_fst
    have hc : ContinuousOn (fun q : Arr κ × ℝ => q.2 - S.F q.1) {q : Arr κ × ℝ | q.1 ∈ interior S.dom} :=
      continuousOn_snd.sub (hopen.comp continuousOn_fst fun q hq => hq)
    have := hc.isOpen_inter_preimage h1 (isOpen_Ioi (a := (0 : ℝ)))
    convert this using 1
    ext q
    simp [hU, sub_pos]
  have hTc : Convex ℝ T := by
    rintro a ⟨za, hza, rfl⟩ b ⟨zb, hzb, rfl⟩ s t hs ht hst
    refine ⟨s • za + t • zb, hC hza hzb hs ht hst, ?_⟩
    have := S.lin s t za zb
    ext k
    · exact (congrFun this k).symm
    · show s * _ + t * _ = _
      rw [← add_mul, hst, one_mul]
  have hdisj : Disjoint U T := by
    rw [Set.disjoint_left]
    rintro q hq ⟨z, hz, rfl⟩
    have := hx.2.2 z hz (interior_subset hq.1)
    have h2 : S.F (S.K z) < S.F (S.K x) := hq.2
    linarith
  obtain ⟨f, u, hfU, hfT⟩ := geometric_hahn_banach_open hUc hUo hTc hdisj
  set β := f (0, 1) with hβ
  set g : Arr κ := fun k => f (Pi.single k 1, 0) with hg
  have hf : ∀ y t, f (y, t) = ∑ k, g k * y k + β * t := by
    intro y t
    have e1 : ((y, t) : Arr κ × ℝ) = (∑ k, y k • ((Pi.single k 1, 0) : Arr κ × ℝ)) + t • ((0, 1) : Arr κ × ℝ) := by
      ext k
      · simp [Prod.fst_sum, Finset.sum_apply, Pi.single_apply]
      · simp [Prod.snd_sum]
    rw [e1, map_add, map_sum, map_smul]
    simp only [map_smul, smul_eq_mul, hg, hβ]
    congr 1
    · exact sum_congr rfl fun k _ => mul_comm _ _
    · exact mul_comm _ _
  -- the vertical part is negative
  have hβneg : β < 0 := by
    have h1 := hfU (S.K x0, S.F (S.K x0) + 1) ⟨hint, by simp⟩
    have h2 := hfT (S.K x0, S.F (S.K x)) ⟨x0, hx0, rfl⟩
    have h1' := hfU (S.K x0, max (S.F (S.K x0)) (S.F (S.K x)) + 1) ⟨hint, by
      have := le_max_left (S.F (S.K x0)) (S.F (S.K x)); show _ < _; dsimp only; linarith⟩
    rw [hf] at h1' h2
    have h3 : β * (max (S.F (S.K x0)) (S.F (S.K x)) + 1) < β * S.F (S.K x) := by linarith
    by_contra hcon
    have h5 : 0 ≤ β := not_lt.1 hcon
    have h6 := le_max_right (S.F (S.K x0)) (S.F (S.K x))
    have := mul_le_mul_of_nonneg_left (show S.F (S.K x) ≤ max (S.F (S.K x0)) (S.F (S.K x)) + 1 by linarith) h5
    linarith
  set p : Arr κ := fun k => g k / (-β) with hp
  have hpg : ∀ y : Arr κ, ∑ k, g k * y k = -β * ∑ k, p k * y k := by
    intro y
    rw [mul_sum]
    refine sum_congr rfl fun k _ => ?_
    simp only [hp]
    have : β ≠ 0 := hβneg.ne
    field_simp
  -- the separation inequality
  have hsep : ∀ y ∈ interior S.dom, ∀ z ∈ S.C,
      ∑ k, p k * y k - S.F y ≤ ∑ k, p k * S.K z k - S.F (S.K x) := by
    intro y hy z hz
    have hb : 0 < -β := by linarith
    refine le_of_forall_pos_le_add fun ε hε => ?_
    have h1 := hfU (y, S.F y + ε) ⟨hy, by simpa using hε⟩
    have h2 := hfT (S.K z, S.F (S.K x)) ⟨z, hz, rfl⟩
    rw [hf, hpg] at h1 h2
    have h3 : -β * (∑ k, p k * y k - (S.F y + ε)) < -β * (∑ k, p k * S.K z k - S.F (S.K x)) := by linarith
    have := lt_of_mul_lt_mul_left h3 hb.le
    linarith
  -- extended to the whole domain
  have hsep' : ∀ y ∈ S.dom, ∀ z ∈ S.C, ∑ k, p k * y k - S.F y ≤ ∑ k, p k * S.K z k - S.F (S.K x) := by
    intro y hy z hz
    set y0 := S.K x0
    have hseg : ∀ s : ℝ, 0 < s → s ≤ 1 →
        (1 - s) * (∑ k, p k * y k - S.F y) + s * (∑ k, p k * y0 k - S.F y0) ≤ ∑ k, p k * S.K z k - S.F (S.K x) := by
      intro s hs hs1
      have hmem : (1 - s) • y + s • y0 ∈ interior S.dom :=
        hF.1.combo_self_interior_mem_interior hy hint (by linarith) hs (by linarith)
      have h1 := hsep _ hmem z hz
      have h2 := hF.2 hy (interior_subset hint) (show 0 ≤ 1 - s by linarith) hs.le (by linarith)
      simp only [smul_eq_mul] at h2
      have e : ∑ k, p k * ((1 - s) • y + s • y0) k = (1 - s) * ∑ k, p k * y k + s * ∑ k, p k * y0 k := by
        rw [mul_sum, mul_sum, ← sum_add_distrib]
        refine sum_congr rfl fun k _ => ?_
        simp only [Pi.add_apply, Pi.smul_apply, smul_eq_mul]; ring
      rw [e] at h1
      linarith
    have hlim : Tendsto (fun s : ℝ => (1 - s) * (∑ k, p k * y k - S.F y) + s * (∑ k, p k * y0 k - S.F y0)) (𝓝[>] 0)
        (𝓝 (∑ k, p k * y k - S.F y)) := by
      have hcont : Continuous fun s : ℝ => (1 - s) * (∑ k, p k * y k - S.F y) + s * (∑ k, p k * y0 k - S.F y0) := by fun_prop
      have := (hcont.tendsto 0).mono_left (nhdsWithin_le_nhds (s := Set.Ioi 0))
      simpa using this
    refine le_of_tendsto hlim ?_
    have : Set.Ioc (0 : ℝ) 1 ∈ 𝓝[>] (0 : ℝ) := Ioc_mem_nhdsGT one_pos
    filter_upwards [this] with s hs
    exact hseg s hs.1 hs.2
  refine ⟨p, hx.1, trivial, ⟨hx.2.1, fun z hz => ?_⟩, fun z hz => ?_⟩
  · have := hsep' z hz x hx.1
    have e : ∑ k, p k * (z k - S.K x k) = ∑ k, p k * z k - ∑ k, p k * S.K x k := by
      rw [← sum_sub_distrib]; exact sum_congr rfl fun k _ => by ring
    show S.F (S.K x) + ∑ k, p k * (z k - S.K x k) ≤ S.F z
    rw [e]; linarith
  · have := hsep' (S.K x) hx.2.1 z hz
    have e : ∑ j, (z j - x j) * S.Kt p j = ∑ k, p k * S.K z k - ∑ k, p k * S.K x k := by
      have := S.adj (fun j => z j - x j) p
      rw [S.K_sub'] at this
      rw [← this, ← sum_sub_distrib]
      exact sum_congr rfl fun k _ => by ring
    show 0 ≤ ∑ j, (z j - x j) * S.Kt p j
    rw [e]; linarith

/-- Convergence of the iteration to a solution. -/
theorem converges [DecidableEq ν] [DecidableEq κ] (hC : Convex ℝ S.C) (hF : ConvexOn ℝ S.dom S.F)
    (hmin : ∃ x, S.IsMin x)
    (hq : ∃ x0 ∈ S.C, S.K x0 ∈ interior S.dom) (w : ℕ → Arr ν × Arr κ)
    (hw : ∀ n, w (n + 1) = pdStep S.K S.Kt S.σ S.τ S.P S.R (w n)) :
    ∃ x, S.IsMin x ∧ Tendsto (fun n => (w n).1) atTop (𝓝 x) := by
  obtain ⟨x, hx⟩ := hmin
  obtain ⟨x0, hx0, hint⟩ := hq
  obtain ⟨p, hp⟩ := S.exists_saddle hC hF hx hx0 hint
  obtain ⟨z, hz, hlim⟩ := S.setup.converges hp w hw
  exact ⟨z.1, S.saddle_isMin hz, (continuous_fst.tendsto z).comp hlim⟩

end PDProblem
end Verif
