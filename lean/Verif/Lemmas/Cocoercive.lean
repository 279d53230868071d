import Verif.Props.SirtStability
import Mathlib.Topology.Semicontinuity.Basic

/-! # Projected gradient steps for a sum of smoothed penalties -/

namespace Verif
open Classical DataTerm Finset Filter Topology

variable {ν κ ι : Type} [Fintype ν] [Fintype κ] [Fintype ι]

/-- A gradient of the form `Kt (D ψ(K x))` with `ψ` firmly non-expansive, and step sizes that fulfil the convergence condition. -/
structure SmoothProblem (ν κ : Type) [Fintype ν] [Fintype κ] where
  K : Arr ν → Arr κ
  Kt : Arr κ → Arr ν
  D : Arr κ
  W : Arr ν
  m : Arr ν
  ψ : Arr κ → Arr κ
  ω : ℝ
  ωpos : 0 < ω
  ωlt : ω < 2
  sub : ∀ x y, K (fun j => x j - y j) = fun k => K x k - K y k
  smul : ∀ (t : ℝ) x, K (fun j => t * x j) = fun k => t * K x k
  adj : ∀ x p, ∑ j, x j * Kt p j = ∑ k, K x k * p k
  D0 : ∀ k, 0 ≤ D k
  Wpos : ∀ j, 0 < W j
  mask : ∀ j, m j = 0 ∨ m j = 1
  firm : ∀ u v, ∑ k, D k * (ψ u k - ψ v k) ^ 2 ≤ ∑ k, D k * ((ψ u k - ψ v k) * (u k - v k))
  pc : ∀ d, (∀ j, m j = 0 → d j = 0) → ∑ k, D k * K d k ^ 2 ≤ ∑ j, W j * d j ^ 2

namespace SmoothProblem
variable (P : SmoothProblem ν κ)

/-- The gradient. -/
def G (x : Arr ν) : Arr ν := P.Kt fun k => P.D k * P.ψ (P.K x) k

/-- One step. -/
noncomputable def T (a : Args ν ι) (x : Arr ν) : Arr ν := clipMask a fun j => x j - P.ω / P.W j * P.G x j

theorem G_inner (x y d : Arr ν) : ∑ j, d j * (P.G x j - P.G y j) = ∑ k, P.D k * ((P.ψ (P.K x) k - P.ψ (P.K y) k) * P.K d k) := by
  have h1 := P.adj d fun k => P.D k * P.ψ (P.K x) k
  have h2 := P.adj d fun k => P.D k * P.ψ (P.K y) k
  unfold G
  simp only [mul_sub, sum_sub_distrib]
  rw [h1, h2, ← sum_sub_distrib]
  exact sum_congr rfl fun k _ => by ring

theorem inner_ge (x y : Arr ν) : ∑ k, P.D k * (P.ψ (P.K x) k - P.ψ (P.K y) k) ^ 2 ≤ ∑ j, (x j - y j) * (P.G x j - P.G y j) := by
  rw [P.G_inner, P.sub]
  exact P.firm _ _

theorem inner_le (x y : Arr ν) : ∑ j, (x j - y j) * (P.G x j - P.G y j) ≤ ∑ k, P.D k * (P.K x k - P.K y k) ^ 2 := by
  have h1 := P.firm (P.K x) (P.K y)
  rw [P.G_inner, P.sub]
  have h2 : 0 ≤ ∑ k, P.D k * (P.K x k - P.K y k - (P.ψ (P.K x) k - P.ψ (P.K y) k)) ^ 2 := sum_nonneg fun k _ => mul_nonneg (P.D0 k) (sq_nonneg _)
  have h3 : ∑ k, P.D k * (P.K x k - P.K y k - (P.ψ (P.K x) k - P.ψ (P.K y) k)) ^ 2 = ∑ k, P.D k * (P.K x k - P.K y k) ^ 2 -
      2 * ∑ k, P.D k * ((P.ψ (P.K x) k - P.ψ (P.K y) k) * (P.K x k - P.K y k)) + ∑ k, P.D k * (P.ψ (P.K x) k - P.ψ (P.K y) k) ^ 2 := by
    rw [mul_sum, ← sum_sub_distrib, ← sum_add_distrib]
    exact sum_congr rfl fun k _ => by ring
  dsimp only
  linarith

/-- Cocoercivity on the mask. -/
theorem coco (x y : Arr ν) :
    ∑ j, P.m j * ((P.G x j - P.G y j) ^ 2 / P.W j) ≤ ∑ j, (x j - y j) * (P.G x j - P.G y j) := by
  set g : Arr ν := fun j => P.G x j - P.G y j with hg
  set p : Arr κ := fun k => P.ψ (P.K x) k - P.ψ (P.K y) k with hp
  set e : Arr ν := fun j => P.m j * g j / P.W j with he
  have he0 : ∀ j, P.m j = 0 → e j = 0 := fun j hj => by simp only [he, hj, zero_mul, zero_div]
  have h1 : ∑ j, P.W j * e j ^ 2 = ∑ j, P.m j * (g j ^ 2 / P.W j) := by
    refine sum_congr rfl fun j _ => ?_
    have := (P.Wpos j).ne'
    rcases P.mask j with h | h <;> simp only [he, h] <;> field_simp <;> ring
  have h2 : ∑ j, P.W j * e j ^ 2 = ∑ j, e j * g j := by
    refine sum_congr rfl fun j _ => ?_
    have := (P.Wpos j).ne'
    rcases P.mask j with h | h <;> simp only [he, h] <;> field_simp <;> ring
  have h3 : ∑ j, e j * g j = ∑ k, P.D k * (p k * P.K e k) := P.G_inner x y e
  have h4 := P.pc e he0
  have h5 : 0 ≤ ∑ k, P.D k * (p k - P.K e k) ^ 2 := sum_nonneg fun k _ => mul_nonneg (P.D0 k) (sq_nonneg _)
  have h6 : ∑ k, P.D k * (p k - P.K e k) ^ 2 = ∑ k, P.D k * p k ^ 2 - 2 * ∑ k, P.D k * (p k * P.K e k) + ∑ k, P.D k * P.K e k ^ 2 := by
    rw [mul_sum, ← sum_sub_distrib, ← sum_add_distrib]
    exact sum_congr rfl fun k _ => by ring
  have h7 := P.inner_ge x y
  change ∑ k, P.D k * p k ^ 2 ≤ _ at h7
  rw [← h1]
  linarith

variable {a : Args ν ι} (hs : SensibleScale (fun (_ : ι) (_ : ν) => (0 : ℝ)) a) (hm : P.m = effXMask a) {z0 : Arr ν} (hz0 : Admissible a z0)
include hs hm hz0

theorem T_adm (x : Arr ν) : Admissible a (P.T a x) := clipMask_admissible hs hz0 _

/-- One step, elementwise. -/
private theorem clip_firm (u v : Arr ν) (j : ν) :
    (clipMask a u j - clipMask a v j) ^ 2 ≤ (u j - v j) * (clipMask a u j - clipMask a v j) := by
  have h1 := clip_vi hs (clipMask_admissible hs hz0 v) u j
  have h2 := clip_vi hs (clipMask_admissible hs hz0 u) v j
  nlinarith

private theorem step_bound {x y : Arr ν} (hxy : ∀ j, effXMask a j = 0 → x j = y j) :
    ∑ j, P.m j * (P.W j * ((x j - P.ω / P.W j * P.G x j) - (y j - P.ω / P.W j * P.G y j)) ^ 2) ≤
      dist2 P.W x y - P.ω * (2 - P.ω) * ∑ j, (x j - y j) * (P.G x j - P.G y j) := by
  have hc := P.coco x y
  have h1 : ∑ j, P.m j * (P.W j * ((x j - P.ω / P.W j * P.G x j) - (y j - P.ω / P.W j * P.G y j)) ^ 2) =
      dist2 P.W x y - 2 * P.ω * ∑ j, (x j - y j) * (P.G x j - P.G y j) + P.ω ^ 2 * ∑ j, P.m j * ((P.G x j - P.G y j) ^ 2 / P.W j) := by
    unfold dist2
    rw [mul_sum, mul_sum, ← sum_sub_distrib, ← sum_add_distrib]
    refine sum_congr rfl fun j _ => ?_
    have := (P.Wpos j).ne'
    rcases P.mask j with h | h
    · have : x j = y j := hxy j (by rw [← hm]; exact h)
      rw [h, this]; ring
    · rw [h]; field_simp; ring
  rw [h1]
  have := mul_le_mul_of_nonneg_left hc (sq_nonneg P.ω)
  nlinarith

private theorem T_le {x y : Arr ν} : dist2 P.W (P.T a x) (P.T a y) ≤
      ∑ j, P.m j * (P.W j * ((x j - P.ω / P.W j * P.G x j) - (y j - P.ω / P.W j * P.G y j)) ^ 2) := by
  refine sum_le_sum fun j _ => ?_
  rcases P.mask j with h | h
  · have hj : effXMask a j = 0 := by rw [← hm]; exact h
    rw [zeroOutside_eff (admissible_zero (P.T_adm hs hm hz0 x)) j hj, zeroOutside_eff (admissible_zero (P.T_adm hs hm hz0 y)) j hj, h]
    simp
  · rw [h, one_mul]
    refine mul_le_mul_of_nonneg_left ?_ (P.Wpos j).le
    have h3 := P.clip_firm hs hm hz0 (fun j => x j - P.ω / P.W j * P.G x j) (fun j => y j - P.ω / P.W j * P.G y j) j
    change (P.T a x j - P.T a y j) ^ 2 ≤ _ * (P.T a x j - P.T a y j) at h3
    nlinarith [sq_nonneg (((x j - P.ω / P.W j * P.G x j) - (y j - P.ω / P.W j * P.G y j)) - (P.T a x j - P.T a y j))]

theorem T_nonexp {x y : Arr ν} (hxy : ∀ j, effXMask a j = 0 → x j = y j) : dist2 P.W (P.T a x) (P.T a y) ≤ dist2 P.W x y := by
  refine (P.T_le hs hm hz0).trans ((P.step_bound hs hm hz0 hxy).trans ?_)
  have h1 : 0 ≤ ∑ j, (x j - y j) * (P.G x j - P.G y j) :=
    (sum_nonneg fun k _ => mul_nonneg (P.D0 k) (sq_nonneg _)).trans (P.inner_ge x y)
  have := mul_nonneg (mul_nonneg P.ωpos.le (by linarith [P.ωlt] : 0 ≤ 2 - P.ω)) h1
  linarith

/-- No progress towards a fixed point only at fixed points. -/
theorem T_strict {c z : Arr ν} (hc : Admissible a c) (hz : Admissible a z) (hf : P.T a z = z) (heq : dist2 P.W (P.T a c) z = dist2 P.W c z) :
    P.T a c = c := by
  have hcz : ∀ j, effXMask a j = 0 → c j = z j := fun j hj => by
    rw [zeroOutside_eff (admissible_zero hc) j hj, zeroOutside_eff (admissible_zero hz) j hj]
  have h1 := P.T_le hs hm hz0 (x := c) (y := z)
  have h2 := P.step_bound hs hm hz0 hcz
  rw [hf, heq] at h1
  have hω : 0 < P.ω * (2 - P.ω) := mul_pos P.ωpos (by linarith [P.ωlt])
  have h3 : ∑ j, (c j - z j) * (P.G c j - P.G z j) ≤ 0 := by
    by_contra hne
    push Not at hne
    have := mul_pos hω hne
    linarith
  have h4 : ∀ j, P.m j * ((P.G c j - P.G z j) ^ 2 / P.W j) = 0 := by
    have h0 : ∀ j ∈ (univ : Finset ν), 0 ≤ P.m j * ((P.G c j - P.G z j) ^ 2 / P.W j) := fun j _ =>
      mul_nonneg (by rcases P.mask j with h | h <;> rw [h]; norm_num) (div_nonneg (sq_nonneg _) (P.Wpos j).le)
    exact fun j => (sum_eq_zero_iff_of_nonneg h0).1 (le_antisymm ((P.coco c z).trans h3) (sum_nonneg h0)) j (mem_univ j)
  have h5 : ∀ j, P.m j = 1 → P.G c j = P.G z j := by
    intro j hj
    have := h4 j
    rw [hj, one_mul, div_eq_zero_iff] at this
    have h6 := this.resolve_right (P.Wpos j).ne'
    have := pow_eq_zero_iff (two_ne_zero) |>.1 h6
    linarith
  -- elementwise equality
  have hTz : ∀ j, P.T a z j = z j := fun j => congrFun hf j
  have h6 : ∀ j, P.W j * (P.T a c j - z j) ^ 2 ≤ P.W j * (c j - z j) ^ 2 ∧ (P.m j = 1 → (P.T a c j - z j) ^ 2 ≤ (c j - z j) * (P.T a c j - z j)) := by
    intro j
    rcases P.mask j with h | h
    · have hj : effXMask a j = 0 := by rw [← hm]; exact h
      refine ⟨?_, fun h1 => by rw [h] at h1; norm_num at h1⟩
      rw [zeroOutside_eff (admissible_zero (P.T_adm hs hm hz0 c)) j hj, hcz j hj, zeroOutside_eff (admissible_zero hz) j hj]
    · have h3 := P.clip_firm hs hm hz0 (fun j => c j - P.ω / P.W j * P.G c j) (fun j => z j - P.ω / P.W j * P.G z j) j
      change (P.T a c j - P.T a z j) ^ 2 ≤ _ * (P.T a c j - P.T a z j) at h3
      rw [hTz j, h5 j h] at h3
      have h7 : (P.T a c j - z j) ^ 2 ≤ (c j - z j) * (P.T a c j - z j) := by
        refine h3.trans (le_of_eq ?_)
        ring
      refine ⟨mul_le_mul_of_nonneg_left ?_ (P.Wpos j).le, fun _ => h7⟩
      nlinarith [sq_nonneg (c j - z j - (P.T a c j - z j))]
  have h7 : ∀ j, P.W j * (P.T a c j - z j) ^ 2 = P.W j * (c j - z j) ^ 2 :=
    fun j => (sum_eq_sum_iff_of_le fun j _ => (h6 j).1).1 heq j (mem_univ j)
  funext j
  rcases P.mask j with h | h
  · have hj : effXMask a j = 0 := by rw [← hm]; exact h
    rw [zeroOutside_eff (admissible_zero (P.T_adm hs hm hz0 c)) j hj, zeroOutside_eff (admissible_zero hc) j hj]
  · have e1 := mul_left_cancel₀ (P.Wpos j).ne' (h7 j)
    have e2 := (h6 j).2 h
    have e3 : (P.T a c j - z j - (c j - z j)) ^ 2 ≤ 0 := by nlinarith
    have e4 := pow_eq_zero_iff (two_ne_zero) |>.1 (le_antisymm e3 (sq_nonneg _))
    linarith

/-- The iterates converge to a fixed point, if there is one. -/
theorem T_converges {z : Arr ν} (hz : Admissible a z) (hf : P.T a z = z) (x0 : Arr ν) :
    ∃ c, Admissible a c ∧ P.T a c = c ∧ Tendsto (fun n => (P.T a)^[n] x0) atTop (𝓝 c) := by
  set X : ℕ → Arr ν := fun n => (P.T a)^[n + 1] x0 with hX
  have hXs : ∀ n, X (n + 1) = P.T a (X n) := fun n => Function.iterate_succ_apply' _ _ _
  have hXa : ∀ n, Admissible a (X n) := fun n => by
    simp only [hX, Function.iterate_succ_apply']
    exact P.T_adm hs hm hz0 _
  have hEq : ∀ {x y : Arr ν}, Admissible a x → Admissible a y → ∀ j, effXMask a j = 0 → x j = y j := fun hx hy j hj => by
    rw [zeroOutside_eff (admissible_zero hx) j hj, zeroOutside_eff (admissible_zero hy) j hj]
  have hd0 : ∀ x y : Arr ν, 0 ≤ dist2 P.W x y := fun x y => sum_nonneg fun j _ => mul_nonneg (P.Wpos j).le (sq_nonneg _)
  have hanti : ∀ {y : Arr ν}, Admissible a y → P.T a y = y → Antitone fun n => dist2 P.W (X n) y := fun {y} hy hyf =>
    antitone_nat_of_succ_le fun n => by
      have := P.T_nonexp hs hm hz0 (hEq (hXa n) hy)
      rw [hyf] at this
      rw [hXs]
      exact this
  have hcont : ∀ y : Arr ν, Continuous fun x : Arr ν => dist2 P.W x y := fun y => by unfold dist2; fun_prop
  have hcont' : ∀ y : Arr ν, Continuous fun x : Arr ν => dist2 P.W y x := fun y => by unfold dist2; fun_prop
  -- boundedness
  have hpt : ∀ x y : Arr ν, ∀ j, (x j - y j) ^ 2 ≤ dist2 P.W x y / P.W j := fun x y j => by
    rw [le_div_iff₀ (P.Wpos j), mul_comm]
    exact single_le_sum (f := fun j => P.W j * (x j - y j) ^ 2) (fun j _ => mul_nonneg (P.Wpos j).le (sq_nonneg _)) (mem_univ j)
  have hbd : Bornology.IsBounded (Set.range X) := by
    refine (Bornology.IsBounded.pi (S := fun j => Set.Icc (z j - Real.sqrt (dist2 P.W (X 0) z / P.W j)) (z j + Real.sqrt (dist2 P.W (X 0) z / P.W j)))
      fun j => Metric.isBounded_Icc _ _).subset ?_
    rintro _ ⟨n, rfl⟩ j -
    have h1 := (hpt (X n) z j).trans (div_le_div_of_nonneg_right (hanti hz hf (Nat.zero_le n)) (P.Wpos j).le)
    have h2 := Real.abs_le_sqrt h1
    rw [abs_le] at h2
    exact ⟨by linarith [h2.1], by linarith [h2.2]⟩
  obtain ⟨c, -, φ, hφ, hlim⟩ := tendsto_subseq_of_bounded hbd (fun n => Set.mem_range_self n)
  have hca : Admissible a c := (admissible_iff a c).2 fun j => (admissible_closed a j).mem_of_tendsto (tendsto_pi_nhds.1 hlim j)
    (Eventually.of_forall fun n => (admissible_iff a _).1 (hXa _) j)
  -- the image of the cluster point
  have hTlim : Tendsto (fun n => X (φ n + 1)) atTop (𝓝 (P.T a c)) := by
    have h1 : Tendsto (fun n => dist2 P.W (X (φ n)) c) atTop (𝓝 0) := by
      have := ((hcont c).tendsto c).comp hlim
      have e : dist2 P.W c c = 0 := by simp [dist2]
      rwa [e] at this
    have h2 : Tendsto (fun n => dist2 P.W (X (φ n + 1)) (P.T a c)) atTop (𝓝 0) :=
      squeeze_zero (fun n => hd0 _ _) (fun n => by rw [hXs]; exact P.T_nonexp hs hm hz0 (hEq (hXa _) hca)) h1
    refine tendsto_pi_nhds.2 fun j => ?_
    have h3 : Tendsto (fun n => (X (φ n + 1) j - P.T a c j) ^ 2) atTop (𝓝 0) := by
      refine squeeze_zero (fun n => sq_nonneg _) (fun n => hpt _ _ j) ?_
      simpa using h2.div_const (P.W j)
    have h4 := h3.sqrt
    simp only [Real.sqrt_sq_eq_abs, Real.sqrt_zero] at h4
    have h5 := (tendsto_zero_iff_abs_tendsto_zero _).2 h4
    simpa using h5.add_const (P.T a c j)
  have hcf : P.T a c = c := by
    refine P.T_strict hs hm hz0 hca hz hf ?_
    obtain ⟨l, hl⟩ := (tendsto_of_antitone (hanti hz hf)).resolve_left fun h => by
      obtain ⟨n, hn⟩ := (h.eventually (eventually_lt_atBot 0)).exists
      exact absurd hn (not_lt.2 (hd0 _ _))
    have h1 := hl.comp hφ.tendsto_atTop
    have h2 := hl.comp ((tendsto_add_atTop_nat 1).comp hφ.tendsto_atTop)
    have h3 := ((hcont z).tendsto c).comp hlim
    have h4 := ((hcont z).tendsto (P.T a c)).comp hTlim
    rw [tendsto_nhds_unique h4 h2, tendsto_nhds_unique h3 h1]
  refine ⟨c, hca, hcf, ?_⟩
  have hdl : Tendsto (fun n => dist2 P.W (X n) c) atTop (𝓝 0) := by
    have h1 : Tendsto (fun n => dist2 P.W (X (φ n)) c) atTop (𝓝 0) := by
      have := ((hcont c).tendsto c).comp hlim
      have e : dist2 P.W c c = 0 := by simp [dist2]
      rwa [e] at this
    rw [Metric.tendsto_atTop] at h1 ⊢
    intro ε hε
    obtain ⟨N, hN⟩ := h1 ε hε
    refine ⟨φ N, fun n hn => ?_⟩
    have h2 := hN N le_rfl
    rw [Real.dist_eq, sub_zero, abs_of_nonneg (hd0 _ _)] at h2 ⊢
    exact (hanti hca hcf hn).trans_lt h2
  have hXl : Tendsto X atTop (𝓝 c) := by
    refine tendsto_pi_nhds.2 fun j => ?_
    have h3 : Tendsto (fun n => (X n j - c j) ^ 2) atTop (𝓝 0) := by
      refine squeeze_zero (fun n => sq_nonneg _) (fun n => hpt _ _ j) ?_
      simpa using hdl.div_const (P.W j)
    have h4 := h3.sqrt
    simp only [Real.sqrt_sq_eq_abs, Real.sqrt_zero] at h4
    have h5 := (tendsto_zero_iff_abs_tendsto_zero _).2 h4
    simpa using h5.add_const (c j)
  exact (tendsto_add_atTop_iff_nat 1).1 hXl

/-- A limit of the iterations is an admissible fixed point. -/
theorem limit_fixed {x0 c : Arr ν} (hlim : Tendsto (fun n => (P.T a)^[n] x0) atTop (𝓝 c)) : Admissible a c ∧ P.T a c = c := by
  set X : ℕ → Arr ν := fun n => (P.T a)^[n + 1] x0 with hX
  have hXs : ∀ n, X (n + 1) = P.T a (X n) := fun n => Function.iterate_succ_apply' _ _ _
  have hXa : ∀ n, Admissible a (X n) := fun n => by
    simp only [hX, Function.iterate_succ_apply']
    exact P.T_adm hs hm hz0 _
  have hXl : Tendsto X atTop (𝓝 c) := (tendsto_add_atTop_iff_nat 1).2 hlim
  have hca : Admissible a c := (admissible_iff a c).2 fun j => (admissible_closed a j).mem_of_tendsto (tendsto_pi_nhds.1 hXl j)
    (Eventually.of_forall fun n => (admissible_iff a _).1 (hXa _) j)
  have hcont : ∀ y : Arr ν, Continuous fun x : Arr ν => dist2 P.W x y := fun y => by unfold dist2; fun_prop
  have h1 : Tendsto (fun n => dist2 P.W (X n) c) atTop (𝓝 0) := by
    have := ((hcont c).tendsto c).comp hXl
    have e : dist2 P.W c c = 0 := by simp [dist2]
    rwa [e] at this
  have h2 : Tendsto (fun n => dist2 P.W (X (n + 1)) (P.T a c)) atTop (𝓝 0) :=
    squeeze_zero (fun n => sum_nonneg fun j _ => mul_nonneg (P.Wpos j).le (sq_nonneg _)) (fun n => by
      rw [hXs]
      exact P.T_nonexp hs hm hz0 fun j hj => by
        rw [zeroOutside_eff (admissible_zero (hXa n)) j hj, zeroOutside_eff (admissible_zero hca) j hj]) h1
  have h3 := ((hcont (P.T a c)).tendsto c).comp ((tendsto_add_atTop_iff_nat 1).2 hXl)
  have h4 : dist2 P.W c (P.T a c) = 0 := tendsto_nhds_unique h3 h2
  refine ⟨hca, ?_⟩
  funext j
  have h5 := (sum_eq_zero_iff_of_nonneg fun j _ => mul_nonneg (P.Wpos j).le (sq_nonneg _)).1 h4 j (mem_univ _)
  rcases mul_eq_zero.1 h5 with h | h
  · exact absurd h (P.Wpos j).ne'
  · have := pow_eq_zero_iff (two_ne_zero) |>.1 h
    linarith

/-- Fixed points solve the variational inequality. -/
theorem vi_of_fixed {z : Arr ν} (hf : P.T a z = z) {y : Arr ν} (hy : Admissible a y) : 0 ≤ ∑ j, (y j - z j) * P.G z j := by
  have hz : Admissible a z := hf ▸ P.T_adm hs hm hz0 z
  have h1 : ∀ j, 0 ≤ (y j - z j) * P.G z j := by
    intro j
    have h2 := clip_vi hs hy (fun j => z j - P.ω / P.W j * P.G z j) j
    have h3 : clipMask a (fun j => z j - P.ω / P.W j * P.G z j) j = z j := congrFun hf j
    rw [h3] at h2
    have h4 : P.ω / P.W j * -((y j - z j) * P.G z j) ≤ 0 := by
      nlinarith
    have h5 : 0 < P.ω / P.W j := div_pos P.ωpos (P.Wpos j)
    by_contra hne
    push Not at hne
    have := mul_pos h5 (neg_pos.2 hne)
    linarith
  exact sum_nonneg fun j _ => h1 j

end SmoothProblem
end Verif
