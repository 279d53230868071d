import Verif.Props.FistaLimit
import Verif.Props.PdhgDefault
import Verif.Props.SartConv
import Verif.Props.MlemConv

/-! # C269: exact data are inverted exactly

If the data are the (noiseless) projections of a volume that the limits and the solution mask allow, and no other allowed volume has the same
projections, the iterative solvers converge to that volume. -/

namespace Verif
open Classical DataTerm Finset Filter Topology Spec

variable {ν ι Q : Type} [Fintype ν] [Fintype ι]

/-- The data are those of the volume `z`, which the limits and the solution mask allow: on every pixel of non-zero training weight, projection plus
background equals the datum. -/
def Explains (S : Solver ν ι Q) (M : ι → ν → ℝ) (a : Args ν ι) (b : Arr ι) (z : Arr ν) : Prop :=
  Admissible a z ∧ ∀ i, trainWeight a i ≠ 0 → S.term.addBackground (fun i => ∑ j, M i j * z j) i = b i

/-! ## Minimising sequences -/

omit [Fintype ι] in
/-- A minimising sequence of a continuous convex function converges to its minimiser, if there is only one. -/
private theorem tendsto_unique_min {C : Set (Arr ν)} (hC : IsClosed C) (hconv : Convex ℝ C) {f : Arr ν → ℝ} (hf : ConvexOn ℝ C f) (hc : Continuous f) {z : Arr ν}
    (hz : z ∈ C) (huniq : ∀ y ∈ C, f y ≤ f z → y = z) {x : ℕ → Arr ν} (hx : ∀ᶠ n in atTop, x n ∈ C) (hlim : Tendsto (fun n => f (x n)) atTop (𝓝 (f z))) :
    Tendsto x atTop (𝓝 z) := by
  rw [Metric.tendsto_atTop]
  by_contra hcon
  push Not at hcon
  obtain ⟨ε, hε, hfar⟩ := hcon
  -- on the sphere of radius ε around z, the function is larger than at z by a margin
  set K : Set (Arr ν) := C ∩ Metric.sphere z ε with hK
  have hKc : IsCompact K := (isCompact_sphere z ε).inter_left hC
  have hmargin : ∃ m, f z < m ∧ ∀ y ∈ K, m ≤ f y := by
    rcases K.eq_empty_or_nonempty with h | h
    · exact ⟨f z + 1, by linarith, by simp [h]⟩
    · obtain ⟨y, hy, hmin⟩ := hKc.exists_isMinOn h hc.continuousOn
      refine ⟨f y, ?_, fun w hw => hmin hw⟩
      by_contra hle
      have := huniq y hy.1 (not_lt.1 hle)
      have h2 : dist y z = ε := hy.2
      rw [this, dist_self] at h2
      exact hε.ne h2
  obtain ⟨m, hm, hle⟩ := hmargin
  obtain ⟨n0, hn0⟩ := eventually_atTop.1 (hx.and (hlim.eventually (gt_mem_nhds hm)))
  obtain ⟨n, hn, hd⟩ := hfar n0
  obtain ⟨hxC, hfx⟩ := hn0 n hn
  have hdpos : 0 < dist (x n) z := lt_of_lt_of_le hε hd
  set t := ε / dist (x n) z with ht
  have ht0 : 0 ≤ t := div_nonneg hε.le hdpos.le
  have ht1 : t ≤ 1 := (div_le_one hdpos).2 hd
  have hy : t • x n + (1 - t) • z ∈ K := by
    refine ⟨hconv hxC hz ht0 (sub_nonneg.2 ht1) (by ring), ?_⟩
    rw [Metric.mem_sphere, dist_eq_norm]
    have : t • x n + (1 - t) • z - z = t • (x n - z) := by
      rw [sub_smul, one_smul, smul_sub]; abel
    rw [this, norm_smul, Real.norm_of_nonneg ht0, ← dist_eq_norm, ht, div_mul_cancel₀ _ hdpos.ne']
  have h1 := hle _ hy
  have h2 := hf.2 hxC hz ht0 (sub_nonneg.2 ht1) (by ring)
  simp only [smul_eq_mul] at h2
  have h3 : t * f (x n) + (1 - t) * f z ≤ m * t + (1 - t) * f z := by nlinarith
  have h4 : t * f (x n) + (1 - t) * f z < m := by
    rcases ht0.eq_or_lt with h | h
    · rw [← h]; simpa using hm
    · nlinarith [mul_lt_mul_of_pos_left hfx h]
  linarith

private theorem adm_closed (a : Args ν ι) : IsClosed {x : Arr ν | Admissible a x} := by
  have : {x : Arr ν | Admissible a x} = ⋂ j, (fun x : Arr ν => x j) ⁻¹' {v : ℝ | (∀ l, a.lower = some l → l.get j ≤ v) ∧ (∀ u, a.upper = some u → v ≤ u.get j) ∧
      ∀ m, a.xMask = some m → v * m j = v} := by
    ext x
    simp only [Set.mem_setOf_eq, Set.mem_iInter, Set.mem_preimage]
    exact admissible_iff a x
  rw [this]
  exact isClosed_iInter fun j => (admissible_closed a j).preimage (continuous_apply j)

private theorem adm_convex (a : Args ν ι) : Convex ℝ {x : Arr ν | Admissible a x} := by
  intro x hx y hy p q hp hq hpq
  refine ⟨⟨fun l hl j => ?_, fun u hu j => ?_⟩, fun m hm j => ?_⟩
  · have h1 := hx.1.1 l hl j
    have h2 := hy.1.1 l hl j
    simp only [Pi.add_apply, Pi.smul_apply, smul_eq_mul]
    have e : l.get j = p * l.get j + q * l.get j := by rw [← add_mul, hpq, one_mul]
    linarith [mul_le_mul_of_nonneg_left h1 hp, mul_le_mul_of_nonneg_left h2 hq]
  · have h1 := hx.1.2 u hu j
    have h2 := hy.1.2 u hu j
    simp only [Pi.add_apply, Pi.smul_apply, smul_eq_mul]
    have e : u.get j = p * u.get j + q * u.get j := by rw [← add_mul, hpq, one_mul]
    linarith [mul_le_mul_of_nonneg_left h1 hp, mul_le_mul_of_nonneg_left h2 hq]
  · have h1 := hx.2 m hm j
    have h2 := hy.2 m hm j
    simp only [Pi.add_apply, Pi.smul_apply, smul_eq_mul, add_mul, mul_assoc, h1, h2]

private theorem misfit_convex (S : Solver ν ι Q) (M : ι → ν → ℝ) (b : Arr ι) {s : Arr ι} (hs : ∀ i, 0 ≤ s i) (C : Set (Arr ν)) (hC : Convex ℝ C) :
    ConvexOn ℝ C (misfit S (matrixOp M) b s) := by
  refine ⟨hC, fun x _ y _ p q hp hq hpq => ?_⟩
  rw [misfit_eq_wls, misfit_eq_wls, misfit_eq_wls]
  unfold wls
  simp only [smul_eq_mul]
  rw [← mul_div_assoc, ← mul_div_assoc, ← add_div, mul_sum, mul_sum, ← sum_add_distrib]
  refine div_le_div_of_nonneg_right (sum_le_sum fun i _ => ?_) zero_le_two
  have e : ∑ j, M i j * (p • x + q • y) j = p * ∑ j, M i j * x j + q * ∑ j, M i j * y j := by
    rw [mul_sum, mul_sum, ← sum_add_distrib]
    exact sum_congr rfl fun j _ => by simp only [Pi.add_apply, Pi.smul_apply, smul_eq_mul]; ring
  rw [e]
  generalize ∑ j, M i j * x j = X
  generalize ∑ j, M i j * y j = Y
  generalize b i - S.term.addBackground (fun _ => 0) i = c
  have hq' : q = 1 - p := by linarith
  subst hq'
  have h1 : p * (s i * (c - X) ^ 2) + (1 - p) * (s i * (c - Y) ^ 2) - s i * (c - (p * X + (1 - p) * Y)) ^ 2 = s i * (p * (1 - p) * (X - Y) ^ 2) := by ring
  have h2 : 0 ≤ s i * (p * (1 - p) * (X - Y) ^ 2) := mul_nonneg (hs i) (mul_nonneg (mul_nonneg hp hq) (sq_nonneg _))
  linarith

private theorem misfit_cont (S : Solver ν ι Q) (M : ι → ν → ℝ) (b s : Arr ι) : Continuous (misfit S (matrixOp M) b s) := by
  have : misfit S (matrixOp M) b s = fun x => wls M s (fun i => b i - S.term.addBackground (fun _ => 0) i) x := funext fun x => misfit_eq_wls ..
  rw [this]
  unfold wls
  refine Continuous.div_const (continuous_finset_sum _ fun i _ => ?_) _
  refine continuous_const.mul ((continuous_const.sub (continuous_finset_sum _ fun j _ => ?_)).pow 2)
  exact continuous_const.mul (continuous_apply j)

/-! ## SIRT, FISTA -/

private theorem weights_nonneg {M : ι → ν → ℝ} {a : Args ν ι} (hs : SensibleScale M a) {s : Arr ι} (hRN : RowNormalized M a s) (i : ι) : 0 ≤ s i := by
  obtain ⟨R, hR, -, e⟩ := hRN i
  rw [e]
  refine div_nonneg ?_ hR.le
  unfold trainWeight
  refine mul_nonneg ?_ ?_
  · cases hm : a.bMask with
    | none => simp
    | some m => exact (hs.bMask m hm i).1
  · cases ht : a.bTestMask with
    | none => simp
    | some t => have := (hs.test t ht i).2; simpa using this

private theorem min_explains {S : Solver ν ι Q} {M : ι → ν → ℝ} {a : Args ν ι} {b s : Arr ι} (hs : SensibleScale M a) (hRN : RowNormalized M a s) {z0 z : Arr ν}
    (h0 : Explains S M a b z0) (hz : Admissible a z) (hle : misfit S (matrixOp M) b s z ≤ misfit S (matrixOp M) b s z0) : Explains S M a b z := by
  have hs0 := weights_nonneg hs hRN
  have hzero : misfit S (matrixOp M) b s z0 = 0 := by
    unfold misfit
    rw [sum_eq_zero, zero_div]
    intro i _
    by_cases hi : trainWeight a i = 0
    · obtain ⟨R, -, -, e⟩ := hRN i
      rw [e, hi, zero_div, zero_mul]
    · have := h0.2 i hi
      have e : S.term.addBackground ((matrixOp M).fwd z0) i = b i := this
      rw [e, sub_self]
      ring
  rw [hzero] at hle
  have hsum : ∑ i, s i * (b i - S.term.addBackground ((matrixOp M).fwd z) i) ^ 2 = 0 := by
    unfold misfit at hle
    refine le_antisymm (by linarith) (sum_nonneg fun i _ => mul_nonneg (hs0 i) (sq_nonneg _))
  refine ⟨hz, fun i hi => ?_⟩
  have h1 := (sum_eq_zero_iff_of_nonneg fun i _ => mul_nonneg (hs0 i) (sq_nonneg _)).1 hsum i (mem_univ i)
  obtain ⟨R, hR, -, e⟩ := hRN i
  have hne : s i ≠ 0 := by rw [e]; exact div_ne_zero hi hR.ne'
  have h2 : b i - S.term.addBackground ((matrixOp M).fwd z) i = 0 := by
    rcases mul_eq_zero.1 h1 with h | h
    · exact absurd h hne
    · exact pow_eq_zero_iff two_ne_zero |>.1 h
  exact (sub_eq_zero.1 h2).symm

/-- C269 for SIRT (relaxation between 0 and 2, l2 data term with or without background, no regularizer, no tolerance), for any start volume, masks and limits: the volumes
returned for more and more iterations converge to the volume whose data were given, if no other allowed volume has the same data. -/
theorem C269_sirt {M : ι → ν → ℝ} {S : Solver ν ι Q} {b : Arr ι} {a : Args ν ι} {x : ℕ → Arr ν} {z0 : Arr ν}
    (hrun : ∀ n, ∃ info S', sirt S (matrixOp M) b { a with iterations := n } = .ok (x n, info, S')) (hr : S.regs = []) (hk : S.term.kind = .l2)
    (hT : S.tolerance = none) (hω : 0 < S.relaxation) (hω2 : S.relaxation < 2) (hs : SensibleScale M a)
    (h0 : Explains S M a b z0) (huniq : ∀ z, Explains S M a b z → z = z0) : Tendsto x atTop (𝓝 z0) := by
  obtain ⟨s, z, hRN, hz, hmin, hlim⟩ := C251_sirt_converges hrun hr hk hT hω hω2 hs ⟨z0, h0.1⟩
  rwa [huniq z (min_explains hs hRN h0 hz (hmin z0 h0.1))] at hlim

/-- C61, sharper when the solution is unique: then the volumes FISTA returns converge themselves (and not only their misfits and projections). -/
theorem C61_fista_unique {M : ι → ν → ℝ} {S : Solver ν ι Q} {b : Arr ι} {a : Args ν ι} {rnd : Arr ι} {x : ℕ → Arr ν}
    (hrun : ∀ n, ∃ info S', fista S (matrixOp M) b { a with iterations := n } true rnd = .ok (x n, info, S')) (hr : S.regs = []) (hk : S.term.kind = .l2)
    (hT : S.tolerance = none) (hR : S.restartPeriod = none) (hω : 0 < S.relaxation) (hω1 : S.relaxation ≤ 1) (hs : SensibleScale M a) (ha : ∃ z, Admissible a z) :
    ∃ s z, RowNormalized M a s ∧ Admissible a z ∧ (∀ y, Admissible a y → misfit S (matrixOp M) b s z ≤ misfit S (matrixOp M) b s y) ∧
      ((∀ y, Admissible a y → misfit S (matrixOp M) b s y ≤ misfit S (matrixOp M) b s z → y = z) → Tendsto x atTop (𝓝 z)) := by
  obtain ⟨s, z, hRN, hz, hmin, hlim, -⟩ := C61_fista_limit hrun hr hk hT hR hω hω1 hs ha
  refine ⟨s, z, hRN, hz, hmin, fun hu => ?_⟩
  refine tendsto_unique_min (adm_closed a) (adm_convex a) (misfit_convex S M b (weights_nonneg hs hRN) _ (adm_convex a)) (misfit_cont S M b s) hz hu ?_ hlim
  refine eventually_atTop.2 ⟨1, fun n hn => ?_⟩
  obtain ⟨info, S', h⟩ := hrun n
  have hb := fun m hm => hs.xMask m hm
  have h1 : WithinLimits a (x n) := C03_fista_limits (a := { a with iterations := n }) h ⟨fun l u hl hu j => (hz.1.1 l hl j).trans (hz.1.2 u hu j), hb,
    fun m l hm hl j hj => by have := hz.1.1 l hl j; rw [admissible_zero hz m hm j hj] at this; exact this,
    fun m u hm hu j hj => by have := hz.1.2 u hu j; rw [admissible_zero hz m hm j hj] at this; exact this⟩ hn
  have h2 : ZeroOutsideMask a (x n) := C04_fista_mask (a := { a with iterations := n }) h
  refine ⟨h1, fun m hm j => ?_⟩
  rcases hb m hm j with e | e
  · rw [e, h2 m hm j e, zero_mul]
  · rw [e, mul_one]

/-- C269 for FISTA (default preconditioning, relaxation in (0, 1], no restart, l2 data term, no regularizer, no tolerance). -/
theorem C269_fista {M : ι → ν → ℝ} {S : Solver ν ι Q} {b : Arr ι} {a : Args ν ι} {rnd : Arr ι} {x : ℕ → Arr ν} {z0 : Arr ν}
    (hrun : ∀ n, ∃ info S', fista S (matrixOp M) b { a with iterations := n } true rnd = .ok (x n, info, S')) (hr : S.regs = []) (hk : S.term.kind = .l2)
    (hT : S.tolerance = none) (hR : S.restartPeriod = none) (hω : 0 < S.relaxation) (hω1 : S.relaxation ≤ 1) (hs : SensibleScale M a)
    (h0 : Explains S M a b z0) (huniq : ∀ z, Explains S M a b z → z = z0) : Tendsto x atTop (𝓝 z0) := by
  obtain ⟨s, z, hRN, hz, hmin, hlim⟩ := C61_fista_unique hrun hr hk hT hR hω hω1 hs ⟨z0, h0.1⟩
  have hz0 := huniq z (min_explains hs hRN h0 hz (hmin z0 h0.1))
  subst hz0
  exact hlim fun y hy hle => huniq y (min_explains hs hRN h0 hy hle)

/-! ## PDHG -/

/-- Data terms that only the exact datum minimises: weights positive, and for Kullback-Leibler positive data on the training pixels. -/
def StrictKind (kind : Kind ι) (a : Args ν ι) (b : Arr ι) : Prop :=
  match kind with
  | .l2 => True
  | .wl2 w => ∀ i, 0 < w.get i
  | .huber e grp _ => (∀ i, 0 < e.get i) ∧ grp = none
  | .l1 => True
  | .kl => ∀ i, trainWeight a i ≠ 0 → 0 < b i
  | .l2b _ => False
  | .l12 _ => False
  | .l1b _ => False

omit [Fintype ν] [Fintype ι] in
private theorem strict_convexKind {kind : Kind ι} {a : Args ν ι} {b : Arr ι} (h : StrictKind kind a b) : ConvexKind kind := by
  cases kind with
  | wl2 w => exact fun i => (h i).le
  | l2b _ => exact h.elim
  | l12 _ => exact h.elim
  | l1b _ => exact h.elim
  | huber e g r => exact h
  | l2 => trivial
  | l1 => trivial
  | kl => trivial

omit [Fintype ν] [Fintype ι] in
private theorem strict_min {kind : Kind ι} {a : Args ν ι} {b : Arr ι} (h : StrictKind kind a b) {i : ι} (hi : trainWeight a i ≠ 0) {y : ℝ}
    (hy : y ∈ (pixelFunctional kind (b i) i).dom) :
    (pixelFunctional kind (b i) i).val (b i) ≤ (pixelFunctional kind (b i) i).val y ∧
      ((pixelFunctional kind (b i) i).val y ≤ (pixelFunctional kind (b i) i).val (b i) → y = b i) := by
  cases kind with
  | l2 =>
    simp only [pixelFunctional, fL2, sub_self]
    refine ⟨by nlinarith [sq_nonneg (y - b i)], fun hle => ?_⟩
    have : (y - b i) ^ 2 = 0 := le_antisymm (by linarith) (sq_nonneg _)
    exact sub_eq_zero.1 (pow_eq_zero_iff two_ne_zero |>.1 this)
  | wl2 w =>
    have hw : 0 < w.get i := h i
    simp only [pixelFunctional, fWL2, sub_self]
    have h1 := mul_nonneg hw.le (sq_nonneg (y - b i))
    refine ⟨by linarith, fun hle => ?_⟩
    have : w.get i * (y - b i) ^ 2 = 0 := le_antisymm (by linarith) h1
    exact sub_eq_zero.1 (pow_eq_zero_iff two_ne_zero |>.1 ((mul_eq_zero.1 this).resolve_left hw.ne'))
  | l2b _ => exact h.elim
  | l12 _ => exact h.elim
  | l1b _ => exact h.elim
  | l1 =>
    simp only [pixelFunctional, fL1, sub_self, abs_zero, one_mul]
    exact ⟨abs_nonneg _, fun hle => sub_eq_zero.1 (abs_eq_zero.1 (le_antisymm hle (abs_nonneg _)))⟩
  | huber e g r =>
    have he : 0 < e.get i := h.1 i
    simp only [pixelFunctional, fHuber, sub_self, abs_zero, he.le, if_true]
    by_cases hc : |y - b i| ≤ e.get i
    · rw [if_pos hc]
      have hnn : 0 ≤ (y - b i) ^ 2 / (2 * e.get i) := by positivity
      refine ⟨by simpa using hnn, fun hle => ?_⟩
      have h0 : (y - b i) ^ 2 / (2 * e.get i) = 0 := le_antisymm (by simpa using hle) hnn
      rcases div_eq_zero_iff.1 h0 with h1 | h1
      · exact sub_eq_zero.1 (pow_eq_zero_iff two_ne_zero |>.1 h1)
      · linarith
    · rw [if_neg hc]
      push Not at hc
      have h1 : (0 : ℝ) ^ 2 / (2 * e.get i) = 0 := by simp
      rw [h1]
      exact ⟨by linarith, fun hle => by linarith⟩
  | kl =>
    have hb : 0 < b i := h i hi
    have hm : max (b i) 0 = b i := max_eq_left hb.le
    simp only [pixelFunctional, fKL, hm] at hy ⊢
    have hy0 : 0 < y := by
      rcases hy with h | h
      · exact h
      · exact absurd h.2 hb.ne'
    have hq : 0 < y / b i := div_pos hy0 hb
    have e : Real.log y = Real.log (y / b i) + Real.log (b i) := by rw [Real.log_div hy0.ne' hb.ne']; ring
    have ey : y = b i * (y / b i) := by field_simp
    refine ⟨?_, fun hle => ?_⟩
    · have h1 := mul_le_mul_of_nonneg_left (Real.log_le_sub_one_of_pos hq) hb.le
      rw [mul_sub, mul_one, ← ey] at h1
      rw [e, mul_add]
      linarith
    · by_contra hne
      have hq1 : y / b i ≠ 1 := fun h1 => hne (by rw [ey, h1, mul_one])
      have h1 := mul_lt_mul_of_pos_left (Real.log_lt_sub_one_of_pos hq hq1) hb
      rw [mul_sub, mul_one, ← ey] at h1
      rw [e, mul_add] at hle
      linarith

omit [Fintype ν] in
private theorem strict_interior {kind : Kind ι} {a : Args ν ι} {b : Arr ι} (h : StrictKind kind a b) {i : ι} (hi : trainWeight a i ≠ 0) :
    b i ∈ interior (pixelFunctional kind (b i) i).dom := by
  by_cases hk : kind = .kl
  · subst hk
    have hb : 0 < b i := h i hi
    have hm : max (b i) 0 = b i := max_eq_left hb.le
    have : (pixelFunctional (.kl : Kind ι) (b i) i).dom = Set.Ioi 0 := by
      ext y
      simp [pixelFunctional, fKL, hm, hb.ne']
    rw [this, interior_Ioi]
    exact hb
  · rw [pixelFunctional_dom_univ (strict_convexKind h) hk, interior_univ]
    trivial

/-- C269 for PDHG (default preconditioning, relaxation in (0, 1), no tolerance, no regularizer, 0/1 training weights), with the data terms l2, weighted l2, Huber, l1 and (for
positive data) Kullback-Leibler. -/
theorem C269_pdhg {M : ι → ν → ℝ} {S : Solver ν ι (Arr Unit)} {b : Arr ι} {a : Args ν ι} {rnd : Arr ι} {x : ℕ → Arr ν} {z0 : Arr ν}
    (hrun : ∀ n, ∃ info S', pdhg S (matrixOp M) b { a with iterations := n } true rnd = .ok (x n, info, S')) (hr : S.regs = []) (hk : StrictKind S.term.kind a b)
    (hT : S.tolerance = none) (hω : 0 < S.relaxation) (hω1 : S.relaxation < 1) (hs : SensibleScale M a) (htw : ∀ i, trainWeight a i = 0 ∨ trainWeight a i = 1)
    (h0 : Explains S M a b z0) (huniq : ∀ z, Explains S M a b z → z = z0) : Tendsto x atTop (𝓝 z0) := by
  have htw0 : ∀ i, 0 ≤ trainWeight a i := fun i => by rcases htw i with h | h <;> rw [h]; exact zero_le_one
  have hfeas0 : Feasible S M a b z0 := ⟨h0.1, fun i hi => by
    rw [h0.2 i hi]
    exact interior_subset (strict_interior hk hi)⟩
  -- pixel by pixel, nothing is better than `z0`
  have hpix : ∀ z, Feasible S M a b z → ∀ i,
      trainWeight a i * (pixelFunctional S.term.kind (b i) i).val (S.term.addBackground (fun i => ∑ j, M i j * z0 j) i) ≤
      trainWeight a i * (pixelFunctional S.term.kind (b i) i).val (S.term.addBackground (fun i => ∑ j, M i j * z j) i) := by
    intro z hz i
    by_cases hi : trainWeight a i = 0
    · rw [hi, zero_mul, zero_mul]
    · rw [h0.2 i hi]
      exact mul_le_mul_of_nonneg_left (strict_min hk hi (hz.2 i hi)).1 (htw0 i)
  have hsol : IsSolution (δ := Unit) S M a b [] z0 := ⟨hfeas0, fun z hz => by
    simp only [objective, List.map_nil, List.sum_nil, add_zero]
    exact sum_le_sum fun i _ => hpix z hz i⟩
  obtain ⟨z, hz, hlim⟩ := C141_pdhg_converges_plain hr (strict_convexKind hk) hT hω hω1 hs htw ⟨z0, hsol⟩
    ⟨z0, h0.1, fun i hi => by rw [h0.2 i hi]; exact strict_interior hk hi⟩ hrun
  have hex : Explains S M a b z := by
    refine ⟨hz.1.1, fun i hi => ?_⟩
    have hle := hz.2 z0 hfeas0
    simp only [objective, List.map_nil, List.sum_nil, add_zero] at hle
    have heq := (sum_eq_sum_iff_of_le fun i _ => hpix z hz.1 i).1 (le_antisymm (sum_le_sum fun i _ => hpix z hz.1 i) hle) i (mem_univ i)
    have h1 := mul_left_cancel₀ hi heq
    rw [h0.2 i hi] at h1
    exact (strict_min hk hi (hz.1.2 i hi)).2 h1.symm.le
  rwa [huniq z hex] at hlim

/-! ## SART, MLEM -/

omit [Fintype ι] in
/-- C269 for SART (relaxation between 0 and 2, projections with even weights, every projection in the order of the sweep). -/
theorem C269_sart {na nu : ℕ} {M : Fin na → Fin nu → ν → ℝ} {S : Solver ν (Fin na × Fin nu) Q} {b : Fin na × Fin nu → ℝ}
    {a : Args ν (Fin na × Fin nu)} {c : Arr ν} {rows : List (Fin na)} {x : ℕ → Arr ν} {z0 : Arr ν}
    (hrun : ∀ n, ∃ info, sart S (angleOp M) b { a with iterations := n } rows = .ok (x n, info)) (hT : S.tolerance = none) (hω : 0 < S.relaxation)
    (hω2 : S.relaxation < 2) (h : EvenWeights M a c) (hrows : ∀ k, k ∈ rows) (h0 : Admissible a z0 ∧ ReproducesStack M b a z0)
    (huniq : ∀ z, Admissible a z → ReproducesStack M b a z → z = z0) : Tendsto x atTop (𝓝 z0) := by
  obtain ⟨z, hz, hzr, hlim⟩ := C252_sart_converges_partial hrun hT hω hω2 h hrows ⟨z0, h0⟩
  rwa [huniq z hz hzr] at hlim

/-- C269 for MLEM (non-negative matrix, start and data, a background of at least `eps` at every pixel; `MlemSetting`): among the volumes that can be reached from the start. -/
theorem C269_mlem {M : ι → ν → ℝ} {S : Solver ν ι Q} {b : Arr ι} {a : Args ν ι} {x : ℕ → Arr ν} {z0 : Arr ν}
    (hrun : ∀ n, ∃ info S', mlem S (matrixOp M) b { a with iterations := n } = .ok (x n, info, S')) (hs : MlemSetting M S b a)
    (hbg : ∀ i, eps ≤ expected S (matrixOp M) (fun _ => 0) i)
    (h0 : (∀ j, 0 ≤ z0 j) ∧ (∀ j, applyMask a.xMask (startVolume a 1) j = 0 → z0 j = 0) ∧ expected S (matrixOp M) z0 = b)
    (huniq : ∀ z, (∀ j, 0 ≤ z j) → (∀ j, applyMask a.xMask (startVolume a 1) j = 0 → z j = 0) → expected S (matrixOp M) z = b → z = z0) :
    Tendsto x atTop (𝓝 z0) := by
  obtain ⟨z, hz, hlim⟩ := C250_mlem_background_partial hrun hs hbg
  have hpos : ∀ w : Arr ν, (∀ j, 0 ≤ w j) → ∀ i, 0 < expected S (matrixOp M) w i := by
    intro w hw i
    refine lt_of_lt_of_le (show (0 : ℝ) < eps by norm_num [eps]) ((hbg i).trans ?_)
    have h1 : (matrixOp M).fwd (fun _ => 0) i ≤ (matrixOp M).fwd w i := by
      refine sum_le_sum fun j _ => ?_
      rw [mul_zero]
      exact mul_nonneg (hs.matrix i j) (hw j)
    unfold expected addBackground
    cases S.term.background with
    | none => exact h1
    | some bg => simpa using h1
  have hle := hz.2 z0 ⟨h0.1, h0.2.1, fun i _ => hpos z0 h0.1 i⟩
  rw [h0.2.2] at hle
  have hb : ∀ i, 0 < b i := fun i => by have := hpos z0 h0.1 i; rwa [h0.2.2] at this
  have hpx : ∀ i, b i - b i * Real.log (b i) ≤ expected S (matrixOp M) z i - b i * Real.log (expected S (matrixOp M) z i) ∧
      (expected S (matrixOp M) z i - b i * Real.log (expected S (matrixOp M) z i) ≤ b i - b i * Real.log (b i) → expected S (matrixOp M) z i = b i) := by
    intro i
    have hm : max (b i) 0 = b i := max_eq_left (hb i).le
    have hd : expected S (matrixOp M) z i ∈ (pixelFunctional (.kl : Kind ι) (b i) i).dom := by
      simp only [pixelFunctional, fKL, hm]
      exact Or.inl (hpos z hz.1.1 i)
    have := strict_min (ν := ν) (kind := (.kl : Kind ι)) (a := { iterations := 0 }) (b := b) (fun i _ => hb i) (by simp [trainWeight]) hd
    simpa only [pixelFunctional, fKL, hm] using this
  have heq := (sum_eq_sum_iff_of_le fun i _ => (hpx i).1).1 (le_antisymm (sum_le_sum fun i _ => (hpx i).1) hle)
  have : z = z0 := huniq z hz.1.1 hz.1.2.1 (funext fun i => (hpx i).2 (heq i (mem_univ i)).symm.le)
  rwa [this] at hlim

/-! ## The hypotheses are met -/

/-- Two pixels, one voxel between 0 and 5, matrix `(1, -2)`, background 1, data `(3, -3)`: those of the voxel value 2, and of no other. -/
example : let S : Solver (Fin 1) (Fin 2) (Arr Unit) := ⟨1 / 2, none, [], .new .l2 (some (.scalar 1)), .new .l2 none, none⟩
    SensibleScale demoM demoArgs ∧ (∀ i, trainWeight demoArgs i = 0 ∨ trainWeight demoArgs i = 1) ∧
    Explains S demoM demoArgs ![3, -3] (fun _ => 2) ∧ (∀ z, Explains S demoM demoArgs ![3, -3] z → z = fun _ => 2) ∧
    StrictKind S.term.kind demoArgs ![3, -3] ∧ StrictKind (.l1 : Kind (Fin 2)) demoArgs ![3, -3] ∧
    (∀ n, ∃ r, sirt S (matrixOp demoM) ![3, -3] { demoArgs with iterations := n } = .ok r) ∧
    (∀ n, ∃ r, fista S (matrixOp demoM) ![3, -3] { demoArgs with iterations := n } true (fun _ => 1) = .ok r) ∧
    ∀ n, ∃ r, pdhg S (matrixOp demoM) ![3, -3] { demoArgs with iterations := n } true (fun _ => 1) = .ok r := by
  intro S
  have hw : ∀ i, trainWeight demoArgs i = 1 := fun i => by simp [trainWeight, demoArgs]
  obtain ⟨p, hp⟩ := matrix_scaling_ok (Q := Arr Unit) (M := demoM) 1 (1 / 2) ⟨0, 0, by simp [demoM]⟩
  obtain ⟨p2, hp2⟩ := scaling_regs_ok (M := demoM) ⟨0, 0, by simp [demoM]⟩ S demoArgs ⟨rfl, rfl, rfl⟩ (by simp [S]) fun _ => 1
  refine ⟨demo_scale, fun i => Or.inr (hw i), ⟨⟨⟨?_, ?_⟩, by simp [demoArgs]⟩, fun i _ => ?_⟩, fun z hz => ?_, trivial, trivial, fun n => ?_, fun n => ?_, fun n => ?_⟩
  · rintro l h j; simp [demoArgs] at h; simp [← h, Attr.get]
  · rintro l h j; simp [demoArgs] at h; simp [← h, Attr.get]; norm_num
  · fin_cases i <;> norm_num [S, demoM, addBackground, DataTerm.new, Attr.get]
  · have h1 := hz.2 0 (by rw [hw]; exact one_ne_zero)
    simp only [S, demoM, addBackground, DataTerm.new, Attr.get, Fin.sum_univ_one, if_true, one_mul, Matrix.cons_val_zero] at h1
    funext j
    fin_cases j
    show z 0 = 2
    linarith
  · exact sirt_runs (p := p) hp rfl
  · exact fista_runs (p := p) (by simpa [S, fistaScaling, matrixOp, demoArgs, initBMasks] using hp) rfl
  · exact pdhg_runs (p := p2) hp2 rfl

/-- Two projections of two voxels (see the example of C252): the data of the voxels `(1, 3)`, and of no other. -/
example : let M : Fin 2 → Fin 2 → Fin 2 → ℝ := fun k u j => if k = 0 then (if u = 0 then 1 else 0) else (if u = j then 1 else 0)
    let a : Args (Fin 2) (Fin 2 × Fin 2) := { iterations := 0, lower := some (.scalar 0) }
    let b : Fin 2 × Fin 2 → ℝ := fun p => ∑ j, M p.1 p.2 j * ![1, 3] j
    ∀ z, Admissible a z → ReproducesStack M b a z → z = ![1, 3] := by
  intro M a b z _ hz
  have ht : ∀ p, Trains a p := fun p => ⟨by simp [a], by simp [a]⟩
  have h0 := hz 1 0 (ht _)
  have h1 := hz 1 1 (ht _)
  simp [M, b, Fin.sum_univ_two] at h0 h1
  funext j
  fin_cases j
  · simpa using h0
  · simpa using h1

/-- One voxel, background 1, data `(3, 5)` of the matrix `(1, 2)` (see the example of C250): those of the voxel value 2, and of no other. -/
example : let M : Fin 2 → Fin 1 → ℝ := fun i _ => if i = 0 then 1 else 2
    let a : Args (Fin 1) (Fin 2) := { iterations := 3 }
    let S : Solver (Fin 1) (Fin 2) Unit := ⟨1, none, [], .new .kl (some (.scalar 1)), .new .kl none, none⟩
    ((∀ j : Fin 1, (0 : ℝ) ≤ (fun _ => 2 : Arr (Fin 1)) j) ∧ (∀ j, applyMask a.xMask (startVolume a 1) j = 0 → (fun _ => 2 : Arr (Fin 1)) j = 0) ∧
      expected S (matrixOp M) (fun _ => 2) = ![3, 5]) ∧ ∀ z, expected S (matrixOp M) z = ![3, 5] → z = fun _ => 2 := by
  intro M a S
  refine ⟨⟨fun _ => zero_le_two, fun j h => ?_, ?_⟩, fun z hz => ?_⟩
  · simp [a, applyMask, startVolume] at h
  · funext i
    fin_cases i <;> norm_num [expected, S, M, matrixOp, addBackground, DataTerm.new, Attr.get]
  · have h := congrFun hz 0
    simp [expected, S, M, matrixOp, addBackground, DataTerm.new, Attr.get] at h
    funext j
    fin_cases j
    show z 0 = 2
    linarith

end Verif
