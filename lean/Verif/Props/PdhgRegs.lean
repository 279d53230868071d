import Verif.Props.PdhgConv

/-! # C141, C142: the regularizers that stand for a convex penalty, and the default TV that does not -/

namespace Verif
open Classical DataTerm Finset Filter Topology Verif.Spec

variable {ν ι δ : Type} [Fintype ν] [Fintype ι] [Fintype δ]

/-- The penalty of an l1-like regularizer without groups: the weighted sum of absolute values of the transform. -/
noncomputable def l1Penalty (r : RegState ν δ) : Penalty ν δ := ⟨r.fwd, r.adj, fun y => ∑ k, r.weight.get (r.pix k) * |y k|⟩

/-- A transform regularizer with its penalty and published step sizes. -/
noncomputable def RegState.preg (r : RegState ν δ) (pen : Penalty ν δ) : PReg ν δ := ⟨r.toReg, pen, fun _ => 1, r.sigma, r.tau⟩

private theorem isL1_of_kind {t : DataTerm δ} (h : t.kind = .l1) : t.kind.isL1 = true := by rw [h]; rfl

private theorem l1_prox_formula {t : DataTerm δ} (hk : t.kind = .l1) (hd : t.data = none) (u : Arr δ) (w : Attr δ) :
    t.proxDual u w = fun k => u k / max |u k| (w.get k) * w.get k := by
  funext k
  unfold proxDual
  rw [hk]
  simp only [applyThreshold, innerNorm, hk]
  have e : t.subSigmaData u = u := by funext i; unfold subSigmaData; rw [hd]
  rw [e]

/-- C141, l1-like regularizers: a regularizer with an l1 norm, no update mask and positive weights, whose transform and
adjoint are adjoint, which keeps its dual and publishes sound step sizes, stands for the weighted l1 norm of its
transform. -/
theorem C141_l1_regularizers (r : RegState ν δ) (hk : r.norm.kind = .l1) (hd : r.norm.data = none) (hu : r.updMask = none)
    (hw : ∀ j, 0 < r.weight.get j) (hlin : IsLinear r.fwd) (hadj : IsAdjoint r.fwd r.adj)
    (hkeep : ∀ f, r.aliasBack = some f → ∀ q, f (r.adj q) = q) (hσ : 0 < r.sigma)
    (hc : StepContract r.toReg (fun x => ∑ k, r.sigma * r.fwd x k ^ 2) r.tau) : (r.preg (l1Penalty r)).Ok where
  scalepos := fun _ => one_pos
  σpos := hσ
  lin := hlin
  adj := hadj
  convex := by
    refine ⟨convex_univ, fun x _ y _ a b ha hb _ => ?_⟩
    simp only [RegState.preg, l1Penalty, smul_eq_mul, mul_sum, ← sum_add_distrib, Pi.add_apply, Pi.smul_apply]
    refine sum_le_sum fun k _ => ?_
    have h1 := abs_add_le (a * x k) (b * y k)
    rw [abs_mul, abs_mul, abs_of_nonneg ha, abs_of_nonneg hb] at h1
    have := mul_le_mul_of_nonneg_left h1 (hw (r.pix k)).le
    linarith
  primal := fun q => by
    simp only [RegState.preg, RegState.toReg, RegState.updatePrimal, hu, applyMask, isL1_of_kind hk, if_true, l1Penalty,
      one_mul]
    cases hf : r.aliasBack with
    | none => rfl
    | some f => exact Prod.ext rfl (hkeep f hf q)
  dual := by
    refine ⟨fun u k => u k / max |u k| (r.weight.get (r.pix k)) * r.weight.get (r.pix k), fun q x d => ?_, fun u z => ?_⟩
    · simp only [RegState.preg, RegState.toReg, RegState.proxDual, isL1_of_kind hk, if_true, RegState.updateDual, one_mul,
        l1Penalty]
      rw [l1_prox_formula hk hd]
      rfl
    · simp only [RegState.preg, l1Penalty]
      rw [← sum_add_distrib]
      refine sum_le_sum fun k _ => ?_
      obtain ⟨-, hx, hs⟩ := cert_l1 (b := 0) (x := u k) (hw (r.pix k)) hσ
      have h1 := hs (z k) trivial
      simp only [mul_zero, sub_zero] at hx h1
      have e : ∀ p y : ℝ, u k = p + r.sigma * y → (u k - p) / r.sigma = y := fun p y h => by rw [h]; field_simp; ring
      rw [e _ _ hx]
      simpa [fL1] using h1
  step := hc

/-- C141, l1: the l1 regularizer. -/
theorem C141_l1 (w : Attr ν) (hw : ∀ j, 0 < w.get j) (norm : DataTerm ν) (hn : norm.kind = .l1) :
    ((l1Reg w none norm).preg (l1Penalty (l1Reg w none norm))).Ok := by
  refine C141_l1_regularizers _ hn rfl rfl hw (fun a b x y => rfl) (fun x y => rfl)
    (fun f hf q => by simp only [l1Reg, Option.some.injEq] at hf; subst hf; rfl) (by norm_num [l1Reg]) ⟨fun _ => rfl, ?_, ?_⟩
  · intro j; simp [l1Reg, applyMask]
  · intro x; simp [l1Reg, applyMask]

variable {κ : Type} [Fintype κ] [DecidableEq κ] {n : κ → ℕ}

theorem padGet_lin (mode : PadMode) (a b : ℝ) (x y : Arr (Idx n)) (p : Idx n) (s : κ → ℤ) :
    padGet mode (fun i => a * x i + b * y i) p s = a * padGet mode x p s + b * padGet mode y p s := by
  unfold padGet
  cases mode with
  | edge => rfl
  | wrap => rfl
  | constant => cases shiftIdx p s <;> simp

theorem gradient_lin (mode : PadMode) {m : ℕ} (axes : Fin m → κ) : IsLinear (gradient (n := n) mode axes) := by
  intro a b x y
  funext q
  simp only [gradient, padGet_lin]
  ring

theorem laplacian_lin (mode : PadMode) {m : ℕ} (axes : Fin m → κ) : IsLinear (laplacian (n := n) mode axes) := by
  intro a b x y
  funext q
  simp only [laplacian, padGet_lin, mul_sum, ← sum_add_distrib]
  exact sum_congr rfl fun i _ => by ring

/-- C141, anisotropic total variation (gradient with an l1 norm), any number of axes, with zero or periodic padding. -/
theorem C141_tv_l1 (mode : PadMode) (hm : mode ≠ .edge) {m : ℕ} (axes : Fin m → κ) (w : ℝ) (hw : 0 < w)
    (norm : DataTerm (Fin m × Idx n)) (hn : norm.kind = .l1) :
    ((gradReg mode axes (.scalar w) none norm).preg (l1Penalty (gradReg mode axes (.scalar w) none norm))).Ok := by
  have hc := C26_gradient_contract mode axes w hw.le norm
  refine C141_l1_regularizers _ hn rfl rfl (fun _ => hw) (gradient_lin mode axes) (C27_gradient hm axes)
    (fun f hf => by simp [gradReg] at hf) (by norm_num [gradReg]) ?_
  simpa [isL1_of_kind hn] using hc

/-- C141, Laplacian along one axis, any padding. -/
theorem C141_laplacian (mode : PadMode) (axes : Fin 1 → κ) (w : Attr (Idx n)) (hw : ∀ j, 0 < w.get j) :
    ((lapReg mode axes w none).preg (l1Penalty (lapReg mode axes w none))).Ok :=
  C141_l1_regularizers _ rfl rfl rfl hw (laplacian_lin mode axes) (C27_laplacian mode axes)
    (fun f hf => by simp [lapReg] at hf) (by norm_num [lapReg]) (C26_laplacian_1d_contract mode axes w)

/-- The isotropic total variation: sum over the voxels of the weight times the Euclidean norm of the gradient. -/
noncomputable def tvPenalty (mode : PadMode) {m : ℕ} (axes : Fin m → κ) (w : ℝ) : Penalty (Idx n) (Fin m × Idx n) where
  K := gradient mode axes
  Kt := gradientAdjoint mode axes
  H := fun y => ∑ p, w * Real.sqrt (∑ i, y (i, p) ^ 2)

theorem sqrt_sum_add_le {α : Type} [Fintype α] (a b : ℝ) (ha : 0 ≤ a) (hb : 0 ≤ b) (x y : α → ℝ) :
    Real.sqrt (∑ i, (a * x i + b * y i) ^ 2) ≤ a * Real.sqrt (∑ i, x i ^ 2) + b * Real.sqrt (∑ i, y i ^ 2) := by
  have hx := Real.sqrt_nonneg (∑ i, x i ^ 2)
  have hy := Real.sqrt_nonneg (∑ i, y i ^ 2)
  refine Real.sqrt_le_iff.2 ⟨by positivity, ?_⟩
  have hcs : ∑ i, x i * y i ≤ Real.sqrt (∑ i, x i ^ 2) * Real.sqrt (∑ i, y i ^ 2) := Real.sum_mul_le_sqrt_mul_sqrt _ _ _
  have hx2 := Real.sq_sqrt (show 0 ≤ ∑ i, x i ^ 2 from sum_nonneg fun _ _ => sq_nonneg _)
  have hy2 := Real.sq_sqrt (show 0 ≤ ∑ i, y i ^ 2 from sum_nonneg fun _ _ => sq_nonneg _)
  have e : ∑ i, (a * x i + b * y i) ^ 2 = a ^ 2 * ∑ i, x i ^ 2 + 2 * (a * b) * ∑ i, x i * y i + b ^ 2 * ∑ i, y i ^ 2 := by
    simp only [mul_sum, ← sum_add_distrib]
    exact sum_congr rfl fun i _ => by ring
  rw [e]
  have := mul_le_mul_of_nonneg_left hcs (mul_nonneg ha hb)
  calc _ = a ^ 2 * Real.sqrt (∑ i, x i ^ 2) ^ 2 + 2 * (a * b * ∑ i, x i * y i) + b ^ 2 * Real.sqrt (∑ i, y i ^ 2) ^ 2 := by
        rw [hx2, hy2]; ring
    _ ≤ _ := by nlinarith

/-- Certificate of the projection onto the ball of radius `w`. -/
theorem ball_cert {α : Type} [Fintype α] {w σ : ℝ} (hw : 0 < w) (hσ : 0 < σ) (u z : α → ℝ) :
    let N := Real.sqrt (∑ i, u i ^ 2)
    let R : α → ℝ := fun i => u i / max N w * w
    w * Real.sqrt (∑ i, ((u i - R i) / σ) ^ 2) + ∑ i, R i * (z i - (u i - R i) / σ) ≤ w * Real.sqrt (∑ i, z i ^ 2) := by
  intro N R
  have hN0 : 0 ≤ N := Real.sqrt_nonneg _
  have hN2 : N ^ 2 = ∑ i, u i ^ 2 := Real.sq_sqrt (sum_nonneg fun _ _ => sq_nonneg _)
  set c := w / max N w with hc
  have hmpos : 0 < max N w := lt_of_lt_of_le hw (le_max_right _ _)
  have hcpos : 0 < c := div_pos hw hmpos
  have hc1 : c ≤ 1 := (div_le_one hmpos).2 (le_max_right _ _)
  have hR : ∀ i, R i = c * u i := fun i => by simp only [R, hc]; field_simp
  have hcN : c * N ≤ w := by
    rw [hc, div_mul_eq_mul_div, div_le_iff₀ hmpos]
    exact mul_le_mul_of_nonneg_left (le_max_left _ _) hw.le
  have hkey : (1 - c) * (w * N - c * N ^ 2) = 0 := by
    rcases le_total N w with h | h
    · have : c = 1 := by rw [hc, max_eq_right h, div_self hw.ne']
      rw [this]; ring
    · have hNp : 0 < N := lt_of_lt_of_le hw h
      have : c * N = w := by rw [hc, max_eq_left h]; field_simp
      have : w * N - c * N ^ 2 = 0 := by rw [← this]; ring
      rw [this, mul_zero]
  have e1 : Real.sqrt (∑ i, ((u i - R i) / σ) ^ 2) = (1 - c) / σ * N := by
    have : ∑ i, ((u i - R i) / σ) ^ 2 = ((1 - c) / σ) ^ 2 * ∑ i, u i ^ 2 := by
      rw [mul_sum]
      refine sum_congr rfl fun i _ => ?_
      rw [hR]; field_simp
    rw [this, Real.sqrt_mul (sq_nonneg _), Real.sqrt_sq (div_nonneg (by linarith) hσ.le)]
  have e2 : ∑ i, R i * (z i - (u i - R i) / σ) = c * ∑ i, u i * z i - c * (1 - c) / σ * N ^ 2 := by
    rw [hN2, mul_sum, mul_sum, ← sum_sub_distrib]
    refine sum_congr rfl fun i _ => ?_
    rw [hR]; field_simp
  have hcs : ∑ i, u i * z i ≤ N * Real.sqrt (∑ i, z i ^ 2) := Real.sum_mul_le_sqrt_mul_sqrt _ _ _
  have hz0 := Real.sqrt_nonneg (∑ i, z i ^ 2)
  rw [e1, e2]
  have h3 : w * ((1 - c) / σ * N) - c * (1 - c) / σ * N ^ 2 = (1 - c) * (w * N - c * N ^ 2) / σ := by field_simp
  rw [hkey, zero_div] at h3
  have h4 : c * ∑ i, u i * z i ≤ w * Real.sqrt (∑ i, z i ^ 2) := by
    calc c * ∑ i, u i * z i ≤ c * (N * Real.sqrt (∑ i, z i ^ 2)) := mul_le_mul_of_nonneg_left hcs hcpos.le
      _ = c * N * Real.sqrt (∑ i, z i ^ 2) := by ring
      _ ≤ _ := mul_le_mul_of_nonneg_right hcN hz0
  linarith

/-- C141, total variation (gradient with the default l12 norm along the derivatives), any number of axes, with zero or
periodic padding. `grp` numbers the voxels: the groups of the norm are the derivatives of one voxel. -/
theorem C141_tv (mode : PadMode) (hm : mode ≠ .edge) {m : ℕ} (axes : Fin m → κ) (w : ℝ) (hw : 0 < w)
    (norm : DataTerm (Fin m × Idx n)) (grp : Fin m × Idx n → ℕ) (hn : norm.kind = .l12 grp)
    (hgrp : ∀ q q', grp q = grp q' ↔ q.2 = q'.2) :
    ((gradReg mode axes (.scalar w) none norm).preg (tvPenalty mode axes w)).Ok := by
  have hL1 : norm.kind.isL1 = true := by rw [hn]; rfl
  have hc := C26_gradient_contract mode axes w hw.le norm
  simp only [hL1, if_true, one_mul] at hc
  refine ⟨fun _ => one_pos, by norm_num [RegState.preg, gradReg], gradient_lin mode axes, C27_gradient hm axes, ?_, ?_, ?_, hc⟩
  · refine ⟨convex_univ, fun x _ y _ a b ha hb _ => ?_⟩
    simp only [RegState.preg, tvPenalty, smul_eq_mul, mul_sum, ← sum_add_distrib, Pi.add_apply, Pi.smul_apply]
    refine sum_le_sum fun p _ => ?_
    have := mul_le_mul_of_nonneg_left (sqrt_sum_add_le a b ha hb (fun i => x (i, p)) fun i => y (i, p)) hw.le
    linarith
  · intro q
    have h1 : (norm.assignData none (.scalar (1 / 2))).kind.isL1 = true := hL1
    simp only [RegState.preg, RegState.toReg, RegState.updatePrimal, gradReg, applyMask, h1, if_true, tvPenalty, one_mul]
    rfl
  · have h1 : (norm.assignData none (.scalar (1 / 2))).kind = .l12 grp := hn
    have hprox : ∀ u : Arr (Fin m × Idx n), (gradReg mode axes (.scalar w) none norm).proxDual u =
        fun q => u q / max (Real.sqrt (∑ i, u (i, q.2) ^ 2)) w * w := by
      intro u
      funext q
      have hL : (gradReg mode axes (.scalar w) none norm).norm.kind.isL1 = true := hL1
      simp only [RegState.proxDual, hL, if_true]
      show (norm.assignData none (.scalar (1 / 2))).proxDual u (.scalar w) q = _
      unfold proxDual
      rw [h1]
      simp only [applyThreshold, innerNorm, h1]
      have e : (norm.assignData none (.scalar (1 / 2))).subSigmaData u = u := by
        funext i; simp [subSigmaData, assignData]
      rw [e]
      have e2 : axisNorm grp u q = Real.sqrt (∑ i, u (i, q.2) ^ 2) := by
        unfold axisNorm
        congr 1
        rw [sum_filter, Fintype.sum_prod_type]
        refine sum_congr rfl fun i _ => ?_
        simp only [hgrp]
        simp
      rw [e2]
      rfl
    refine ⟨fun u q => u q / max (Real.sqrt (∑ i, u (i, q.2) ^ 2)) w * w, fun q x d => ?_, fun u z => ?_⟩
    · simp only [RegState.preg, one_mul]
      exact congrFun (hprox _) d
    · simp only [RegState.preg, tvPenalty]
      rw [Fintype.sum_prod_type_right, ← sum_add_distrib]
      refine sum_le_sum fun p _ => ?_
      exact ball_cert hw (by norm_num [gradReg]) (fun i => u (i, p)) fun i => z (i, p)

/-- A gradient regularizer whose norm does not take the weight, with the penalty `w * H0 (gradient x)`. -/
noncomputable def gradPreg (mode : PadMode) {m : ℕ} (axes : Fin m → κ) (w : ℝ) (norm : DataTerm (Fin m × Idx n))
    (H0 : Arr (Fin m × Idx n) → ℝ) : PReg (Idx n) (Fin m × Idx n) where
  reg := (gradReg mode axes (.scalar w) none norm).toReg
  pen := ⟨gradient mode axes, gradientAdjoint mode axes, fun y => w * H0 y⟩
  scale := fun _ => w
  σ := w * (1 / 2)
  c := (gradReg mode axes (.scalar w) none norm).tau

private theorem gradPreg_ok (mode : PadMode) (hm : mode ≠ .edge) {m : ℕ} (axes : Fin m → κ) (w : ℝ) (hw : 0 < w)
    (norm : DataTerm (Fin m × Idx n)) (hL : norm.kind.isL1 = false) (H0 : Arr (Fin m × Idx n) → ℝ)
    (hH : ConvexOn ℝ Set.univ H0)
    (hcert : ∀ u z, H0 (fun k => (u k - (norm.assignData none (.scalar (1 / 2))).proxDual u (.scalar 1) k) / (1 / 2)) +
      ∑ k, (norm.assignData none (.scalar (1 / 2))).proxDual u (.scalar 1) k *
        (z k - (u k - (norm.assignData none (.scalar (1 / 2))).proxDual u (.scalar 1) k) / (1 / 2)) ≤ H0 z) :
    (gradPreg mode axes w norm H0).Ok where
  scalepos := fun _ => hw
  σpos := by simp only [gradPreg]; positivity
  lin := gradient_lin mode axes
  adj := C27_gradient hm axes
  convex := by
    refine ⟨convex_univ, fun x _ y _ a b ha hb hab => ?_⟩
    have := mul_le_mul_of_nonneg_left (hH.2 (Set.mem_univ x) (Set.mem_univ y) ha hb hab) hw.le
    simp only [gradPreg, smul_eq_mul] at this ⊢
    linarith
  primal := fun q => by
    have h1 : (norm.assignData none (.scalar (1 / 2))).kind.isL1 = false := hL
    simp only [gradPreg, RegState.toReg, RegState.updatePrimal, gradReg, applyMask, h1, Bool.false_eq_true, if_false,
      Attr.get, Prod.mk.injEq, and_true]
    funext j
    have hl : (∑ i, ((gradient (n := n) mode axes) (fun k => if k = j then (1 : ℝ) else 0)) i * (w * q i)) =
        w * ∑ i, ((gradient (n := n) mode axes) (fun k => if k = j then (1 : ℝ) else 0)) i * q i := by
      rw [mul_sum]; exact sum_congr rfl fun i _ => by ring
    have e := C27_gradient hm axes (fun k => if k = j then (1 : ℝ) else 0) q
    have e' := C27_gradient hm axes (fun k => if k = j then (1 : ℝ) else 0) fun i => w * q i
    unfold dot at e e'
    rw [hl, e] at e'
    simp only [ite_mul, one_mul, zero_mul, sum_ite_eq', mem_univ, if_true] at e'
    rw [mul_comm]
    exact e'
  dual := by
    refine ⟨fun u d => w * (norm.assignData none (.scalar (1 / 2))).proxDual (fun k => u k / w) (.scalar 1) d, fun q x d => ?_, fun u z => ?_⟩
    · have h1 : (norm.assignData none (.scalar (1 / 2))).kind.isL1 = false := hL
      simp only [gradPreg, RegState.toReg, RegState.proxDual, RegState.updateDual, gradReg, h1, Bool.false_eq_true, if_false]
      congr 2
      funext k
      simp only [RegState.updateDual]
      field_simp
    · have h := mul_le_mul_of_nonneg_left (hcert (fun k => u k / w) z) hw.le
      simp only [gradPreg]
      have e : ∀ k, (u k - w * (norm.assignData none (.scalar (1 / 2))).proxDual (fun k => u k / w) (.scalar 1) k) / (w * (1 / 2)) =
          (u k / w - (norm.assignData none (.scalar (1 / 2))).proxDual (fun k => u k / w) (.scalar 1) k) / (1 / 2) := fun k => by
        field_simp
      simp only [e]
      rw [mul_add, mul_sum] at h
      simpa only [mul_assoc] using h
  step := by
    have hc := C26_gradient_contract mode axes w hw.le norm
    simp only [hL, Bool.false_eq_true, if_false] at hc
    have e : (fun x : Arr (Idx n) => w * ∑ q, (gradReg mode axes (.scalar w) none norm).sigma *
        (gradReg mode axes (.scalar w) none norm).fwd x q ^ 2) = fun x => ∑ k, w * (1 / 2) * gradient mode axes x k ^ 2 := by
      funext x
      rw [mul_sum]
      exact sum_congr rfl fun q _ => by simp only [gradReg]; ring
    rw [e] at hc
    exact hc

/-- C141, smooth1D/2D/3D (gradient with the l2 norm): the penalty is the weight times half the squared gradient, with
zero or periodic padding. -/
theorem C141_smooth (mode : PadMode) (hm : mode ≠ .edge) {m : ℕ} (axes : Fin m → κ) (w : ℝ) (hw : 0 < w)
    (norm : DataTerm (Fin m × Idx n)) (hn : norm.kind = .l2) :
    (gradPreg mode axes w norm fun y => ∑ q, y q ^ 2 / 2).Ok := by
  refine gradPreg_ok mode hm axes w hw norm (by rw [hn]; rfl) _ ?_ ?_
  · refine ⟨convex_univ, fun x _ y _ a b ha hb hab => ?_⟩
    simp only [smul_eq_mul, mul_sum, ← sum_add_distrib, Pi.add_apply, Pi.smul_apply]
    refine sum_le_sum fun q _ => ?_
    obtain rfl : b = 1 - a := by linarith
    nlinarith [mul_nonneg (mul_nonneg ha hb) (sq_nonneg (x q - y q))]
  · intro u z
    have e : (norm.assignData none (.scalar (1 / 2))).proxDual u = fun k => u k * (2 / 3) := by
      have h1 : (norm.assignData none (.scalar (1 / 2))).kind = .l2 := hn
      funext k
      unfold proxDual
      rw [h1]
      simp only [subSigmaData, assignData, computeSigma1, hn, Attr.map, Attr.get]
      norm_num
    simp only [e]
    rw [← sum_add_distrib]
    refine sum_le_sum fun k _ => ?_
    nlinarith [sq_nonneg (z k - u k * (2 / 3))]

/-- The Huber function of a norm `r`. -/
noncomputable def hub (e r : ℝ) : ℝ := if r ≤ e then r ^ 2 / (2 * e) else r - e / 2

theorem hub_ge {e : ℝ} (he : 0 < e) {s r : ℝ} (_hs : 0 ≤ s) (hs1 : s ≤ 1) (_hr : 0 ≤ r) :
    s * r - e * s ^ 2 / 2 ≤ hub e r := by
  unfold hub
  split_ifs with h
  · have : r ^ 2 / (2 * e) - (s * r - e * s ^ 2 / 2) = (r - e * s) ^ 2 / (2 * e) := by field_simp; ring
    have h2 : 0 ≤ (r - e * s) ^ 2 / (2 * e) := by positivity
    linarith
  · have h3 : 0 ≤ (1 - s) * (r - e * (1 + s) / 2) :=
      mul_nonneg (by linarith) (by nlinarith)
    nlinarith

theorem hub_ge_vec {m : ℕ} {e : ℝ} (he : 0 < e) (p z : Fin m → ℝ) (hp : ∑ i, p i ^ 2 ≤ 1) :
    ∑ i, p i * z i - e * (∑ i, p i ^ 2) / 2 ≤ hub e (Real.sqrt (∑ i, z i ^ 2)) := by
  have hcs : ∑ i, p i * z i ≤ Real.sqrt (∑ i, p i ^ 2) * Real.sqrt (∑ i, z i ^ 2) := Real.sum_mul_le_sqrt_mul_sqrt _ _ _
  have h0 := hub_ge he (Real.sqrt_nonneg (∑ i, p i ^ 2)) (Real.sqrt_le_one.2 hp)
    (Real.sqrt_nonneg (∑ i, z i ^ 2))
  rw [Real.sq_sqrt (sum_nonneg fun _ _ => sq_nonneg _)] at h0
  linarith

theorem hub_attained {m : ℕ} {e : ℝ} (he : 0 < e) (y : Fin m → ℝ) :
    let N := Real.sqrt (∑ i, y i ^ 2)
    ∑ i, (y i / max e N) ^ 2 ≤ 1 ∧
      hub e N = ∑ i, y i / max e N * y i - e * (∑ i, (y i / max e N) ^ 2) / 2 := by
  intro N
  have hN0 : 0 ≤ N := Real.sqrt_nonneg _
  have hN2 : N ^ 2 = ∑ i, y i ^ 2 := Real.sq_sqrt (sum_nonneg fun _ _ => sq_nonneg _)
  have hmax : 0 < max e N := lt_of_lt_of_le he (le_max_left _ _)
  have e1 : ∑ i, (y i / max e N) ^ 2 = N ^ 2 / max e N ^ 2 := by
    rw [hN2, sum_div]; exact sum_congr rfl fun i _ => by rw [div_pow]
  have e2 : ∑ i, y i / max e N * y i = N ^ 2 / max e N := by
    rw [hN2, sum_div]; exact sum_congr rfl fun i _ => by ring
  rw [e1, e2]
  refine ⟨?_, ?_⟩
  · rw [div_le_one (by positivity)]
    exact pow_le_pow_left₀ hN0 (le_max_right _ _) 2
  · unfold hub
    split_ifs with h
    · rw [max_eq_left h]; field_simp; ring
    · push Not at h
      rw [max_eq_right h.le]
      have : N ≠ 0 := by linarith
      field_simp

/-- C141, Huber TV (HubTV2D/HubTV3D, any number of axes): the penalty is the weight times the Huber function of the norm of
the gradient, with zero or periodic padding. -/
theorem C141_huber_tv (mode : PadMode) (hm : mode ≠ .edge) {m : ℕ} (axes : Fin m → κ) (w : ℝ) (hw : 0 < w)
    (norm : DataTerm (Fin m × Idx n)) (size : ℝ) (hsz : 0 < size) (grp : Fin m × Idx n → ℕ)
    (row : Bool → Finset (Fin m × Idx n)) (hn : norm.kind = .huber (.scalar size) (some grp) row)
    (hgrp : ∀ q q', grp q = grp q' ↔ q.2 = q'.2) :
    (gradPreg mode axes w norm fun y => ∑ p, hub size (Real.sqrt (∑ i, y (i, p) ^ 2))).Ok := by
  refine gradPreg_ok mode hm axes w hw norm (by rw [hn]; rfl) _ ?_ ?_
  · refine ⟨convex_univ, fun x _ y _ a b ha hb hab => ?_⟩
    simp only [smul_eq_mul, mul_sum, ← sum_add_distrib, Pi.add_apply, Pi.smul_apply]
    refine sum_le_sum fun p _ => ?_
    obtain ⟨h1, h2⟩ := hub_attained hsz fun i => a * x (i, p) + b * y (i, p)
    have hx := mul_le_mul_of_nonneg_left (hub_ge_vec hsz _ (fun i => x (i, p)) h1) ha
    have hy := mul_le_mul_of_nonneg_left (hub_ge_vec hsz _ (fun i => y (i, p)) h1) hb
    rw [h2]
    set c : Fin m → ℝ := fun i => (a * x (i, p) + b * y (i, p)) /
      max size (Real.sqrt (∑ i, (a * x (i, p) + b * y (i, p)) ^ 2)) with hc
    have e3 : ∑ i, c i * (a * x (i, p) + b * y (i, p)) = a * ∑ i, c i * x (i, p) + b * ∑ i, c i * y (i, p) := by
      simp only [mul_sum, ← sum_add_distrib]
      exact sum_congr rfl fun i _ => by ring
    have e4 : size * (∑ i, c i ^ 2) / 2 = a * (size * (∑ i, c i ^ 2) / 2) + b * (size * (∑ i, c i ^ 2) / 2) := by
      rw [← add_mul, hab, one_mul]
    change ∑ i, c i * (a * x (i, p) + b * y (i, p)) - size * (∑ i, c i ^ 2) / 2 ≤ _
    change a * (∑ i, c i * x (i, p) - size * (∑ i, c i ^ 2) / 2) ≤ _ at hx
    change b * (∑ i, c i * y (i, p) - size * (∑ i, c i ^ 2) / 2) ≤ _ at hy
    rw [e3, e4]
    linarith
  · intro u z
    set D : ℝ := 1 + 1 / 2 * size with hD
    have hDp : 0 < D := by positivity
    have hprox : ∀ q, (norm.assignData none (.scalar (1 / 2))).proxDual u (.scalar 1) q =
        u q / D / max 1 (Real.sqrt (∑ i, u (i, q.2) ^ 2) / D) := by
      intro q
      have h1 : (norm.assignData none (.scalar (1 / 2))).kind = .huber (.scalar size) (some grp) row := hn
      have hd : ∀ k, (norm.assignData none (.scalar (1 / 2))).subSigmaData u k *
          (norm.assignData none (.scalar (1 / 2))).oneSigmaError.get k = u k / D := by
        intro k
        simp only [subSigmaData, assignData, hn, Attr.map₂, Attr.get]
        rw [hD]; ring
      unfold proxDual
      rw [h1]
      simp only [hd]
      congr 2
      unfold axisNorm
      rw [sum_filter, Fintype.sum_prod_type]
      have e2 : ∑ i, u (i, q.2) ^ 2 / D ^ 2 = (∑ i, u (i, q.2) ^ 2) / D ^ 2 := by rw [sum_div]
      have e3 : Real.sqrt (∑ i, u (i, q.2) ^ 2) / D = Real.sqrt ((∑ i, u (i, q.2) ^ 2) / D ^ 2) := by
        rw [Real.sqrt_div (sum_nonneg fun _ _ => sq_nonneg _), Real.sqrt_sq hDp.le]
      rw [e3, ← e2]
      congr 1
      refine sum_congr rfl fun i _ => ?_
      simp only [hgrp]
      simp [div_pow]
    rw [Fintype.sum_prod_type_right, ← sum_add_distrib]
    refine sum_le_sum fun p _ => ?_
    simp only [hprox]
    set N := Real.sqrt (∑ i, u (i, p) ^ 2) with hN
    have hN0 : 0 ≤ N := Real.sqrt_nonneg _
    have hN2 : N ^ 2 = ∑ i, u (i, p) ^ 2 := Real.sq_sqrt (sum_nonneg fun _ _ => sq_nonneg _)
    set r : ℝ := 1 / D / max 1 (N / D) with hr
    have hmx : 0 < max 1 (N / D) := lt_of_lt_of_le one_pos (le_max_left _ _)
    have hrp : 0 < r := by rw [hr]; positivity
    have er : ∀ i, u (i, p) / D / max 1 (N / D) = r * u (i, p) := fun i => by rw [hr]; ring
    simp only [er]
    have hr' : r = 1 / max D N := by
      rw [hr, div_div, mul_max_of_nonneg _ _ hDp.le, mul_one, mul_div_cancel₀ _ hDp.ne']
      
    have hmaxp : 0 < max D N := lt_of_lt_of_le hDp (le_max_left _ _)
    have hrD : r * D ≤ 1 := by rw [hr', one_div, inv_mul_le_one₀ hmaxp]; exact le_max_left _ _
    have hrN : r * N ≤ 1 := by rw [hr', one_div, inv_mul_le_one₀ hmaxp]; exact le_max_right _ _
    have hr1 : r ≤ 1 := by
      have : (1 : ℝ) ≤ D := by rw [hD]; linarith
      nlinarith
    have e5 : ∑ i, (r * u (i, p)) ^ 2 = (r * N) ^ 2 := by
      rw [mul_pow, hN2, mul_sum]; exact sum_congr rfl fun i _ => by ring
    have hge := hub_ge_vec hsz (fun i => r * u (i, p)) (fun i => z (i, p)) (by
      rw [e5]; exact pow_le_one₀ (by positivity) hrN)
    have e6 : Real.sqrt (∑ i, ((u (i, p) - r * u (i, p)) / (1 / 2)) ^ 2) = (1 - r) * 2 * N := by
      have : ∑ i, ((u (i, p) - r * u (i, p)) / (1 / 2)) ^ 2 = ((1 - r) * 2) ^ 2 * ∑ i, u (i, p) ^ 2 := by
        rw [mul_sum]; exact sum_congr rfl fun i _ => by ring
      rw [this, Real.sqrt_mul (sq_nonneg _), Real.sqrt_sq (by linarith)]
    have e7 : ∑ i, r * u (i, p) * (z (i, p) - (u (i, p) - r * u (i, p)) / (1 / 2)) =
        ∑ i, r * u (i, p) * z (i, p) - r * (1 - r) * 2 * N ^ 2 := by
      rw [hN2, mul_sum, ← sum_sub_distrib]; exact sum_congr rfl fun i _ => by ring
    have hval : hub size ((1 - r) * 2 * N) = r * (1 - r) * 2 * N ^ 2 - size * (r * N) ^ 2 / 2 := by
      rcases le_total N D with h | h
      · have hrD' : r * D = 1 := by rw [hr', max_eq_left h, one_div, inv_mul_cancel₀ hDp.ne']
        have e8 : (1 - r) * 2 = size * r := by rw [← hrD', hD]; ring
        unfold hub
        rw [if_pos (by rw [e8]; nlinarith), e8]
        field_simp
        have : r * (1 - r) * 2 = r * (size * r) := by rw [← e8]; ring
        nlinarith [this]
      · have hNp : 0 < N := lt_of_lt_of_le hDp h
        have hrN' : r * N = 1 := by rw [hr', max_eq_right h, one_div, inv_mul_cancel₀ hNp.ne']
        have e8 : (1 - r) * 2 * N = 2 * N - 2 := by linear_combination -2 * hrN'
        have e9 : r * (1 - r) * 2 * N ^ 2 = 2 * N - 2 := by linear_combination (2 * N - 2 * (r * N) - 2) * hrN'
        rw [e8, e9, hrN']
        unfold hub
        split_ifs with hh
        · have : 2 * N - 2 = size := by rw [hD] at h; linarith
          rw [this]; field_simp; ring
        · ring
    rw [e6, e7, hval]
    rw [e5] at hge
    linarith

end Verif
