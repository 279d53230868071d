import Verif.Model.VectorSvd
import Verif.Lemmas.ProxGrad
import Verif.Lemmas.Solvers
import Mathlib.Topology.Algebra.Order.LiminfLimsup

/-! # C279: the SVD regularizer -/

namespace Verif
open Classical DataTerm Filter Topology

private theorem clip_eq {d w : ℝ} (hd : 0 ≤ d) (hw : 0 < w) : d / max |d| w * w = min d w := by
  rw [abs_of_nonneg hd]
  rcases le_total d w with h | h
  · rw [max_eq_right h, min_eq_left h, div_mul_cancel₀ _ hw.ne']
  · rw [max_eq_left h, min_eq_right h, div_self (by linarith), one_mul]

private theorem prox_eq {q : ℕ} (d : Arr (Fin q)) {w : ℝ} (hd : ∀ a, 0 ≤ d a) (hw : 0 < w) :
    ((DataTerm.new .l1 none).assignData none (.scalar 1)).proxDual d (.scalar w) = fun a => min (d a) w := by
  funext a
  simp only [DataTerm.proxDual, DataTerm.assignData, DataTerm.new, DataTerm.applyThreshold, DataTerm.innerNorm, DataTerm.subSigmaData, Attr.get]
  exact clip_eq (hd a) hw

/-- One dual step of the regularizer for the volume `x`. -/
noncomputable def vsvdStep {r k q : ℕ} (R : Reg (Fin r × Fin k) (SvdObj r k q × Arr (Fin q))) (d : SvdObj r k q × Arr (Fin q)) (x : Arr (Fin r × Fin k)) :
    SvdObj r k q × Arr (Fin q) := R.proxDual (R.updateDual d x)

private theorem step_eq {r k q : ℕ} {svd : (Fin r → Fin k → ℝ) → Svd r k q} (hsvd : ∀ M, (svd M).Valid M) {w : ℝ} (hw : 0 < w) (m : Option (Arr (Fin r × Fin k)))
    (d : SvdObj r k q × Arr (Fin q)) (hd : ∀ a, 0 ≤ d.2 a) (x : Arr (Fin r × Fin k)) :
    vsvdStep (vsvdReg svd w m) d x = (some (svdDirect true (svd fun i j => x (i, j))),
      fun a => min (d.2 a + (svd fun i j => x (i, j)).s a / Real.sqrt (k * r)) w) := by
  have h := (hsvd fun i j => x (i, j)).2.2.1
  have e : (vsvdReg svd w m).updateDual d x = (some (svdDirect true (svd fun i j => x (i, j))), fun a => d.2 a + (svd fun i j => x (i, j)).s a / Real.sqrt (k * r)) := by
    simp [vsvdReg, SvdObj.call, svdDirect]
  unfold vsvdStep
  rw [e]
  show (_, _) = _
  rw [prox_eq _ (fun a => add_nonneg (hd a) (div_nonneg (h a) (Real.sqrt_nonneg _))) hw]

/-- The duals of the singular values over any sequence of volumes start at 0, never decrease and never exceed the weight. -/
theorem C279_duals_partial {r k q : ℕ} {svd : (Fin r → Fin k → ℝ) → Svd r k q} (hsvd : ∀ M, (svd M).Valid M) {w : ℝ} (hw : 0 < w) (m : Option (Arr (Fin r × Fin k)))
    (xs : List (Arr (Fin r × Fin k))) (x : Arr (Fin r × Fin k)) (a : Fin q) :
    let d := xs.foldl (vsvdStep (vsvdReg svd w m)) (vsvdReg svd w m).initDual
    0 ≤ d.2 a ∧ d.2 a ≤ w ∧ d.2 a ≤ (vsvdStep (vsvdReg svd w m) d x).2 a := by
  have key : ∀ (d : SvdObj r k q × Arr (Fin q)), (∀ a, 0 ≤ d.2 a ∧ d.2 a ≤ w) → ∀ x a, 0 ≤ (vsvdStep (vsvdReg svd w m) d x).2 a ∧
      (vsvdStep (vsvdReg svd w m) d x).2 a ≤ w ∧ d.2 a ≤ (vsvdStep (vsvdReg svd w m) d x).2 a := by
    intro d hd x a
    rw [step_eq hsvd hw m d (fun a => (hd a).1)]
    have h0 : 0 ≤ (svd fun i j => x (i, j)).s a / Real.sqrt (k * r) := div_nonneg ((hsvd fun i j => x (i, j)).2.2.1 a) (Real.sqrt_nonneg _)
    exact ⟨le_min (add_nonneg (hd a).1 h0) hw.le, min_le_right _ _, le_min (by linarith) (hd a).2⟩
  have all : ∀ (xs : List (Arr (Fin r × Fin k))) (d : SvdObj r k q × Arr (Fin q)), (∀ a, 0 ≤ d.2 a ∧ d.2 a ≤ w) →
      ∀ a, 0 ≤ (xs.foldl (vsvdStep (vsvdReg svd w m)) d).2 a ∧ (xs.foldl (vsvdStep (vsvdReg svd w m)) d).2 a ≤ w := by
    intro xs
    induction xs with
    | nil => exact fun d hd => hd
    | cons x xs ih =>
      intro d hd
      rw [List.foldl_cons]
      exact ih _ fun a => ⟨(key d hd x a).1, (key d hd x a).2.1⟩
  have h0 := all xs (vsvdReg svd w m).initDual fun a => ⟨le_rfl, hw.le⟩
  exact ⟨(h0 a).1, (h0 a).2, (key _ h0 x a).2.2⟩

/-- The push after a dual step for `x` has the singular vectors of `x`, with `√(k r)` times the duals as singular values: once the duals have reached the weight it is the
gradient of `w √(k r)` times the nuclear norm. -/
theorem C279_push_partial {r k q : ℕ} (hr : 0 < r) (hk : 0 < k) {svd : (Fin r → Fin k → ℝ) → Svd r k q} (hsvd : ∀ M, (svd M).Valid M) {w : ℝ} (hw : 0 < w)
    (d : SvdObj r k q × Arr (Fin q)) (hd : ∀ a, 0 ≤ d.2 a) (x : Arr (Fin r × Fin k)) :
    (∀ i j, ((vsvdReg svd w none).updatePrimal (vsvdStep (vsvdReg svd w none) d x)).1 (i, j) = ∑ a, Real.sqrt (k * r) * (vsvdStep (vsvdReg svd w none) d x).2 a *
        ((svd fun i j => x (i, j)).U i a * (svd fun i j => x (i, j)).Vt a j)) ∧
      ∑ p, ((vsvdReg svd w none).updatePrimal (vsvdStep (vsvdReg svd w none) d x)).1 p * x p =
        Real.sqrt (k * r) * ∑ a, (vsvdStep (vsvdReg svd w none) d x).2 a * (svd fun i j => x (i, j)).s a := by
  set M : Fin r → Fin k → ℝ := fun i j => x (i, j) with hM
  have h1 : ∀ i j, ((vsvdReg svd w none).updatePrimal (vsvdStep (vsvdReg svd w none) d x)).1 (i, j) =
      ∑ a, Real.sqrt (k * r) * (vsvdStep (vsvdReg svd w none) d x).2 a * ((svd M).U i a * (svd M).Vt a j) := by
    intro i j
    have hf : (vsvdStep (vsvdReg svd w none) d x).1 = some (svdDirect true (svd M)) := by rw [step_eq hsvd hw none d hd]
    show applyMask none (fun p => ((vsvdStep (vsvdReg svd w none) d x).1.adjoint (vsvdStep (vsvdReg svd w none) d x).2).elim 0 fun N => N p.1 p.2) (i, j) = _
    rw [hf]
    simp only [applyMask, SvdObj.adjoint, Option.map_some, Option.elim_some, inverseSvd, svdDirect, if_true]
    refine Finset.sum_congr rfl fun a _ => ?_
    rw [Real.sqrt_mul (Nat.cast_nonneg k)]
    ring
  refine ⟨h1, ?_⟩
  rw [Fintype.sum_prod_type]
  simp only [h1]
  obtain ⟨hU, hV, _, hrec⟩ := hsvd M
  have hx : ∀ i j, x (i, j) = ∑ b, (svd M).U i b * ((svd M).s b * (svd M).Vt b j) := fun i j => hrec i j
  simp only [hx]
  generalize (vsvdStep (vsvdReg svd w none) d x).2 = e
  have : ∀ i j, (∑ a, Real.sqrt (k * r) * e a * ((svd M).U i a * (svd M).Vt a j)) * ∑ b, (svd M).U i b * ((svd M).s b * (svd M).Vt b j) =
      ∑ a, ∑ b, Real.sqrt (k * r) * e a * (svd M).s b * ((svd M).U i a * (svd M).U i b) * ((svd M).Vt a j * (svd M).Vt b j) := fun i j => by
    rw [Finset.sum_mul_sum]
    exact Finset.sum_congr rfl fun a _ => Finset.sum_congr rfl fun b _ => by ring
  simp only [this]
  have swap : ∑ i, ∑ j, ∑ a, ∑ b, Real.sqrt (k * r) * e a * (svd M).s b * ((svd M).U i a * (svd M).U i b) * ((svd M).Vt a j * (svd M).Vt b j) =
      ∑ a, ∑ b, Real.sqrt (k * r) * e a * (svd M).s b * (∑ i, (svd M).U i a * (svd M).U i b) * ∑ j, (svd M).Vt a j * (svd M).Vt b j := by
    simp only [Finset.mul_sum, Finset.sum_mul]
    rw [Finset.sum_congr rfl fun i _ => Finset.sum_comm]
    rw [Finset.sum_comm]
    refine Finset.sum_congr rfl fun a _ => ?_
    rw [Finset.sum_congr rfl fun i _ => Finset.sum_comm]
    rw [Finset.sum_comm]
    exact Finset.sum_congr rfl fun b _ => Finset.sum_comm
  rw [swap]
  simp only [hU, hV]
  rw [Finset.mul_sum]
  refine Finset.sum_congr rfl fun a _ => ?_
  rw [Finset.sum_eq_single a]
  · simp only [if_true]; ring
  · intro b _ hb
    simp [hb.symm]
  · simp

/-! ## One pixel -/

/-- One iteration for one channel of one pixel: `(x, x_relax, p, q)`. -/
private noncomputable def one (e : ℝ → ℝ) (ρ b w : ℝ) (s : ℝ × ℝ × ℝ × ℝ) : ℝ × ℝ × ℝ × ℝ :=
  let p := (s.2.2.1 + ρ * s.2.1 - ρ * b) / (1 + ρ)
  let q := min (s.2.2.2 + |s.2.1|) w
  let x := s.1 - (p + e s.2.1 * q) * (ρ / 2)
  (x, x + (x - s.1), p, q)

private theorem one_diverges {e : ℝ → ℝ} (he : ∀ z, e z * |z| = z) (he1 : ∀ z, |e z| = 1) {ρ b w c : ℝ} (hρ : 0 < ρ) (hb : |b| < w) (hc : |b| < |c|) (x : ℝ)
    (h : Tendsto (fun n => ((one e ρ b w)^[n] (c, c, 0, 0)).1) atTop (𝓝 x)) : False := by
  set s : ℕ → ℝ × ℝ × ℝ × ℝ := fun n => (one e ρ b w)^[n] (c, c, 0, 0) with hs
  have hstep : ∀ n, s (n + 1) = one e ρ b w (s n) := fun n => Function.iterate_succ_apply' _ _ _
  have hx : Tendsto (fun n => (s n).1) atTop (𝓝 x) := h
  have hx1 : Tendsto (fun n => (s (n + 1)).1) atTop (𝓝 x) := hx.comp (tendsto_add_atTop_nat 1)
  have hw : 0 < w := (abs_nonneg b).trans_lt hb
  -- the relaxed volumes
  have hz : Tendsto (fun n => (s (n + 1)).2.1) atTop (𝓝 x) := by
    have e1 : (fun n => (s (n + 1)).2.1) = fun n => (s (n + 1)).1 + ((s (n + 1)).1 - (s n).1) := by
      funext n; rw [hstep]; rfl
    rw [e1]
    simpa using hx1.add (hx1.sub hx)
  -- the duals of the regularizer
  have hq1 : ∀ n, (s (n + 1)).2.2.2 = min ((s n).2.2.2 + |(s n).2.1|) w := fun n => by rw [hstep]; rfl
  have hqw : ∀ n, (s n).2.2.2 ≤ w := by
    intro n
    cases n with
    | zero => exact hw.le
    | succ n => rw [hq1]; exact min_le_right _ _
  have hmono : Monotone fun n => (s n).2.2.2 := monotone_nat_of_le_succ fun n => by
    show (s n).2.2.2 ≤ (s (n + 1)).2.2.2
    rw [hq1]
    exact le_min (by linarith [abs_nonneg (s n).2.1]) (hqw n)
  obtain ⟨q, hq⟩ : ∃ q, Tendsto (fun n => (s n).2.2.2) atTop (𝓝 q) := ⟨_, tendsto_atTop_ciSup hmono ⟨w, by rintro _ ⟨n, rfl⟩; exact hqw n⟩⟩
  have hqb : |b| < q := by
    have h1 : (s 1).2.2.2 = min |c| w := by rw [hq1 0]; simp [hs]
    have h2 : (s 1).2.2.2 ≤ q := hmono.ge_of_tendsto hq 1
    rw [h1] at h2
    exact (lt_min hc hb).trans_le h2
  have hq' : Tendsto (fun n => (s (n + 1)).2.2.2) atTop (𝓝 q) := hq.comp (tendsto_add_atTop_nat 1)
  have hq'' : Tendsto (fun n => (s (n + 2)).2.2.2) atTop (𝓝 q) := hq.comp (tendsto_add_atTop_nat 2)
  -- the push tends to 0
  have hu : Tendsto (fun n => (s (n + 1)).2.2.1 + e (s n).2.1 * (s (n + 1)).2.2.2) atTop (𝓝 0) := by
    have e1 : (fun n => (s (n + 1)).2.2.1 + e (s n).2.1 * (s (n + 1)).2.2.2) = fun n => ((s n).1 - (s (n + 1)).1) * (2 / ρ) := by
      funext n
      rw [hstep]
      simp only [one]
      field_simp
      ring
    rw [e1]
    simpa using (hx.sub hx1).mul_const (2 / ρ)
  have hpstep : ∀ n, (s (n + 1)).2.2.1 * (1 + ρ) = (s n).2.2.1 + ρ * (s n).2.1 - ρ * b := fun n => by
    rw [hstep]
    simp only [one]
    rw [div_mul_cancel₀ _ (by positivity)]
  have hqpos : ∀ n, 0 ≤ (s n).2.2.2 := fun n => by
    have : (s 0).2.2.2 ≤ (s n).2.2.2 := hmono (Nat.zero_le n)
    simpa [hs] using this
  rcases eq_or_ne x 0 with rfl | hx0
  · -- the absolute values of the data dual tend to `q`
    have hpabs : Tendsto (fun n => |(s (n + 1)).2.2.1|) atTop (𝓝 q) := by
      have h1 : Tendsto (fun n => |(s (n + 1)).2.2.1| - (s (n + 1)).2.2.2) atTop (𝓝 0) := by
        refine squeeze_zero_norm (fun n => ?_) (tendsto_zero_iff_norm_tendsto_zero.1 hu)
        rw [Real.norm_eq_abs, Real.norm_eq_abs]
        have h2 : |e (s n).2.1 * (s (n + 1)).2.2.2| = (s (n + 1)).2.2.2 := by rw [abs_mul, he1, one_mul, abs_of_nonneg (hqpos _)]
        have h3 := abs_abs_sub_abs_le_abs_sub (s (n + 1)).2.2.1 (-(e (s n).2.1 * (s (n + 1)).2.2.2))
        rw [abs_neg, h2, sub_neg_eq_add] at h3
        exact h3
      simpa using h1.add hq'
    have hle : ∀ n, |(s (n + 2)).2.2.1| * (1 + ρ) ≤ |(s (n + 1)).2.2.1| + ρ * |(s (n + 1)).2.1| + ρ * |b| := fun n => by
      have h1 := hpstep (n + 1)
      have h2 : |(s (n + 2)).2.2.1| * (1 + ρ) = |(s (n + 1)).2.2.1 + ρ * (s (n + 1)).2.1 - ρ * b| := by
        rw [← h1, abs_mul, abs_of_pos (show (0 : ℝ) < 1 + ρ by linarith)]
      rw [h2]
      calc |(s (n + 1)).2.2.1 + ρ * (s (n + 1)).2.1 - ρ * b| ≤ |(s (n + 1)).2.2.1 + ρ * (s (n + 1)).2.1| + |ρ * b| := abs_sub _ _
        _ ≤ |(s (n + 1)).2.2.1| + |ρ * (s (n + 1)).2.1| + |ρ * b| := by linarith [abs_add_le (s (n + 1)).2.2.1 (ρ * (s (n + 1)).2.1)]
        _ = _ := by rw [abs_mul, abs_mul, abs_of_pos hρ]
    have hl : Tendsto (fun n => |(s (n + 2)).2.2.1| * (1 + ρ)) atTop (𝓝 (q * (1 + ρ))) := (hpabs.comp (tendsto_add_atTop_nat 1)).mul_const _
    have hr : Tendsto (fun n => |(s (n + 1)).2.2.1| + ρ * |(s (n + 1)).2.1| + ρ * |b|) atTop (𝓝 (q + ρ * |(0 : ℝ)| + ρ * |b|)) :=
      (hpabs.add (hz.abs.const_mul ρ)).add_const _
    have := le_of_tendsto_of_tendsto' hl hr hle
    rw [abs_zero] at this
    nlinarith
  · -- the duals reach the weight
    have hqlim : q = min (q + |x|) w := by
      refine tendsto_nhds_unique hq'' ?_
      have e1 : (fun n => (s (n + 2)).2.2.2) = fun n => min ((s (n + 1)).2.2.2 + |(s (n + 1)).2.1|) w := funext fun n => hq1 (n + 1)
      rw [e1]
      exact (hq'.add hz.abs).min tendsto_const_nhds
    have hqw' : q = w := by
      rcases min_choice (q + |x|) w with hm | hm
      · rw [hm] at hqlim
        have := abs_pos.2 hx0
        linarith
      · rw [hqlim, hm]
    -- the data dual tends to minus the sign times the weight
    have hez : Tendsto (fun n => e (s (n + 1)).2.1 * |x|) atTop (𝓝 x) := by
      have h1 : Tendsto (fun n => e (s (n + 1)).2.1 * (|x| - |(s (n + 1)).2.1|)) atTop (𝓝 0) := by
        have h2 : Tendsto (fun n => |x| - |(s (n + 1)).2.1|) atTop (𝓝 0) := by simpa using (tendsto_const_nhds (x := |x|)).sub hz.abs
        refine squeeze_zero_norm (fun n => ?_) (tendsto_zero_iff_norm_tendsto_zero.1 h2)
        rw [norm_mul, Real.norm_eq_abs, he1, one_mul]
      have h3 := h1.add hz
      rw [zero_add] at h3
      refine h3.congr fun n => ?_
      rw [mul_sub, he]
      ring
    have he' : Tendsto (fun n => e (s (n + 1)).2.1) atTop (𝓝 (x / |x|)) := by
      have := hez.div_const |x|
      refine this.congr fun n => ?_
      rw [mul_div_cancel_right₀ _ (abs_pos.2 hx0).ne']
    have hp : Tendsto (fun n => (s (n + 2)).2.2.1) atTop (𝓝 (-(x / |x| * q))) := by
      have h1 := (hu.comp (tendsto_add_atTop_nat 1)).sub (he'.mul hq'')
      rw [zero_sub] at h1
      refine h1.congr fun n => ?_
      simp only [Function.comp]
      ring
    have hlim := tendsto_nhds_unique ((hp.comp (tendsto_add_atTop_nat 1)).mul_const (1 + ρ))
      (((hp.add ((hz.comp (tendsto_add_atTop_nat 1)).const_mul ρ)).sub_const (ρ * b)).congr fun n => (hpstep (n + 2)).symm)
    rw [hqw'] at hlim
    have h4 : x / |x| * w = b - x := by
      have : ρ * (x / |x| * w) = ρ * (b - x) := by linarith
      exact mul_left_cancel₀ hρ.ne' this
    have h5 := abs_lt.1 hb
    rcases lt_or_gt_of_ne hx0 with hneg | hpos
    · rw [abs_of_neg hneg, div_neg, div_self hneg.ne] at h4
      linarith
    · rw [abs_of_pos hpos, div_self hpos.ne'] at h4
      linarith

private theorem pdhg_single {ν ι Q : Type} [Fintype ι] [Fintype ν] {A : Operator ν ι} (hA : A.aliasBack = none) (a : Args ν ι) (R : Reg ν Q) (term tt : DataTerm ι) (tau : Arr ν) (k : ℕ)
    (x z : Arr ν) (p : Arr ι) (D : Q) (i : Info) :
    let p' : Arr ι := (term.proxDual (term.updateDual p (A.fwd z)))
    let u := R.updatePrimal (R.proxDual (R.updateDual D z))
    let xn := clipMask a fun j => x j - (A.adj p' j + u.1 j) * tau j
    let r := pdhgStep A a [R] term tt none none tau none k ⟨x, z, p, [D], i⟩
    r.1.x = xn ∧ (r.1.xRelax = fun j => xn j + (xn j - x j)) ∧ r.1.p = p' ∧ r.1.q = [u.2] ∧ r.2 = false := by
  dsimp only
  refine ⟨?_, ?_, ?_, ?_, ?_⟩
  · unfold pdhgStep; simp only [hA]; rfl
  · unfold pdhgStep; simp only [hA]; rfl
  · unfold pdhgStep; simp only [hA]; rfl
  · unfold pdhgStep; simp only [hA]; rfl
  · unfold pdhgStep; exact recordResiduals_noTol

/-- The 1 × 1 identity as an operator on one channel of one pixel. -/
noncomputable def onePixel : Operator (Fin 1 × Fin 1) (Fin 1) := matrixOp fun _ _ => 1

private theorem onePixel_scaling {Q : Type} (R : Reg (Fin 1 × Fin 1) Q) (hR : ∀ t, R.sigmaTau t = fun _ => 1) (ρ : ℝ) :
    diagonalScaling (fun (x : Arr (Fin 1 × Fin 1)) (_ : Fin 1) => ∑ j, |(1 : ℝ)| * x j) (fun (y : Arr (Fin 1)) (_ : Fin 1 × Fin 1) => ∑ i, |(1 : ℝ)| * y i) [R] ρ ρ none none =
      .ok (fun _ => ρ, fun _ => ρ / 2) := by
  unfold diagonalScaling
  simp only [List.foldl_cons, List.foldl_nil, hR, applyMask, abs_one, one_mul, Finset.sum_const, Finset.card_univ, Fintype.card_fin, Fintype.card_prod, one_smul, mul_one]
  have h2 : npMax (fun _ : Fin 1 × Fin 1 => (1 : ℝ) + 1) = 2 := by unfold npMax; rw [ciSup_const]; norm_num
  have h1 : npMax (fun _ : Fin 1 => (1 : ℝ)) = 1 := by unfold npMax; rw [ciSup_const]
  simp only [h1, h2]
  rw [if_neg (by norm_num), if_neg (by norm_num)]
  congr 1
  refine Prod.ext (funext fun i => ?_) (funext fun j => ?_)
  · simp only [fixSmall, h1]; norm_num
  · simp only [fixSmall, h2]; norm_num

/-- The regularizer violates it: one channel of one pixel, measured directly with the value `b`, and a weight `w > |b|`. The minimiser of half the squared misfit plus `w` times
the nuclear norm (the absolute value) is 0; PDHG from any start `c` with `|c| > |b|` does not converge to anything. (The duals of the singular values only ever grow: they are
the sums of the singular values, whatever the signs of the relaxed volumes.) -/
theorem C279_violated (svd : (Fin 1 → Fin 1 → ℝ) → Svd 1 1 1) (hsvd : ∀ M, (svd M).Valid M) {b w c : ℝ} (hb : |b| < w) (hc : |b| < |c|)
    {S : Solver (Fin 1 × Fin 1) (Fin 1) (SvdObj 1 1 1 × Arr (Fin 1))} (hρ : 0 < S.relaxation) (htol : S.tolerance = none) (hkind : S.term.kind = .l2)
    (hbg : S.term.background = none) (hregs : S.regs = [vsvdReg svd w none]) (rnd : Arr (Fin 1)) :
    (∀ x : ℝ, x ≠ 0 → (0 - b) ^ 2 / 2 + w * |(0 : ℝ)| < (x - b) ^ 2 / 2 + w * |x|) ∧
      (∀ n, ∃ r, pdhg S onePixel (fun _ => b) { iterations := n, x0 := some fun _ => c } true rnd = .ok r) ∧
      ∀ r : ℕ → _, (∀ n, pdhg S onePixel (fun _ => b) { iterations := n, x0 := some fun _ => c } true rnd = .ok (r n)) →
        ¬ ∃ x, Tendsto (fun n => (r n).1 (0, 0)) atTop (𝓝 x) := by
  have hw : 0 < w := (abs_nonneg b).trans_lt hb
  have hsc : ∀ n, pdhgScaling S onePixel { iterations := n, x0 := some fun _ => c } true rnd = .ok (fun _ => S.relaxation, fun _ => S.relaxation / 2) := fun n => by
    unfold pdhgScaling
    rw [hregs]
    exact onePixel_scaling _ (fun t => rfl) S.relaxation
  refine ⟨fun x hx => ?_, fun n => pdhg_runs (hsc n) rfl, fun r hr => ?_⟩
  · have h1 := abs_pos.2 hx
    have h2 : b * x ≤ |b| * |x| := by rw [← abs_mul]; exact le_abs_self _
    rw [abs_zero]
    nlinarith [mul_lt_mul_of_pos_right hb h1, sq_nonneg x]
  · rintro ⟨x, hx⟩
    set e : ℝ → ℝ := fun z => (svd fun _ _ => z).U 0 0 * (svd fun _ _ => z).Vt 0 0 with he
    have hs : ∀ z, (svd fun _ _ => z).s 0 = |z| ∧ e z * |z| = z ∧ |e z| = 1 := fun z => by
      obtain ⟨hU, hV, h0, hrec⟩ := hsvd fun _ _ => z
      have hU' := hU 0 0
      have hV' := hV 0 0
      have hr' := hrec 0 0
      simp only [Fin.sum_univ_one, if_true] at hU' hV' hr'
      have hz : z = e z * (svd fun _ _ => z).s 0 := by
        refine hr'.trans ?_
        simp only [he]
        ring
      have hsq : e z * e z = 1 := by
        simp only [he]
        calc _ = ((svd fun _ _ => z).U 0 0 * (svd fun _ _ => z).U 0 0) * ((svd fun _ _ => z).Vt 0 0 * (svd fun _ _ => z).Vt 0 0) := by ring
          _ = 1 := by rw [hU', hV', mul_one]
      have habs : |e z| = 1 := by
        have : |e z| * |e z| = 1 := by rw [← abs_mul, hsq, abs_one]
        nlinarith [abs_nonneg (e z)]
      have hss : (svd fun _ _ => z).s 0 = |z| := by
        have := congrArg abs hz
        rw [abs_mul, habs, one_mul, abs_of_nonneg (h0 0)] at this
        exact this.symm
      exact ⟨hss, by rw [← hss]; exact hz.symm, habs⟩
    have hstate : ∀ n, (r n).1 (0, 0) = ((one e S.relaxation b w)^[n] (c, c, 0, 0)).1 := by
      intro n
      obtain ⟨σ, τ, tt, hsc', _, hr'⟩ := pdhg_ok (hr n)
      rw [hsc n] at hsc'
      cases hsc'
      rw [hr']
      have hghost := forRange_noBreak (step := fun (_ : ℕ) (t : ℝ × ℝ × ℝ × ℝ) => (one e S.relaxation b w t, false)) id (one e S.relaxation b w)
        (fun _ _ => rfl) (fun _ _ => rfl) n (c, c, 0, 0)
      simp only [id] at hghost
      rw [← hghost]
      refine (forRange_rel (R := fun (s : PDState (Fin 1 × Fin 1) (Fin 1) (SvdObj 1 1 1 × Arr (Fin 1))) (t : ℝ × ℝ × ℝ × ℝ) => s.x (0, 0) = t.1 ∧ s.xRelax (0, 0) = t.2.1 ∧
        s.p 0 = t.2.2.1 ∧ (∃ D, s.q = [D] ∧ D.2 0 = t.2.2.2) ∧ 0 ≤ t.2.2.2) ?_ ?_).1
      · rw [hregs]
        exact ⟨rfl, rfl, rfl, ⟨_, rfl, rfl⟩, le_rfl⟩
      · rintro k ⟨x, z, p, q, i⟩ ⟨tx, tz, tp, tq⟩ ⟨h1, h2, h3, ⟨D, h4, h5⟩, h6⟩
        dsimp only at h1 h2 h3 h4 h5 h6
        subst h4
        have hD : ∀ a, 0 ≤ D.2 a := fun a => by rw [Subsingleton.elim a 0, h5]; exact h6
        have hz : (fun (i j : Fin 1) => z (i, j)) = fun _ _ => tz := by
          funext i j
          rw [Subsingleton.elim i 0, Subsingleton.elim j 0, h2]
        have hq : (vsvdStep (vsvdReg svd w none) D z).2 0 = min (tq + |tz|) w := by
          rw [step_eq hsvd hw none D hD z, hz]
          simp [(hs tz).1, h5]
        have hpush := (C279_push_partial (by norm_num) (by norm_num) hsvd hw D hD z).1 0 0
        rw [hz, Fin.sum_univ_one, hq] at hpush
        simp only [Nat.cast_one, mul_one, Real.sqrt_one, one_mul] at hpush
        have hp : (((S.term.assignData (some (.array fun _ => b)) (.array fun _ => S.relaxation)).proxDual
            ((S.term.assignData (some (.array fun _ => b)) (.array fun _ => S.relaxation)).updateDual p (onePixel.fwd z)) : Arr (Fin 1))) 0 =
            (tp + S.relaxation * tz - S.relaxation * b) / (1 + S.relaxation) := by
          simp only [DataTerm.proxDual, DataTerm.updateDual, DataTerm.subSigmaData, DataTerm.assignData, DataTerm.computeSigmaData, DataTerm.computeSigma1, hkind, hbg, Attr.get,
            Attr.map₂, Attr.map, onePixel, matrixOp, h3, one_mul]
          rw [Fintype.sum_prod_type, Fin.sum_univ_one, Fin.sum_univ_one]
          rw [show z (0, 0) = tz from h2]
          ring
        rw [hregs, htol]
        obtain ⟨g1, g2, g3, g4, g5⟩ := pdhg_single (A := onePixel) rfl { iterations := n, x0 := some fun _ => c } (vsvdReg svd w none)
          (S.term.assignData (some (.array fun _ => b)) (.array fun _ => S.relaxation)) tt (fun _ => S.relaxation / 2) k x z p D i
        have hxn : (clipMask (ι := Fin 1) { iterations := n, x0 := some fun _ => c } fun j => x j - (onePixel.adj
            (((S.term.assignData (some (.array fun _ => b)) (.array fun _ => S.relaxation)).proxDual
            ((S.term.assignData (some (.array fun _ => b)) (.array fun _ => S.relaxation)).updateDual p (onePixel.fwd z)) : Arr (Fin 1))) j +
            ((vsvdReg svd w none).updatePrimal (vsvdStep (vsvdReg svd w none) D z)).1 j) * (S.relaxation / 2)) (0, 0) =
            tx - ((tp + S.relaxation * tz - S.relaxation * b) / (1 + S.relaxation) + e tz * min (tq + |tz|) w) * (S.relaxation / 2) := by
          simp only [clipMask, applyMask, clip1, Option.map_none, hpush, h1]
          rw [show onePixel.adj = fun y j => ∑ i : Fin 1, 1 * y i from rfl]
          simp only [Fin.sum_univ_one, one_mul, hp, he]
          ring
        refine ⟨⟨(congrFun g1 _).trans hxn, ?_, (congrFun g3 _).trans hp, ⟨_, g4, hq⟩, le_min (add_nonneg h6 (abs_nonneg _)) hw.le⟩, g5⟩
        refine (congrFun g2 _).trans ?_
        exact congrArg₂ (· + ·) hxn (congrArg₂ (· - ·) hxn h1)
    exact one_diverges (fun z => (hs z).2.1) (fun z => (hs z).2.2) hρ hb hc x (by simpa only [hstate] using hx)

/-- The singular value decomposition of a 1 × 1 matrix. -/
private noncomputable def svd1 (M : Fin 1 → Fin 1 → ℝ) : Svd 1 1 1 := ⟨fun _ _ => if 0 ≤ M 0 0 then 1 else -1, fun _ => |M 0 0|, fun _ _ => 1⟩

private theorem svd1_valid (M : Fin 1 → Fin 1 → ℝ) : (svd1 M).Valid M := by
  refine ⟨fun a b => ?_, fun a b => ?_, fun a => abs_nonneg _, fun i j => ?_⟩
  · rw [if_pos (Subsingleton.elim a b)]
    simp only [svd1, Fin.sum_univ_one]
    split_ifs <;> norm_num
  · rw [if_pos (Subsingleton.elim a b)]
    simp [svd1]
  · rw [Subsingleton.elim i 0, Subsingleton.elim j 0]
    simp only [svd1, Fin.sum_univ_one]
    split_ifs with h
    · rw [abs_of_nonneg h]; ring
    · rw [abs_of_neg (not_le.1 h)]; ring

/-- Non-vacuity: the value 1, the weight 2, started at 3. -/
example : ¬ ∃ x, Tendsto (fun n => match pdhg (ι := Fin 1) ⟨19 / 20, none, [vsvdReg svd1 2 none], DataTerm.new .l2 none, DataTerm.new .l2 none, none⟩ onePixel (fun _ => 1)
    { iterations := n, x0 := some fun _ => 3 } true (fun _ => 1) with | .ok r => r.1 (0, 0) | .error _ => 0) atTop (𝓝 x) := by
  have h := C279_violated svd1 svd1_valid (b := 1) (w := 2) (c := 3) (by norm_num) (by norm_num)
    (S := ⟨19 / 20, none, [vsvdReg svd1 2 none], DataTerm.new .l2 none, DataTerm.new .l2 none, none⟩) (by norm_num) rfl rfl rfl rfl fun _ => 1
  choose r hr using h.2.1
  simpa only [hr] using h.2.2 r hr

end Verif
