import Verif.Props.SolversConv
import Verif.Props.PowerMethod
import Verif.Props.Regularizers
import Verif.Props.DwlCycle

/-! # What FISTA minimises -/

namespace Verif
open Finset Classical DataTerm Verif.Spec

variable {ν ι Q : Type} [Fintype ν] [Fintype ι]

/-- The documented objective of `FISTA` (src/corrct/solvers.py:1216-1223) for the l2 term: half the squared residual over the training pixels, plus the regularizer. -/
noncomputable def documented (M : ι → ν → ℝ) (S : Solver ν ι Q) (a : Args ν ι) (b : Arr ι) (G : Arr ν → ℝ) (x : Arr ν) : ℝ :=
  (∑ i, trainWeight a i * (b i - S.term.addBackground (fun i => ∑ j, M i j * x j) i) ^ 2) / 2 + G x

/-- The step sizes without preconditioning. -/
theorem fista_lipschitz {M : ι → ν → ℝ} {S : Solver ν ι Q} {a : Args ν ι} {rnd sigma tau}
    (h : fistaScaling S (matrixOp M) a false rnd = .ok (sigma, tau)) :
    ∃ L, powerMethod (matrixOp M).fwd (matrixOp M).adj rnd = .ok L ∧ L ≠ 0 ∧ sigma = (fun _ => 1 / L) ∧ tau = fun _ => S.relaxation / L := by
  have e : fistaScaling S (matrixOp M) a false rnd = lipschitzScaling (Q := Q) (matrixOp M) rnd [] 1 S.relaxation := by
    unfold fistaScaling
    split <;> simp
  rw [e] at h
  unfold lipschitzScaling at h
  cases hL : powerMethod (matrixOp M).fwd (matrixOp M).adj rnd with
  | error e => simp [hL, bind, Except.bind] at h
  | ok L =>
    by_cases h0 : L = 0
    · simp [hL, bind, Except.bind, h0] at h
    · simp [hL, bind, Except.bind, h0] at h
      exact ⟨L, rfl, h0, by rw [← h.1]; simp, h.2.symm⟩

/-- The estimate without preconditioning, for any step that fulfils the variational inequality of `G`: the minimised function is half the squared residual plus the
regularizer multiplied by the estimate `L` of the norm. -/
theorem fista_unpreconditioned {M : ι → ν → ℝ} {S : Solver ν ι Q} {b : Arr ι} {a : Args ν ι} {rnd x info S'}
    (h : fista S (matrixOp M) b a false rnd = .ok (x, info, S')) (hk : S.term.kind = .l2) (hR : S.restartPeriod = none)
    (hω : 0 < S.relaxation) (hω1 : S.relaxation ≤ 1) (hs : SensibleScale M a) (hn : 1 ≤ a.iterations) (G : Arr ν → ℝ) :
    ∃ L, powerMethod (matrixOp M).fwd (matrixOp M).adj rnd = .ok L ∧ (NormBound (matrixOp M).fwd L →
    (∀ v u : Arr ν, Admissible a u →
      S.relaxation * G (clipMask a (match S.regs with | r :: _ => r.proxPrimal v (fun _ => S.relaxation / L) | [] => v)) +
        ∑ j, L * (v j - clipMask a (match S.regs with | r :: _ => r.proxPrimal v (fun _ => S.relaxation / L) | [] => v) j) *
          (u j - clipMask a (match S.regs with | r :: _ => r.proxPrimal v (fun _ => S.relaxation / L) | [] => v) j) ≤ S.relaxation * G u) →
    ∀ z, Admissible a z → documented M S a b (fun x => L * G x) x - documented M S a b (fun x => L * G x) z ≤
      2 * L ^ 2 * (∑ j, (startVolume a 0 j - z j) ^ 2) / (S.relaxation * (info.iterations + 1) ^ 2)) := by
  obtain ⟨sigma, tau, -, hsc, -⟩ := fista_ok h
  obtain ⟨L, hL, h0, rfl, rfl⟩ := fista_lipschitz hsc
  refine ⟨L, hL, fun hb hreg z hz => ?_⟩
  have hLpos : 0 < L := lt_of_le_of_ne hb.1 h0.symm
  have core := fista_core h hR hω hω1 hs G (s := fun i => effMask a i * (1 / L)) (w := fun _ => L)
    (fun i => mul_nonneg (effMask_range hs i).1 (by positivity)) (fun _ => hLpos) (by
      intro d _
      have hx := hb.2 d
      have hxs : ∑ i, (matrixOp M).fwd d i ^ 2 ≤ L ^ 2 * ∑ j, d j ^ 2 := by
        have := pow_le_pow_left₀ (Real.sqrt_nonneg _) hx 2
        rwa [mul_pow, Real.sq_sqrt (sum_nonneg fun i _ => sq_nonneg _), Real.sq_sqrt (sum_nonneg fun i _ => sq_nonneg _)] at this
      have h1 : ∑ i, effMask a i * (1 / L) * (∑ j, M i j * d j) ^ 2 ≤ 1 / L * ∑ i, (matrixOp M).fwd d i ^ 2 := by
        rw [mul_sum]
        refine sum_le_sum fun i _ => ?_
        have h2 := (effMask_range hs i).2
        have h3 : 0 ≤ 1 / L * (∑ j, M i j * d j) ^ 2 := by positivity
        have h4 := mul_le_mul_of_nonneg_right h2 h3
        simp only [matrixOp]
        linarith
      refine h1.trans ?_
      rw [← mul_sum]
      calc 1 / L * ∑ i, (matrixOp M).fwd d i ^ 2 ≤ 1 / L * (L ^ 2 * ∑ j, d j ^ 2) := mul_le_mul_of_nonneg_left hxs (by positivity)
        _ = L * ∑ j, d j ^ 2 := by field_simp)
    (by
      intro sigma' tau' hsc'
      rw [hsc] at hsc'
      simp only [Except.ok.injEq, Prod.mk.injEq] at hsc'
      obtain ⟨rfl, rfl⟩ := hsc'
      refine ⟨fun _ => rfl, fun y => ?_⟩
      funext j
      rw [fista_gradient (a := a) _ hk y j])
    hreg hz
  rcases core with h1 | h1
  · have e : ∀ y, documented M S a b (fun x => L * G x) y = L * (misfit S (matrixOp M) b (fun i => effMask a i * (1 / L)) y + G y) := by
      intro y
      unfold documented misfit
      rw [mul_add, mul_div_assoc', mul_sum]
      congr 2
      refine sum_congr rfl fun i _ => ?_
      dsimp only
      rw [effMask_eq]
      simp only [matrixOp]
      field_simp
    rw [e, e, ← mul_sub]
    refine (mul_le_mul_of_nonneg_left h1 hLpos.le).trans (le_of_eq ?_)
    unfold dist2
    rw [← mul_sum]
    ring
  · exact absurd h1 (fista_iterated h hn)

/-- C234, partial, for regularizers with a voxel-wise proximal step `g`, without preconditioning, if the power method found the norm `L` of the matrix: after `k`
iterations the documented objective, with the regularizer multiplied by `L`, exceeds that of any admissible volume by at most `2 L² dist² / (ω (k + 1)²)`. (Missing:
`L = 1`, see the violation below.) -/
theorem C234_unpreconditioned_partial {M : ι → ν → ℝ} {S : Solver ν ι Q} {b : Arr ι} {a : Args ν ι} {rnd x info S'}
    (h : fista S (matrixOp M) b a false rnd = .ok (x, info, S')) {reg : Reg ν Q} (hr : S.regs = [reg])
    {g : ν → ℝ → ℝ} (hg : ∀ j, ConvexOn ℝ Set.univ (g j)) (hprox : ProxOf reg g) (hk : S.term.kind = .l2) (hR : S.restartPeriod = none)
    (hω : 0 < S.relaxation) (hω1 : S.relaxation ≤ 1) (hs : SensibleScale M a) (hn : 1 ≤ a.iterations) :
    ∃ L, powerMethod (matrixOp M).fwd (matrixOp M).adj rnd = .ok L ∧ (NormBound (matrixOp M).fwd L → ∀ z, Admissible a z →
      documented M S a b (fun x => L * ∑ j, g j (x j)) x - documented M S a b (fun x => L * ∑ j, g j (x j)) z ≤
        2 * L ^ 2 * (∑ j, (startVolume a 0 j - z j) ^ 2) / (S.relaxation * (info.iterations + 1) ^ 2)) := by
  obtain ⟨sigma, tau, -, hsc, -⟩ := fista_ok h
  obtain ⟨L', hL', h0, -, -⟩ := fista_lipschitz hsc
  obtain ⟨L, hL, hmain⟩ := fista_unpreconditioned h hk hR hω hω1 hs hn (fun x => ∑ j, g j (x j))
  refine ⟨L, hL, fun hb => hmain hb fun v u hu => ?_⟩
  have h0 : L ≠ 0 := by
    rw [hL] at hL'
    simp only [Except.ok.injEq] at hL'
    rw [hL']; exact h0
  have hLpos : 0 < L := lt_of_le_of_ne hb.1 h0.symm
  have htpos : ∀ j : ν, 0 < S.relaxation / L := fun _ => div_pos hω hLpos
  simp only [hr]
  rw [mul_sum, mul_sum, ← sum_add_distrib]
  refine sum_le_sum fun j _ => ?_
  have h4 := clip_prox_mask hs hu hg (fun j => (htpos j).le)
    (fun j y => prox_vi (hg j) (htpos j).le (hprox v (fun _ => S.relaxation / L) htpos j) y) j
  have h5 := mul_le_mul_of_nonneg_left h4 hLpos.le
  generalize clipMask a (reg.proxPrimal v fun _ => S.relaxation / L) = x' at h5 ⊢
  have h6 : ∀ c : ℝ, L * (S.relaxation / L * c) = S.relaxation * c := fun c => by field_simp
  rw [mul_add, h6, h6] at h5
  refine le_trans (le_of_eq ?_) h5
  ring

/-- C234, partial, without regularizer: without preconditioning, if the power method found the norm `L` of the matrix, the documented objective. -/
theorem C234_unregularized_partial {M : ι → ν → ℝ} {S : Solver ν ι Q} {b : Arr ι} {a : Args ν ι} {rnd x info S'}
    (h : fista S (matrixOp M) b a false rnd = .ok (x, info, S')) (hr : S.regs = []) (hk : S.term.kind = .l2) (hR : S.restartPeriod = none)
    (hω : 0 < S.relaxation) (hω1 : S.relaxation ≤ 1) (hs : SensibleScale M a) (hn : 1 ≤ a.iterations) :
    ∃ L, powerMethod (matrixOp M).fwd (matrixOp M).adj rnd = .ok L ∧ (NormBound (matrixOp M).fwd L → ∀ z, Admissible a z →
      documented M S a b (fun _ => 0) x - documented M S a b (fun _ => 0) z ≤
        2 * L ^ 2 * (∑ j, (startVolume a 0 j - z j) ^ 2) / (S.relaxation * (info.iterations + 1) ^ 2)) := by
  obtain ⟨L, hL, hmain⟩ := fista_unpreconditioned h hk hR hω hω1 hs hn (fun _ => 0)
  refine ⟨L, hL, fun hb z hz => ?_⟩
  have := hmain hb (fun v u hu => ?_) z hz
  · simpa using this
  · simp only [hr, mul_zero, zero_add]
    refine sum_nonpos fun j _ => ?_
    rw [mul_assoc]
    have h4 := clip_prox_mask (g := fun _ _ => 0) (tau := fun _ => 0) (v := v) (p := v) hs hu (fun _ => convexOn_const _ convex_univ) (fun _ => le_rfl) (by simp) j
    simp only [zero_mul, zero_add] at h4
    exact mul_nonpos_of_nonneg_of_nonpos hb.1 h4

/-! ## The violation: one pixel, one value, the matrix 2, the data 4, the l1 norm with weight 1 -/

namespace OnePixel

def M2 : Fin 1 → Fin 1 → ℝ := fun _ _ => 2
noncomputable def S1 : Solver (Fin 1) (Fin 1) (Arr (Fin 1)) :=
  ⟨1, none, [(l1Reg (.scalar 1) none (.new .l1 none)).toReg (l1ProxPrimal (.scalar 1) none)], .new .l2 none, .new .l2 none, none⟩

theorem l2_const (c : ℝ) (hc : 0 ≤ c) : l2norm (fun _ : Fin 1 => c) = c := by
  simp [l2norm, Real.sqrt_sq hc]

theorem loop2 : ∀ n (L : ℝ), powerLoop (matrixOp M2).fwd (matrixOp M2).adj (n + 1) (fun _ => 4) 4 L = .ok 2
  | 0, L => by
    have e : (matrixOp M2).adj ((matrixOp M2).fwd fun _ => (4 : ℝ) / 4) = fun _ => 4 := by
      funext j; simp [matrixOp, M2]; norm_num
    rw [powerLoop, if_neg (by norm_num)]
    dsimp only
    rw [e, l2_const 4 (by norm_num), powerLoop]
    rw [show (4 : ℝ) = 2 ^ 2 by norm_num, Real.sqrt_sq (by norm_num)]
  | n + 1, L => by
    have e : (matrixOp M2).adj ((matrixOp M2).fwd fun _ => (4 : ℝ) / 4) = fun _ => 4 := by
      funext j; simp [matrixOp, M2]; norm_num
    rw [powerLoop, if_neg (by norm_num)]
    dsimp only
    rw [e, l2_const 4 (by norm_num)]
    exact loop2 n _

theorem power2 {r : ℝ} (hr : 0 < r) : powerMethod (matrixOp M2).fwd (matrixOp M2).adj (fun _ => r) = .ok 2 := by
  have e0 : (matrixOp M2).adj (fun _ => r / r) = fun _ => 2 := by
    funext j; simp [matrixOp, M2, hr.ne']
  have e : (matrixOp M2).adj ((matrixOp M2).fwd fun _ => (2 : ℝ) / 2) = fun _ => 4 := by
    funext j; simp [matrixOp, M2]; norm_num
  unfold powerMethod
  rw [l2_const r hr.le, if_neg hr.ne']
  dsimp only
  rw [e0, l2_const 2 (by norm_num), powerLoop, if_neg (by norm_num)]
  dsimp only
  rw [e, l2_const 4 (by norm_num)]
  exact loop2 3 _

theorem scaling (pc : Bool) (n : ℕ) {r : ℝ} (hr : 0 < r) :
    fistaScaling S1 (matrixOp M2) { iterations := n } pc (fun _ => r) = .ok (fun _ => 1 / 2, fun _ => 1 / 2) := by
  cases pc with
  | false =>
    have e : fistaScaling S1 (matrixOp M2) { iterations := n } false (fun _ => r) = lipschitzScaling (Q := Arr (Fin 1)) (matrixOp M2) (fun _ => r) [] 1 1 := by
      simp [fistaScaling, S1, matrixOp]
    rw [e, lipschitzScaling, power2 hr]
    simp [bind, Except.bind]
  | true =>
    simp only [fistaScaling, matrixOp, if_true]
    obtain ⟨p, hp⟩ := matrix_scaling_ok (Q := Arr (Fin 1)) (M := M2) 1 1 ⟨0, 0, by simp [M2]⟩
    obtain ⟨sigma, tau⟩ := p
    obtain ⟨R, C, -, -, h1, h2, hC, hR, hR2, hC2⟩ := scaling_matrix (M := M2) (a := { iterations := n }) hp (by simp [effMask, initBMasks, applyMask]) (by simp [effXMask, applyMask])
    simp only [effMask, effXMask, initBMasks, applyMask, M2, Finset.univ_unique, Finset.sum_singleton, mul_one, Option.getD_none] at hC hR hR2 hC2
    have hR3 : ∀ i, R i = 2 := fun i => by
      have := hR2 (by norm_num) i
      have a2 : |(2 : ℝ)| = 2 := by norm_num
      rw [a2] at this
      rcases hR i with h | h
      · rw [h, a2]
      · rw [h] at this; norm_num at this
    have hC3 : ∀ i, C i = 2 := fun i => by
      have := hC2 (by norm_num) i
      have a2 : |(2 : ℝ)| = 2 := by norm_num
      rw [a2] at this
      rcases hC i with h | h
      · rw [h, a2]
      · rw [h] at this; norm_num at this
    simp only [initBMasks, S1]
    rw [hp]
    congr 2
    · funext i; rw [h1, hR3]
    · funext i; rw [h2, hC3]

theorem result {pc : Bool} {n : ℕ} {r : ℝ} (hr : 0 < r) (hn : 1 ≤ n) {x info S'}
    (h : fista S1 (matrixOp M2) (fun _ => 4) { iterations := n } pc (fun _ => r) = .ok (x, info, S')) : x = fun _ => 3 / 2 := by
  obtain ⟨sigma, tau, tt, hsc, -, hres⟩ := fista_ok h
  rw [scaling pc n hr] at hsc
  simp only [Except.ok.injEq, Prod.mk.injEq] at hsc hres
  obtain ⟨rfl, rfl⟩ := hsc
  rw [hres.1]
  refine forRange_est (P := fun s : FState (Fin 1) => s.x = _) hn fun k s => ?_
  funext j
  have e : (fistaStep (matrixOp M2) { iterations := n } S1.regs S1.restartPeriod (S1.term.assignData (some (.array fun _ => 4)) (.scalar 1)) tt
      (initBMasks (ι := Fin 1) none none).1 (initBMasks (ι := Fin 1) none none).2 (fun _ => 1 / 2) (fun _ => 1 / 2) S1.tolerance k s).1.x j =
      softThreshold (s.y j + 1 / 2 * (2 * ((4 - 2 * s.y j) * (1 / 2)))) (1 / 2 * 1) := by
    simp [fistaStep, S1, clipMask, applyMask, clip1, RegState.toReg, l1ProxPrimal, Attr.get, matrixOp, M2, DataTerm.residual, DataTerm.assignData, DataTerm.new, initBMasks, addBackground, Subsingleton.elim j 0]
  exact e.trans (by rw [show s.y j + 1 / 2 * (2 * ((4 - 2 * s.y j) * (1 / 2))) = 2 by ring]; norm_num [softThreshold, npSign])

end OnePixel

open OnePixel in
/-- C234 is violated, with preconditioning (the default) and without: one pixel and one value, the matrix 2, the data 4, the l1 norm with weight 1. After any
positive number of iterations, for every random start, the result is 3/2 (the minimiser for the weight 2), whose documented objective exceeds that of 7/4 by 1/8. -/
theorem C234_documented_violated (pc : Bool) : ∀ n ≥ 1, ∀ r > 0, ∃ x info S',
    fista S1 (matrixOp M2) (fun _ => 4) { iterations := n } pc (fun _ => r) = .ok (x, info, S') ∧
    documented M2 S1 { iterations := n } (fun _ => 4) (fun x => ∑ j, |x j|) (fun _ => 7 / 4) + 1 / 8 ≤
      documented M2 S1 { iterations := n } (fun _ => 4) (fun x => ∑ j, |x j|) x := by
  intro n hn r hr
  obtain ⟨⟨x, info, S'⟩, h⟩ := fista_runs (b := fun _ => 4) (scaling pc n hr) rfl
  refine ⟨x, info, S', h, ?_⟩
  rw [result hr hn h]
  simp [documented, trainWeight, S1, M2, addBackground, DataTerm.new]
  norm_num [abs_of_pos]

open OnePixel in
/-- The hypotheses of the partial theorem are met by that solver, with weight `L = 2` in place of 1. -/
example (n : ℕ) (hn : 1 ≤ n) : ∃ x info S', fista S1 (matrixOp M2) (fun _ => 4) { iterations := n } false (fun _ => 1) = .ok (x, info, S') ∧
    ∀ z, documented M2 S1 { iterations := n } (fun _ => 4) (fun x => 2 * ∑ j, |x j|) x - documented M2 S1 { iterations := n } (fun _ => 4) (fun x => 2 * ∑ j, |x j|) z ≤
      2 * 2 ^ 2 * (∑ j, (0 - z j) ^ 2) / (1 * (info.iterations + 1) ^ 2) := by
  obtain ⟨⟨x, info, S'⟩, h⟩ := fista_runs (b := fun _ => 4) (scaling false n one_pos) rfl
  refine ⟨x, info, S', h, fun z => ?_⟩
  obtain ⟨L, hL, hb⟩ := C234_unpreconditioned_partial h (reg := _) rfl (g := fun _ x => |x|) (fun _ => convexOn_norm convex_univ) (by
      intro v tau ht j y
      have := soft_strong (v j) (tau j * 1) y (by linarith [ht j])
      simp only [RegState.toReg, l1ProxPrimal, Attr.get, mul_one] at this ⊢
      nlinarith [sq_nonneg (y - softThreshold (v j) (tau j))])
    rfl rfl (by norm_num [S1]) (by norm_num [S1]) ⟨by simp, by simp, by simp, by norm_num [M2], by norm_num [M2]⟩ hn
  rw [power2 one_pos] at hL
  cases hL
  exact hb ⟨by norm_num, fun x => by
    simp only [matrixOp, M2, Finset.univ_unique, Finset.sum_singleton, mul_pow]
    rw [Real.sqrt_mul (by norm_num), Real.sqrt_sq (by norm_num)]⟩ z ⟨⟨by simp, by simp⟩, by simp⟩

/-! ## Wavelets -/

section Wavelets
variable {L m : ℕ} {κ : Type} [Fintype κ] [DecidableEq κ]

/-- The l1 norm of the wavelet coefficients of an array. -/
noncomputable def waveletNorm (w : FilterBank L) (minApprox : Bool) (level : ℕ) (axes : Fin m → κ) (n : κ → ℕ) (x : Arr (Idx n)) : ℝ :=
  dwlNorm w .periodization minApprox level axes n (toImg n x)

theorem toImg_ofImg (n : κ → ℕ) (P : Img κ) : ∀ p ∈ box n, toImg n (ofImg n P) p = P p := by
  intro p hp
  have hp' := mem_box.mp hp
  unfold toImg ofImg
  rw [dif_pos hp']
  congr 1
  funext k
  have := hp' k
  simp only
  omega

theorem dwlNorm_congr (w : FilterBank L) (minApprox : Bool) (level : ℕ) (axes : Fin m → κ) (n : κ → ℕ) {x x' : Img κ} (h : ∀ p ∈ box n, x p = x' p) :
    dwlNorm w .periodization minApprox level axes n x = dwlNorm w .periodization minApprox level axes n x' := by
  unfold dwlNorm
  refine sum_congr rfl fun b _ => ?_
  split_ifs
  · rfl
  · exact sum_congr rfl fun q hq => by rw [dwtOp_congr w level axes n h b q hq]

theorem sum_toImg (n : κ → ℕ) (F : Idx n → ℝ) (G : Img κ) (h : ∀ p : Idx n, F p = G fun k => ((p k : ℕ) : ℤ)) : ∑ p, F p = ∑ p ∈ box n, G p := by
  rw [← sum_box]
  exact sum_congr rfl fun p _ => h p

/-- The step of the wavelet regularizer is the proximal step with the threshold of the first pixel. -/
theorem dwl_step_vi {w : FilterBank L} (h : OrthogonalWavelet w) (hL : Even L) (minApprox : Bool) (level : ℕ) (axes : Fin m → κ)
    (hinj : Function.Injective axes) (n : κ → ℕ) (hn : ∀ i, 2 ^ level ∣ n (axes i)) {t : ℝ} (ht : 0 ≤ t) (v u : Arr (Idx n)) :
    (∑ j, (ofImg n (dwlProxPrimal w .periodization minApprox level axes n t (toImg n v)) j - v j) ^ 2) / 2 +
      t * waveletNorm w minApprox level axes n (ofImg n (dwlProxPrimal w .periodization minApprox level axes n t (toImg n v))) +
      (∑ j, (u j - ofImg n (dwlProxPrimal w .periodization minApprox level axes n t (toImg n v)) j) ^ 2) / 2 ≤
    (∑ j, (u j - v j) ^ 2) / 2 + t * waveletNorm w minApprox level axes n u := by
  have key := C227_proximal_partial h hL minApprox level axes hinj n hn ht (toImg n v) (toImg n u)
  unfold dwlObjective at key
  unfold waveletNorm
  rw [dwlNorm_congr w minApprox level axes n (toImg_ofImg n _)]
  rw [sum_toImg n _ (fun p => (dwlProxPrimal w .periodization minApprox level axes n t (toImg n v) p - toImg n v p) ^ 2) (fun p => by rw [toImg_idx]; rfl),
    sum_toImg n _ (fun p => (toImg n u p - dwlProxPrimal w .periodization minApprox level axes n t (toImg n v) p) ^ 2) (fun p => by rw [toImg_idx]; rfl),
    sum_toImg n _ (fun p => (toImg n u p - toImg n v p) ^ 2) (fun p => by rw [toImg_idx, toImg_idx])]
  exact key

/-- C235, partial: orthogonal wavelets, mode "periodization", sizes divisible by `2 ** level`, without preconditioning, limits and solution mask, if the power method
found the norm `L` of the matrix: after `k` iterations half the squared residual plus `L · weight` times the l1 norm of the wavelet coefficients exceeds that of
any volume by at most `2 L² dist² / (ω (k + 1)²)`. (Missing: preconditioning, see the violation below.) -/
theorem C235_wavelet_partial {w : FilterBank L} (ho : OrthogonalWavelet w) (hE : Even L) {minApprox : Bool} {level : ℕ} {axes : Fin m → κ}
    (hinj : Function.Injective axes) {n : κ → ℕ} (hn : ∀ i, 2 ^ level ∣ n (axes i)) (hpos : ∀ k, 0 < n k) {weight : ℝ} (hw : 0 ≤ weight)
    {M : ι → Idx n → ℝ} {S : Solver (Idx n) ι (Arr (DwlDual (level := level) .periodization L axes n))} {b : Arr ι} {a : Args (Idx n) ι} {rnd x info S'}
    (h : fista S (matrixOp M) b a false rnd = .ok (x, info, S')) (hr : S.regs = [dwlReg w .periodization minApprox level axes n weight])
    (hk : S.term.kind = .l2) (hR : S.restartPeriod = none) (hω : 0 < S.relaxation) (hω1 : S.relaxation ≤ 1) (hs : SensibleScale M a)
    (hl : a.lower = none) (hu : a.upper = none) (hm : a.xMask = none) (hit : 1 ≤ a.iterations) :
    ∃ N, powerMethod (matrixOp M).fwd (matrixOp M).adj rnd = .ok N ∧ (NormBound (matrixOp M).fwd N → ∀ z,
      documented M S a b (fun x => N * (weight * waveletNorm w minApprox level axes n x)) x -
        documented M S a b (fun x => N * (weight * waveletNorm w minApprox level axes n x)) z ≤
        2 * N ^ 2 * (∑ j, (startVolume a 0 j - z j) ^ 2) / (S.relaxation * (info.iterations + 1) ^ 2)) := by
  obtain ⟨sigma, tau, -, hsc, -⟩ := fista_ok h
  obtain ⟨N', hN', h0, -, -⟩ := fista_lipschitz hsc
  obtain ⟨N, hN, hmain⟩ := fista_unpreconditioned h hk hR hω hω1 hs hit (fun x => weight * waveletNorm w minApprox level axes n x)
  refine ⟨N, hN, fun hb z => hmain hb (fun v u _ => ?_) z ⟨⟨by simp [hl], by simp [hu]⟩, by simp [hm]⟩⟩
  have h0 : N ≠ 0 := by
    rw [hN] at hN'
    simp only [Except.ok.injEq] at hN'
    rw [hN']; exact h0
  have hNpos : 0 < N := lt_of_le_of_ne hb.1 h0.symm
  have hc : ∀ q : Arr (Idx n), clipMask a q = q := fun q => by
    simp only [clipMask, hl, hu, hm, Option.map_none, clip1]
    rfl
  simp only [hr, hc]
  simp only [dwlReg, dif_pos hpos]
  have key := dwl_step_vi ho hE minApprox level axes hinj n hn (t := S.relaxation / N * weight) (by positivity) v u
  generalize ofImg n (dwlProxPrimal w .periodization minApprox level axes n (S.relaxation / N * weight) (toImg n v)) = p at key ⊢
  have e : ∑ j, (u j - v j) ^ 2 = ∑ j, (p j - v j) ^ 2 + ∑ j, (u j - p j) ^ 2 - 2 * ∑ j, (v j - p j) * (u j - p j) := by
    rw [mul_sum, ← sum_add_distrib, ← sum_sub_distrib]
    exact sum_congr rfl fun j _ => by ring
  rw [e] at key
  have e2 : ∑ j, N * (v j - p j) * (u j - p j) = N * ∑ j, (v j - p j) * (u j - p j) := by
    rw [mul_sum]; exact sum_congr rfl fun j _ => by ring
  rw [e2]
  have key2 : S.relaxation / N * weight * waveletNorm w minApprox level axes n p + ∑ j, (v j - p j) * (u j - p j) ≤
      S.relaxation / N * weight * waveletNorm w minApprox level axes n u := by linarith
  have h5 := mul_le_mul_of_nonneg_left key2 hNpos.le
  have h6 : ∀ c : ℝ, N * (S.relaxation / N * weight * c) = S.relaxation * (weight * c) := fun c => by field_simp
  rw [mul_add, h6, h6] at h5
  exact h5

/-! ### The violation: two pixels -/

namespace TwoPixels

def n2 : Fin 1 → ℕ := fun _ => 2
def p0 : Idx n2 := fun _ => (0 : Fin 2)
def p1 : Idx n2 := fun _ => (1 : Fin 2)

theorem cases2 (p : Idx n2) : p = p0 ∨ p = p1 := by
  have key : ∀ q : Fin 2, q = 0 ∨ q = 1 := by decide
  rcases key (p 0) with h | h
  · exact Or.inl (funext fun k => by rw [Subsingleton.elim k 0]; exact h)
  · exact Or.inr (funext fun k => by rw [Subsingleton.elim k 0]; exact h)

theorem p_ne : p0 ≠ p1 := by
  intro h
  have h2 : (0 : Fin 2) = 1 := congrFun h 0
  exact absurd h2 (by decide)

theorem sum2 (f : Idx n2 → ℝ) : ∑ p, f p = f p0 + f p1 := by
  have e : (univ : Finset (Idx n2)) = {p0, p1} := by
    ext p
    simpa using cases2 p
  rw [e, sum_pair p_ne]

theorem ext2 {x y : Arr (Idx n2)} (h0 : x p0 = y p0) (h1 : x p1 = y p1) : x = y := by
  funext p
  rcases cases2 p with rfl | rfl
  · exact h0
  · exact h1

theorem norm2 (z : Arr (Idx n2)) : waveletNorm haarBank true 1 ax0 n2 z = (|z p0 + z p1| + |z p0 - z p1|) / Real.sqrt 2 := by
  have h0 : (0 : ℝ) < Real.sqrt 2 := by positivity
  have hs : levelShape .periodization 2 ax0 n2 1 = fun _ => 1 := by
    funext k
    simp [levelShape, bandShape, decShape, dwtLen, ax0, n2, Subsingleton.elim k 0]
  have r0 : toImg n2 z (fun _ => 0) = z p0 := by
    exact toImg_idx z p0
  have r1 : toImg n2 z (fun _ => 1) = z p1 := by
    exact toImg_idx z p1
  unfold waveletNorm dwlNorm
  simp only [Bool.true_eq_false, and_false, if_false]
  have v1 := C226_haar_values .periodization 2 (0 : Fin 1) (toImg n2 z) (fun _ => 0) le_rfl (by norm_num)
  have v2 := v1.2
  have v1 := v1.1
  rw [one_set, one_set, mul_zero, zero_add, r0, r1] at v1 v2
  have la : lettered ax0 (approxLabel 1) = [(0, false)] := by simp [lettered, ax0, approxLabel]
  let l1 : {l : Fin 1 → Bool // l ≠ approxLabel 1} := ⟨fun _ => true, fun h => by simpa [approxLabel] using congrFun h 0⟩
  have un : ∀ c : Fin 1 × {l : Fin 1 → Bool // l ≠ approxLabel 1}, c ≠ (0, l1) → False := by
    rintro ⟨i, l⟩ hc
    refine hc (Prod.ext (Subsingleton.elim _ _) (Subtype.ext (funext fun k => ?_)))
    by_contra hk
    refine l.2 (funext fun j => ?_)
    rw [Subsingleton.elim j k]
    simpa [approxLabel, l1] using hk
  rw [Fintype.sum_option, Fintype.sum_eq_single (0, l1) fun c hc => (un c hc).elim]
  simp only [dwtBandShape, Fin.val_zero, zero_add, hs, one_pixel_box, sum_singleton]
  have e1 : dwtOp haarBank .periodization 1 ax0 n2 (toImg n2 z) none (fun _ => 0) = (z p0 + z p1) / Real.sqrt 2 := by
    rw [← v1]
    simp only [dwtOp, dwtApprox, la, dbandDec, levelShape]
    rfl
  have e2 : dwtOp haarBank .periodization 1 ax0 n2 (toImg n2 z) (some (0, l1)) (fun _ => 0) = (z p0 - z p1) / Real.sqrt 2 := by
    rw [← v2]
    simp only [dwtOp, one_label l1.1 l1.2, dbandDec]
    rfl
  rw [e1, e2, abs_div, abs_div, abs_of_pos h0]
  ring

/-- The first row has the entry 1, the second the entry 2. -/
noncomputable def M : Idx n2 → Idx n2 → ℝ := fun i j => if i = j then if i = p0 then 1 else 2 else 0
/-- The data: 0 and 8. -/
noncomputable def b : Arr (Idx n2) := fun i => if i = p0 then 0 else 8
noncomputable def S : Solver (Idx n2) (Idx n2) (Arr (DwlDual (level := 1) .periodization 2 ax0 n2)) :=
  ⟨1, none, [dwlReg haarBank .periodization true 1 ax0 n2 1], .new .l2 none, .new .l2 none, none⟩

theorem abs_M (i j) : |M i j| = M i j := by
  unfold M
  split_ifs <;> norm_num

theorem scaling (k : ℕ) (rnd) : fistaScaling S (matrixOp M) { iterations := k } true rnd =
    .ok (fun i => if i = p0 then 1 else 1 / 2, fun i => if i = p0 then 1 else 1 / 2) := by
  simp only [fistaScaling, matrixOp, if_true]
  obtain ⟨p, hp⟩ := matrix_scaling_ok (Q := Arr (DwlDual (level := 1) .periodization 2 ax0 n2)) (M := M) 1 1 ⟨p0, p0, by simp [M]⟩
  obtain ⟨sigma, tau⟩ := p
  obtain ⟨R, C, -, -, h1, h2, hC, hR, hR2, hC2⟩ := scaling_matrix (M := M) (a := { iterations := k }) hp (by simp [effMask, initBMasks, applyMask]) (by simp [effXMask, applyMask])
  simp only [effMask, effXMask, initBMasks, applyMask, mul_one, Option.getD_none, abs_M] at hC hR hR2 hC2
  have r0 : ∑ j, M p0 j = 1 := by rw [sum2]; simp [M, p_ne]
  have r1 : ∑ j, M p1 j = 2 := by rw [sum2]; simp [M, p_ne, p_ne.symm]
  have c0 : ∑ i, M i p0 = 1 := by rw [sum2]; simp [M, p_ne, p_ne.symm]
  have c1 : ∑ i, M i p1 = 2 := by rw [sum2]; simp [M, p_ne, p_ne.symm]
  have R0 : R p0 = 1 := by rcases hR p0 with h | h <;> rw [h]; exact r0
  have C0 : C p0 = 1 := by rcases hC p0 with h | h <;> rw [h]; exact c0
  have R1 : R p1 = 2 := by
    have := hR2 (fun i => by rcases cases2 i with rfl | rfl <;> [rw [r0]; rw [r1]] <;> norm_num) p1
    rcases hR p1 with h | h
    · rw [h, r1]
    · rw [h, r1] at this; norm_num at this
  have C1 : C p1 = 2 := by
    have := hC2 (fun i => by rcases cases2 i with rfl | rfl <;> [rw [c0]; rw [c1]] <;> norm_num) p1
    rcases hC p1 with h | h
    · rw [h, c1]
    · rw [h, c1] at this; norm_num at this
  simp only [initBMasks, S]
  rw [hp]
  congr 2
  · exact ext2 (by rw [h1, R0]; simp) (by rw [h1, R1]; simp [p_ne.symm])
  · exact ext2 (by rw [h2, C0]; simp) (by rw [h2, C1]; simp [p_ne.symm])

/-- The argument of every proximal step. -/
noncomputable def c : Arr (Idx n2) := fun i => if i = p0 then 0 else 4

theorem prox2 : ofImg n2 (dwlProxPrimal haarBank .periodization true 1 ax0 n2 1 (toImg n2 c)) = fun i => if i = p0 then 0 else 4 - Real.sqrt 2 := by
  have h2 : Real.sqrt 2 * Real.sqrt 2 = 2 := Real.mul_self_sqrt (by norm_num)
  have h0 : 0 < Real.sqrt 2 := by positivity
  have h4 : Real.sqrt 2 < 4 := by nlinarith
  have key := dwl_step_vi haar_orthogonal ⟨1, rfl⟩ true 1 ax0 (fun a b _ => Subsingleton.elim a b) n2 (by intro i; simp [n2]) (t := 1) (by norm_num) c
    (fun i => if i = p0 then 0 else 4 - Real.sqrt 2)
  generalize ofImg n2 (dwlProxPrimal haarBank .periodization true 1 ax0 n2 1 (toImg n2 c)) = q at key ⊢
  rw [norm2, norm2, sum2, sum2, sum2] at key
  simp only [c, if_true, if_neg p_ne.symm] at key
  have e1 : |0 + (4 - Real.sqrt 2)| = 4 - Real.sqrt 2 := by rw [zero_add, abs_of_pos (by linarith)]
  have e2 : |0 - (4 - Real.sqrt 2)| = 4 - Real.sqrt 2 := by rw [zero_sub, abs_neg, abs_of_pos (by linarith)]
  rw [e1, e2] at key
  have e : (4 - Real.sqrt 2 + (4 - Real.sqrt 2)) / Real.sqrt 2 = 4 * Real.sqrt 2 - 2 := by
    rw [div_eq_iff h0.ne']; nlinarith
  rw [e] at key
  have low : Real.sqrt 2 * q p1 ≤ (|q p0 + q p1| + |q p0 - q p1|) / Real.sqrt 2 := by
    rw [le_div_iff₀ h0]
    have a1 := le_abs_self (q p0 + q p1)
    have a2 := neg_abs_le (q p0 - q p1)
    nlinarith
  have fin : (q p0) ^ 2 + (q p1 - (4 - Real.sqrt 2)) ^ 2 ≤ 0 := by nlinarith
  have z0 : q p0 = 0 := by nlinarith [sq_nonneg (q p0), sq_nonneg (q p1 - (4 - Real.sqrt 2))]
  have z1 : q p1 - (4 - Real.sqrt 2) = 0 := by nlinarith [sq_nonneg (q p0), sq_nonneg (q p1 - (4 - Real.sqrt 2))]
  refine ext2 ?_ ?_
  · simp [z0]
  · simp only [if_neg p_ne.symm]; linarith

theorem result {k : ℕ} {rnd} (hk : 1 ≤ k) {x info S'}
    (h : fista S (matrixOp M) b { iterations := k } true rnd = .ok (x, info, S')) : x = fun i => if i = p0 then 0 else 4 - Real.sqrt 2 := by
  obtain ⟨sigma, tau, tt, hsc, -, hres⟩ := fista_ok h
  rw [scaling k rnd] at hsc
  simp only [Except.ok.injEq, Prod.mk.injEq] at hsc hres
  obtain ⟨rfl, rfl⟩ := hsc
  rw [hres.1]
  refine forRange_est (P := fun s : FState (Idx n2) => s.x = _) hk fun k' s => ?_
  rw [← prox2]
  have e : (fun j => s.y j + (fun i => if i = p0 then 1 else 1 / 2 : Arr (Idx n2)) j * (matrixOp M).adj
      (fun i => (b i - ∑ j, M i j * s.y j) * (fun i => if i = p0 then 1 else 1 / 2 : Arr (Idx n2)) i) j) = c := by
    refine ext2 ?_ ?_
    · simp only [matrixOp, sum2]
      simp [M, b, c, p_ne, p_ne.symm]
    · simp only [matrixOp, sum2]
      simp [M, b, c, p_ne, p_ne.symm]
      ring
  have e2 : (fistaStep (matrixOp M) { iterations := k } S.regs S.restartPeriod (S.term.assignData (some (.array b)) (.scalar 1)) tt
      (initBMasks (ι := Idx n2) none none).1 (initBMasks (ι := Idx n2) none none).2 (fun i => if i = p0 then 1 else 1 / 2) (fun i => if i = p0 then 1 else 1 / 2)
      S.tolerance k' s).1.x = ofImg n2 (dwlProxPrimal haarBank .periodization true 1 ax0 n2 1 (toImg n2 fun j => s.y j + (fun i => if i = p0 then 1 else 1 / 2 : Arr (Idx n2)) j *
        (matrixOp M).adj (fun i => (b i - ∑ j, M i j * s.y j) * (fun i => if i = p0 then 1 else 1 / 2 : Arr (Idx n2)) i) j)) := by
    have hp : ∀ k, 0 < n2 k := fun _ => by simp [n2]
    simp only [fistaStep, S, dwlReg, dif_pos hp]
    have ez : ∀ hh : ∀ k : Fin 1, 0 < n2 k, (fun k => ⟨0, hh k⟩ : Idx n2) = p0 := fun _ => rfl
    have hc : ∀ q : Arr (Idx n2), clipMask ({ iterations := k } : Args (Idx n2) (Idx n2)) q = q := fun q => rfl
    rw [hc, ez, if_pos rfl, mul_one]
    rfl
  rw [← e]
  exact e2

end TwoPixels

open TwoPixels in
/-- C235 is violated with preconditioning, the default: two pixels, the matrix `diag(1, 2)`, the data 0 and 8, Haar, one level, weight 1. After any positive number of
iterations the result is `(0, 4 - √2)`; the row-normalised misfit (C61) plus the penalty exceeds that of `(0, 4 - √2/2)` by 1/2. The proximal step uses the
threshold of the first pixel for all coefficients. -/
theorem C235_preconditioned_violated : ∃ z, ∀ k ≥ 1, ∀ rnd, ∃ x info S', fista S (matrixOp M) b { iterations := k } true rnd = .ok (x, info, S') ∧
    misfit S (matrixOp M) b (fun i => 1 / ∑ j, |M i j|) z + 1 * waveletNorm haarBank true 1 ax0 n2 z + 1 / 2 ≤
      misfit S (matrixOp M) b (fun i => 1 / ∑ j, |M i j|) x + 1 * waveletNorm haarBank true 1 ax0 n2 x := by
  have h2 : Real.sqrt 2 * Real.sqrt 2 = 2 := Real.mul_self_sqrt (by norm_num)
  have h0 : 0 < Real.sqrt 2 := by positivity
  have h4 : Real.sqrt 2 < 4 := by nlinarith
  refine ⟨fun i => if i = p0 then 0 else 4 - Real.sqrt 2 / 2, fun k hk rnd => ?_⟩
  obtain ⟨⟨x, info, S'⟩, h⟩ := fista_runs (b := b) (scaling k rnd) rfl
  refine ⟨x, info, S', h, ?_⟩
  rw [result hk h, norm2, norm2]
  simp only [misfit, sum2, abs_M, matrixOp]
  simp only [M, b, S, p_ne, p_ne.symm, addBackground, DataTerm.new, if_true, if_false]
  have e1 : ∀ t : ℝ, t < 4 → (|0 + (4 - t)| + |0 - (4 - t)|) / Real.sqrt 2 = Real.sqrt 2 * (4 - t) := by
    intro t ht
    rw [zero_add, zero_sub, abs_neg, abs_of_pos (by linarith), div_eq_iff h0.ne']
    linear_combination -(4 - t) * h2
  rw [e1 _ h4, e1 _ (by linarith)]
  nlinarith

/-- The hypotheses of the partial theorem are met: the identity on two pixels, Haar, one level, weight 3, any data, any random start that is not zero. -/
example (b rnd : Arr (Idx TwoPixels.n2)) (hr : l2norm rnd ≠ 0) (k : ℕ) (hk : 1 ≤ k) :
    let S : Solver (Idx TwoPixels.n2) (Idx TwoPixels.n2) (Arr (DwlDual (level := 1) .periodization 2 ax0 TwoPixels.n2)) :=
      ⟨1, none, [dwlReg haarBank .periodization true 1 ax0 TwoPixels.n2 3], .new .l2 none, .new .l2 none, none⟩
    let I : Idx TwoPixels.n2 → Idx TwoPixels.n2 → ℝ := fun i j => if i = j then 1 else 0
    ∃ x info S', fista S (matrixOp I) b { iterations := k } false rnd = .ok (x, info, S') ∧ ∀ z,
      documented I S { iterations := k } b (fun x => 1 * (3 * waveletNorm haarBank true 1 ax0 TwoPixels.n2 x)) x -
        documented I S { iterations := k } b (fun x => 1 * (3 * waveletNorm haarBank true 1 ax0 TwoPixels.n2 x)) z ≤
        2 * 1 ^ 2 * (∑ j, (0 - z j) ^ 2) / (1 * (info.iterations + 1) ^ 2) := by
  intro S I
  have f1 : (matrixOp I).fwd = id := by funext x i; simp [matrixOp, I]
  have f2 : (matrixOp I).adj = id := by funext x i; simp [matrixOp, I]
  have loop : ∀ m (x : Arr (Idx TwoPixels.n2)), l2norm x = 1 → powerLoop id id m x 1 1 = .ok 1 := by
    intro m
    induction m with
    | zero => intro x _; rfl
    | succ m ih =>
      intro x hx
      rw [powerLoop, if_neg one_ne_zero]
      simp only [div_one, id]
      rw [hx, Real.sqrt_one]
      exact ih _ hx
  have nrm : l2norm (fun i => rnd i / l2norm rnd) = 1 := by
    have h1 : l2norm rnd ^ 2 = ∑ i, rnd i ^ 2 := Real.sq_sqrt (sum_nonneg fun i _ => sq_nonneg _)
    have h2 : ∑ i, (rnd i / l2norm rnd) ^ 2 = 1 := by
      simp only [div_pow]
      rw [← sum_div, ← h1, div_self (pow_ne_zero _ hr)]
    unfold l2norm at h2 ⊢
    rw [h2, Real.sqrt_one]
  have pm : powerMethod (matrixOp I).fwd (matrixOp I).adj rnd = .ok 1 := by
    unfold powerMethod
    rw [if_neg hr, f1, f2]
    simp only [id]
    rw [nrm]
    exact loop 5 _ nrm
  have sc : fistaScaling S (matrixOp I) { iterations := k } false rnd = .ok (fun _ => 1, fun _ => 1) := by
    have e : fistaScaling S (matrixOp I) { iterations := k } false rnd = lipschitzScaling (Q := Arr (DwlDual (level := 1) .periodization 2 ax0 TwoPixels.n2)) (matrixOp I) rnd [] 1 1 := by
      simp [fistaScaling, S, matrixOp]
    rw [e, lipschitzScaling, pm]
    simp [bind, Except.bind]
  obtain ⟨⟨x, info, S'⟩, h⟩ := fista_runs (b := b) sc rfl
  refine ⟨x, info, S', h, ?_⟩
  obtain ⟨N, hN, hb⟩ := C235_wavelet_partial haar_orthogonal ⟨1, rfl⟩ (fun a b _ => Subsingleton.elim a b) (by intro i; simp [TwoPixels.n2]) (by intro i; simp [TwoPixels.n2])
    (by norm_num) h rfl rfl rfl (by norm_num [S]) (by norm_num [S])
    ⟨by simp, by simp, by simp, by intro i; simp [I, abs_ite], by intro i; simp [I, abs_ite]⟩ rfl rfl rfl hk
  rw [pm] at hN
  cases hN
  exact hb ⟨by norm_num, fun x => by simp [f1]⟩

end Wavelets

end Verif
