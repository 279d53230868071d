import Verif.Model.Regularizers
import Verif.Lemmas.DataTerms
import Verif.Lemmas.Operators
import Verif.Props.Scaling

/-! # C15, C24, C25, C26 and the disagreements C71, C73, C74: regularizers and constraints -/

namespace Verif
open Classical DataTerm Finset Spec

/-! ## C26: step sizes of the gradient and Laplacian regularizers -/

section energy
variable {κ : Type} [Fintype κ] [DecidableEq κ] {n : κ → ℕ}

private theorem sum_shift_le (s : κ → ℤ) (g : Arr (Idx n)) (hg : ∀ p, 0 ≤ g p) :
    ∑ p, (shiftIdx p s).elim 0 g ≤ ∑ p, g p := by
  have h := sum_partial (fun p => shiftIdx p s) (fun p => shiftIdx p fun k => -s k) (shift_inv s) g (fun _ => 1)
  simp only [mul_one] at h
  rw [h]
  refine sum_le_sum fun p _ => ?_
  cases shiftIdx p fun k => -s k
  · simpa using hg p
  · simp

private theorem diff_energy (mode : PadMode) (x : Arr (Idx n)) (a : κ) (σ : ℤ) (hσ : σ = 1 ∨ σ = -1) :
    ∑ p, (padGet mode x p (fun k => σ * unitAx a k) - x p) ^ 2 ≤ 4 * ∑ p, x p ^ 2 := by
  have hle : ∀ u v : ℝ, (u - v) ^ 2 ≤ 2 * u ^ 2 + 2 * v ^ 2 := fun u v => by nlinarith [sq_nonneg (u + v)]
  cases mode with
  | wrap =>
    have h := sum_shift_wrap (fun k => σ * unitAx a k) (fun p => x p ^ 2) (fun _ => 1)
    simp only [padGet, mul_one] at h ⊢
    calc ∑ p, (x (wrapIdx p _) - x p) ^ 2 ≤ ∑ p, (2 * x (wrapIdx p fun k => σ * unitAx a k) ^ 2 + 2 * x p ^ 2) :=
          sum_le_sum fun p _ => hle _ _
      _ = 4 * ∑ p, x p ^ 2 := by rw [sum_add_distrib, ← mul_sum, ← mul_sum, h]; ring
  | constant =>
    have h := sum_shift_le (fun k => σ * unitAx a k) (fun p => x p ^ 2) fun p => sq_nonneg _
    simp only [padGet]
    calc ∑ p, ((shiftIdx p fun k => σ * unitAx a k).elim 0 x - x p) ^ 2
        ≤ ∑ p, (2 * (shiftIdx p fun k => σ * unitAx a k).elim 0 (fun q => x q ^ 2) + 2 * x p ^ 2) := by
          refine sum_le_sum fun p _ => ?_
          have := hle ((shiftIdx p fun k => σ * unitAx a k).elim 0 x) (x p)
          cases h : shiftIdx p fun k => σ * unitAx a k with
          | none => rw [h] at this; simpa using this
          | some q => rw [h] at this; exact this
      _ ≤ 4 * ∑ p, x p ^ 2 := by rw [sum_add_distrib, ← mul_sum, ← mul_sum]; linarith
  | edge =>
    have h := sum_shift_le (fun k => σ * unitAx a k) (fun p => x p ^ 2) fun p => sq_nonneg _
    calc ∑ p, (padGet .edge x p (fun k => σ * unitAx a k) - x p) ^ 2
        ≤ ∑ p, (2 * (shiftIdx p fun k => σ * unitAx a k).elim 0 (fun q => x q ^ 2) + 2 * x p ^ 2) := by
          refine sum_le_sum fun p _ => ?_
          rw [padGet_edge_unit x p a σ hσ]
          cases h : shiftIdx p fun k => σ * unitAx a k with
          | none => simp only [Option.elim]; nlinarith [sq_nonneg (x p)]
          | some q => exact hle _ _
      _ ≤ 4 * ∑ p, x p ^ 2 := by rw [sum_add_distrib, ← mul_sum, ← mul_sum]; linarith

private theorem diff_fwd (mode : PadMode) (x : Arr (Idx n)) (a : κ) :
    ∑ p, (padGet mode x p (unitAx a) - x p) ^ 2 ≤ 4 * ∑ p, x p ^ 2 := by
  simpa using diff_energy mode x a 1 (Or.inl rfl)

private theorem diff_bwd (mode : PadMode) (x : Arr (Idx n)) (a : κ) :
    ∑ p, (padGet mode x p (fun k => -unitAx a k) - x p) ^ 2 ≤ 4 * ∑ p, x p ^ 2 := by
  simpa using diff_energy mode x a (-1) (Or.inr rfl)

theorem grad_energy (mode : PadMode) {m : ℕ} (axes : Fin m → κ) (x : Arr (Idx n)) :
    ∑ q, 1 / 2 * gradient mode axes x q ^ 2 ≤ ∑ p, 2 * m * x p ^ 2 := by
  rw [Fintype.sum_prod_type]
  calc ∑ i, ∑ p, 1 / 2 * gradient mode axes x (i, p) ^ 2 = ∑ i, 1 / 2 * ∑ p, (padGet mode x p (unitAx (axes i)) - x p) ^ 2 :=
        sum_congr rfl fun i _ => by rw [mul_sum]; rfl
    _ ≤ ∑ _i : Fin m, 1 / 2 * (4 * ∑ p, x p ^ 2) :=
        sum_le_sum fun i _ => mul_le_mul_of_nonneg_left (diff_fwd mode x (axes i)) (by norm_num)
    _ = ∑ p, 2 * m * x p ^ 2 := by rw [sum_const, card_univ, Fintype.card_fin, nsmul_eq_mul, ← mul_sum]; ring

/-- C26, gradient (total variation, smoothness): the published `sigma = 1/2` and `tau` keep the step-size contract of C14
for every number of axes, image shape, padding mode, norm and non-negative weight. The energy is that of the gradient,
times the weight for norms that do not take the weight themselves. -/
theorem C26_gradient_contract (mode : PadMode) {m : ℕ} (axes : Fin m → κ) (w : ℝ) (hw : 0 ≤ w)
    (norm : DataTerm (Fin m × Idx n)) :
    StepContract (gradReg mode axes (.scalar w) none norm).toReg
      (fun x => (if norm.kind.isL1 then 1 else w) *
        ∑ q, (gradReg mode axes (.scalar w) none norm).sigma * (gradReg mode axes (.scalar w) none norm).fwd x q ^ 2)
      (gradReg mode axes (.scalar w) none norm).tau where
  published := fun _ => rfl
  nonneg := fun j => by
    simp only [gradReg, applyMask, Attr.get]
    split_ifs <;> positivity
  energy := fun x => by
    have h := grad_energy mode axes x
    simp only [gradReg, applyMask, Attr.get]
    by_cases hk : norm.kind.isL1 = true
    · simp only [hk, if_true, one_mul]
      exact h
    · simp only [hk]
      calc w * ∑ q, 1 / 2 * gradient mode axes x q ^ 2 ≤ w * ∑ p, 2 * m * x p ^ 2 := mul_le_mul_of_nonneg_left h hw
        _ = _ := by rw [mul_sum]; exact sum_congr rfl fun p _ => by simp; ring

/-- C26, with a 0/1 update mask: the same bound for every volume supported in the mask. -/
theorem C26_gradient_masked (mode : PadMode) {m : ℕ} (axes : Fin m → κ) (w : ℝ) (hw : 0 ≤ w) (mask : Arr (Idx n))
    (norm : DataTerm (Fin m × Idx n)) (x : Arr (Idx n)) (hx : ∀ j, x j * mask j = x j) :
    (if norm.kind.isL1 then 1 else w) *
        ∑ q, (gradReg mode axes (.scalar w) (some mask) norm).sigma *
          (gradReg mode axes (.scalar w) (some mask) norm).fwd x q ^ 2
      ≤ ∑ j, (gradReg mode axes (.scalar w) (some mask) norm).tau j * x j ^ 2 := by
  have h := (C26_gradient_contract mode axes w hw norm).energy x
  refine le_trans h (le_of_eq (sum_congr rfl fun j _ => ?_))
  simp only [gradReg, applyMask]
  generalize (if norm.kind.isL1 = true then (2 : ℝ) * m else 2 * m * Attr.get (.scalar w) j) = t
  calc t * x j ^ 2 = t * (x j * mask j) * x j := by rw [hx]; ring
    _ = t * mask j * x j ^ 2 := by ring

private theorem lap_axis (mode : PadMode) (a : κ) (x : Arr (Idx n)) :
    ∑ p, (padGet mode x p (unitAx a) - 2 * x p + padGet mode x p (fun k => -unitAx a k)) ^ 2 ≤ 16 * ∑ p, x p ^ 2 := by
  have h1 := diff_fwd mode x a
  have h2 := diff_bwd mode x a
  calc ∑ p, (padGet mode x p (unitAx a) - 2 * x p + padGet mode x p (fun k => -unitAx a k)) ^ 2
      ≤ ∑ p, (2 * (padGet mode x p (unitAx a) - x p) ^ 2 + 2 * (padGet mode x p (fun k => -unitAx a k) - x p) ^ 2) :=
        sum_le_sum fun p _ => by
          nlinarith [sq_nonneg (padGet mode x p (unitAx a) - padGet mode x p (fun k => -unitAx a k))]
    _ ≤ 16 * ∑ p, x p ^ 2 := by rw [sum_add_distrib, ← mul_sum, ← mul_sum]; linarith

/-- C26, Laplacian along one axis: the published `sigma = 1/4`, `tau = 4` keep the contract. -/
theorem C26_laplacian_1d_contract (mode : PadMode) (axes : Fin 1 → κ) (w : Attr (Idx n)) :
    StepContract (lapReg mode axes w none).toReg
      (fun x => ∑ p, (lapReg mode axes w none).sigma * (lapReg mode axes w none).fwd x p ^ 2)
      (lapReg mode axes w none).tau where
  published := fun _ => rfl
  nonneg := fun j => by simp [lapReg, applyMask]
  energy := fun x => by
    have h := lap_axis mode (axes 0) x
    simp only [lapReg, applyMask, laplacian, univ_unique, Fin.default_eq_zero, sum_singleton, Nat.cast_one, mul_one]
    rw [← mul_sum, ← mul_sum]
    linarith

private theorem sq_sum_le {m : ℕ} (f : Fin m → ℝ) : (∑ i, f i) ^ 2 ≤ m * ∑ i, f i ^ 2 := by
  have := sum_mul_sq_le_sq_mul_sq univ (fun _ : Fin m => (1 : ℝ)) f
  simpa using this

/-- C74, what holds for the Laplacian along `m` axes: the energy is at most `m` times what the published `tau` allows.
Missing: the factor `m`, i.e. the convergence condition itself. -/
theorem C74_laplacian_nd_partial (mode : PadMode) {m : ℕ} (axes : Fin m → κ) (w : Attr (Idx n)) (x : Arr (Idx n)) :
    ∑ p, (lapReg mode axes w none).sigma * (lapReg mode axes w none).fwd x p ^ 2 ≤
      m * ∑ j, (lapReg mode axes w none).tau j * x j ^ 2 := by
  simp only [lapReg, applyMask, laplacian]
  calc ∑ p, (1 / 4 : ℝ) * (∑ i, (padGet mode x p (unitAx (axes i)) - 2 * x p + padGet mode x p fun k => -unitAx (axes i) k)) ^ 2
      ≤ ∑ p, (1 / 4 : ℝ) * (m * ∑ i, (padGet mode x p (unitAx (axes i)) - 2 * x p +
          padGet mode x p fun k => -unitAx (axes i) k) ^ 2) := by
        refine sum_le_sum fun p _ => mul_le_mul_of_nonneg_left ?_ (by norm_num)
        have := sq_sum_le fun i =>
          padGet mode x p (unitAx (axes i)) - 2 * x p + padGet mode x p fun k => -unitAx (axes i) k
        simpa using this
    _ = (1 / 4 : ℝ) * m * ∑ i, ∑ p, (padGet mode x p (unitAx (axes i)) - 2 * x p +
          padGet mode x p fun k => -unitAx (axes i) k) ^ 2 := by
        rw [sum_comm (s := (univ : Finset (Fin m))), mul_sum]
        exact sum_congr rfl fun p _ => by rw [mul_assoc]
    _ ≤ (1 / 4 : ℝ) * m * ∑ _i : Fin m, 16 * ∑ p, x p ^ 2 :=
        mul_le_mul_of_nonneg_left (sum_le_sum fun i _ => lap_axis mode (axes i) x) (by positivity)
    _ = _ := by rw [sum_const, card_univ, Fintype.card_fin, nsmul_eq_mul, ← mul_sum]; ring

end energy

/-- The checkerboard-like image of the counterexample. -/
private def cb : Arr (Idx fun _ : Fin 2 => 3) := fun p => (![1, -2, 1] : Fin 3 → ℝ) (p 0) * (![1, -2, 1] : Fin 3 → ℝ) (p 1)

private theorem cb_eigen (p : Idx fun _ : Fin 2 => 3) : laplacian .edge (id : Fin 2 → Fin 2) cb p = -6 * cb p := by
  obtain ⟨a, b, rfl⟩ : ∃ a b : Fin 3, p = ![a, b] := ⟨p 0, p 1, by funext k; fin_cases k <;> rfl⟩
  fin_cases a <;> fin_cases b <;>
    simp [laplacian, padGet, clampIdx, cb, unitAx, Fin.sum_univ_two] <;> norm_num

/-- C74 is violated in two dimensions with the default (edge) padding: a 3 × 3 image whose weighted energy exceeds what the
published `tau` allows. -/
theorem C74_laplacian_2d_violated : ∃ x : Arr (Idx fun _ : Fin 2 => 3),
    ∑ j, (lapReg .edge (id : Fin 2 → Fin 2) (.scalar 1) none).tau j * x j ^ 2 <
      ∑ p, (lapReg (n := fun _ => 3) .edge (id : Fin 2 → Fin 2) (.scalar 1) none).sigma *
        (lapReg .edge (id : Fin 2 → Fin 2) (.scalar 1) none).fwd x p ^ 2 := by
  refine ⟨cb, ?_⟩
  simp only [lapReg, applyMask, cb_eigen]
  have h : 0 < ∑ p, cb p ^ 2 := sum_pos' (fun p _ => sq_nonneg _) ⟨fun _ => 0, mem_univ _, by simp [cb]⟩
  rw [← mul_sum, ← mul_sum]
  have e : ∑ p, (-6 * cb p) ^ 2 = 36 * ∑ p, cb p ^ 2 := by rw [mul_sum]; exact sum_congr rfl fun p _ => by ring
  rw [e]
  norm_num
  linarith

/-- Example: TV in two dimensions with weight 3 under the hypotheses of C14: the combined step sizes converge. -/
example (M : Fin 4 → Idx (fun _ : Fin 2 => 3) → ℝ) (S : Solver (Idx fun _ : Fin 2 => 3) (Fin 4) (Arr (Fin 2 × Idx fun _ : Fin 2 => 3)))
    (hS : S.regs = [(gradReg .edge id (.scalar 3) none (.new (.l12 fun q => (q.2 0 : ℕ) * 3 + q.2 1) none)).toReg])
    (a : Args (Idx fun _ : Fin 2 => 3) (Fin 4)) (rnd : Arr (Fin 4)) (hs : SensibleScale M a) (hω : 0 < S.relaxation)
    (hω1 : S.relaxation ≤ 1) (hcols : ∀ j, (∑ i, |M i j|) + 4 ≤ 100000) {sigma tau}
    (h : pdhgScaling S (matrixOp M) a true rnd = .ok (sigma, tau)) (x) (hx : ZeroOutsideMask a x) :
    ∑ i, sigma i * trainWeight a i * (∑ j, M i j * x j) ^ 2 + ∑ q, 1 / 2 * gradient .edge id x q ^ 2 ≤
      ∑ j, x j ^ 2 / tau j := by
  have hc := C26_gradient_contract (n := fun _ : Fin 2 => 3) .edge (id : Fin 2 → Fin 2) 3 (by norm_num)
    (.new (.l12 fun q => (q.2 0 : ℕ) * 3 + q.2 1) none)
  have := (C14_diagonal_scaling S M a rnd hs hω hω1 [(_, _, _)] (by simpa using hS) (by simpa using hc)
    (by intro j; have := hcols j; simp [gradReg, applyMask, DataTerm.new, Kind.isL1]; linarith) h x hx).2.2
  simpa [gradReg, DataTerm.new, Kind.isL1] using this

/-! ## C15, C71: the primal update and the stored duals -/

section duals
variable {ν ι Q : Type} [Fintype ν] [Fintype ι]

/-- Specification: computing the primal update of the regularizer leaves its dual variable alone. -/
def KeepsDual (r : Reg ν Q) : Prop := ∀ q, (r.updatePrimal q).2 = q

omit [Fintype ν] in
private theorem addRegUpdates_keep (rs : List (Reg ν Q)) (h : ∀ r ∈ rs, KeepsDual r) (qs : List Q) (u : Arr ν) :
    (addRegUpdates rs qs u).2 = qs := by
  induction rs generalizing qs u with
  | nil => cases qs <;> rfl
  | cons r rs ih =>
    cases qs with
    | nil => rfl
    | cons q qs =>
      simp only [addRegUpdates]
      rw [ih (fun r hr => h r (by simp [hr])), h r (by simp)]

/-- C15: for an operator whose back-projection is a fresh array and regularizers that keep their dual, the duals stored
after a PDHG iteration are exactly the proximal points computed in it. -/
theorem C15_pdhg_duals (A : Operator ν ι) (hA : A.aliasBack = none) (a : Args ν ι) (regs : List (Reg ν Q))
    (hr : ∀ r ∈ regs, KeepsDual r) (term termTest : DataTerm ι) (bMask bTestMask : Option (Arr ι)) (tau : Arr ν)
    (tol : Option ℝ) (ii : ℕ) (s : PDState ν ι Q) :
    (pdhgStep A a regs term termTest bMask bTestMask tau tol ii s).1.p =
      applyMask bMask (term.proxDual (term.updateDual s.p (A.fwd s.xRelax))) ∧
    (pdhgStep A a regs term termTest bMask bTestMask tau tol ii s).1.q = updateRegDuals regs s.q s.xRelax := by
  constructor
  · simp [pdhgStep, hA]
  · simp only [pdhgStep]
    exact addRegUpdates_keep regs hr _ _

/-- C15: without regularizers the same holds also for operators returning their argument: the result of PDHG does not
depend on whether they do. -/
theorem C15_pdhg_no_regularizers (S : Solver ν ι Q) (hS : S.regs = []) (A : Operator ν ι) (f : Option (Arr ν → Arr ι))
    (b : Arr ι) (a : Args ν ι) (pc : Bool) (rnd : Arr ι) :
    pdhg S { A with aliasBack := f } b a pc rnd = pdhg S A b a pc rnd := by
  have h : ∀ T tt bm tm tau ii s, pdhgStep { A with aliasBack := f } a S.regs T tt bm tm tau S.tolerance ii s =
      pdhgStep A a S.regs T tt bm tm tau S.tolerance ii s := by
    intro T tt bm tm tau ii s
    simp only [pdhgStep, hS, if_true]
    cases f <;> cases A.aliasBack <;> rfl
  unfold pdhg
  have e : ∀ T tt bm tm tau, pdhgStep { A with aliasBack := f } a S.regs T tt bm tm tau S.tolerance =
      pdhgStep A a S.regs T tt bm tm tau S.tolerance := by
    intro T tt bm tm tau; funext ii s; exact h ..
  simp only [e]
  rfl

/-- C15: the gradient and Laplacian regularizers keep their dual, for every weight, mask and norm. -/
theorem C15_gradient_laplacian_keep {κ : Type} [Fintype κ] [DecidableEq κ] {n : κ → ℕ} {m : ℕ} (mode : PadMode)
    (axes : Fin m → κ) (w : Attr (Idx n)) (mask : Option (Arr (Idx n))) (norm : DataTerm (Fin m × Idx n)) :
    KeepsDual (gradReg mode axes w mask norm).toReg ∧ KeepsDual (lapReg mode axes w mask).toReg :=
  ⟨fun _ => rfl, fun _ => rfl⟩

/-- C15: so does the l1 regularizer with an l1-like norm and no update mask. -/
theorem C15_l1_keep (w : Attr ν) (norm : DataTerm ν) (hn : norm.kind.isL1 = true) : KeepsDual (l1Reg w none norm).toReg := by
  intro q
  have : (norm.assignData none (.scalar 1)).kind.isL1 = true := hn
  simp [l1Reg, RegState.toReg, RegState.updatePrimal, this]
  rfl

/-- C71 is violated: the same identity map, once returning a fresh array (as a matrix does) and once returning its argument
(as `TransformIdentity` does), gives different reconstructions after three iterations with the l1 regularizer. -/
theorem C71_identity_operator_violated :
    let A : Operator (Fin 1) (Fin 1) := { identityOp with aliasBack := none }
    let S : Solver (Fin 1) (Fin 1) (Arr (Fin 1)) :=
      ⟨1, none, [(l1Reg (.scalar 1) none (.new .l1 none)).toReg], .new .l2 none, .new .l2 none, none⟩
    (pdhg S A (fun _ => 1) { iterations := 3 } true (fun _ => 1)).map (·.1) = .ok (fun _ => 3 / 16) ∧
    (pdhg S identityOp (fun _ => 1) { iterations := 3 } true (fun _ => 1)).map (·.1) =
      .ok (fun _ => 1 / 16) := by
  intro A S
  constructor <;>
  · simp [A, S, identityOp, pdhg, pdhgScaling, diagonalScaling, fixSmall, npMax, initBMasks, bind, Except.bind, applyMask,
      testTerm, forRange, loopFrom, pdhgStep, recordResiduals, DataTerm.new, assignData, addBackground, computeSigmaData,
      computeSigma1, Attr.map, Attr.map₂, Attr.get, initialResiduals, Info.new, Except.map, l1Reg, RegState.toReg,
      RegState.updateDual, RegState.proxDual, RegState.updatePrimal, Kind.isL1, addRegUpdates, updateRegDuals,
      DataTerm.proxDual, DataTerm.updateDual, subSigmaData, innerNorm, applyThreshold, initializeDual, clipMask, clip1]
    norm_num [abs_of_pos, max_def]
    rfl

end duals

/-! ## C24, C73: limit constraints -/

section limits
variable {ν : Type} [Fintype ν]

/-- The indicator of `{y ≥ l}` or `{y ≤ l}`. -/
def fLimit (side : LimitSide) (l : ℝ) : Functional :=
  ⟨{y | match side with | .lower => l ≤ y | .upper => y ≤ l}, fun _ => 0⟩

/-- Half the squared distance to `{y ≥ l}` or `{y ≤ l}`: the penalty the limit constraints stand for in PDHG and SIRT. -/
noncomputable def fLimitPenalty (side : LimitSide) (l : ℝ) : Functional :=
  ⟨Set.univ, fun y => match side with | .lower => min (y - l) 0 ^ 2 / 2 | .upper => max (y - l) 0 ^ 2 / 2⟩

omit [Fintype ν] in
/-- C24, primal: the proximal of the limit constraints is the projection onto the admissible half-line — for every limit,
value and step size; in particular admissible values stay and others move to the limit. -/
theorem C24_limit_projection (side : LimitSide) (limit : Attr ν) (x : Arr ν) (j : ν) (τ : ℝ) (hτ : 0 < τ) :
    IsProx (fLimit side (limit.get j)) τ (x j) (limitProxPrimal side limit x j) ∧
    (x j ∈ (fLimit side (limit.get j)).dom → limitProxPrimal side limit x j = x j) ∧
    (x j ∉ (fLimit side (limit.get j)).dom → limitProxPrimal side limit x j = limit.get j) := by
  cases side
  · refine ⟨isProx_of_subgrad hτ (g := (x j - max (x j) (limit.get j)) / τ) (by simp [fLimit, limitProxPrimal])
      (by simp only [limitProxPrimal]; field_simp; ring) ?_, ?_, ?_⟩
    · intro z hz
      simp only [fLimit, limitProxPrimal, Set.mem_setOf_eq] at *
      have h1 : x j - max (x j) (limit.get j) ≤ 0 := by have := le_max_left (x j) (limit.get j); linarith
      have : (x j - max (x j) (limit.get j)) * (z - max (x j) (limit.get j)) ≤ 0 := by
        rcases max_cases (x j) (limit.get j) with ⟨h, _⟩ | ⟨h, _⟩ <;> rw [h] at *
        · simp
        · exact mul_nonpos_of_nonpos_of_nonneg (by linarith) (by linarith)
      rw [div_mul_eq_mul_div, zero_add]
      exact div_nonpos_of_nonpos_of_nonneg this hτ.le
    · intro h; exact max_eq_left h
    · intro h; simp only [fLimit, Set.mem_setOf_eq, not_le] at h; exact max_eq_right h.le
  · refine ⟨isProx_of_subgrad hτ (g := (x j - min (x j) (limit.get j)) / τ) (by simp [fLimit, limitProxPrimal])
      (by simp only [limitProxPrimal]; field_simp; ring) ?_, ?_, ?_⟩
    · intro z hz
      simp only [fLimit, limitProxPrimal, Set.mem_setOf_eq] at *
      have h1 : 0 ≤ x j - min (x j) (limit.get j) := by have := min_le_left (x j) (limit.get j); linarith
      have : (x j - min (x j) (limit.get j)) * (z - min (x j) (limit.get j)) ≤ 0 := by
        rcases min_cases (x j) (limit.get j) with ⟨h, _⟩ | ⟨h, _⟩ <;> rw [h] at *
        · simp
        · exact mul_nonpos_of_nonneg_of_nonpos (by linarith) (by linarith)
      rw [div_mul_eq_mul_div, zero_add]
      exact div_nonpos_of_nonpos_of_nonneg this hτ.le
    · intro h; exact min_eq_left h
    · intro h; simp only [fLimit, Set.mem_setOf_eq, not_le] at h; exact min_eq_right h.le

private theorem cert_limit (side : LimitSide) (l x : ℝ) :
    Cert (fLimitPenalty side l) 1 x
      ((match side with | .lower => min (x - l) 0 | .upper => max (x - l) 0) / 2)
      (x - (match side with | .lower => min (x - l) 0 | .upper => max (x - l) 0) / 2) := by
  refine ⟨trivial, by ring, fun z _ => ?_⟩
  cases side <;> simp only [fLimitPenalty]
  · rcases min_cases (x - l) 0 with ⟨h, h'⟩ | ⟨h, h'⟩
    · rw [h]
      have : min (x - (x - l) / 2 - l) 0 = (x - l) / 2 := by rw [min_eq_left (by linarith)]; ring
      rw [this]
      rcases min_cases (z - l) 0 with ⟨g, g'⟩ | ⟨g, g'⟩ <;> rw [g]
      · nlinarith [sq_nonneg (z - (x - (x - l) / 2))]
      · nlinarith [mul_nonneg (sub_nonneg.2 h') g'.le, sq_nonneg (x - l)]
    · rw [h]
      have : min (x - 0 / 2 - l) 0 = 0 := by rw [min_eq_right (by linarith)]
      rw [this]
      nlinarith [sq_nonneg (min (z - l) 0)]
  · rcases max_cases (x - l) 0 with ⟨h, h'⟩ | ⟨h, h'⟩
    · rw [h]
      have : max (x - (x - l) / 2 - l) 0 = (x - l) / 2 := by rw [max_eq_left (by linarith)]; ring
      rw [this]
      rcases max_cases (z - l) 0 with ⟨g, g'⟩ | ⟨g, g'⟩ <;> rw [g]
      · nlinarith [sq_nonneg (z - (x - (x - l) / 2))]
      · nlinarith [mul_nonneg h' (neg_nonneg.2 g'.le), sq_nonneg (x - l)]
    · rw [h]
      have : max (x - 0 / 2 - l) 0 = 0 := by rw [max_eq_right (by linarith)]
      rw [this]
      nlinarith [sq_nonneg (max (z - l) 0)]

private theorem limit_dual_eq (side : LimitSide) (limit : Attr ν) (dual x : Arr ν) (j : ν) :
    limitProxDual side (limitNorm limit) (limitUpdateDual limit dual x) j =
      (match side with | .lower => min (dual j + x j - limit.get j) 0 | .upper => max (dual j + x j - limit.get j) 0) / 2
        - limit.get j / 2 := by
  have e : dual j + x j - limit.get j = limitUpdateDual limit dual x j := by unfold limitUpdateDual; ring
  rw [e]
  unfold limitProxDual limitNorm
  rw [proxDual_l2]
  generalize limitUpdateDual limit dual x = d
  cases side <;> simp only [optVal, Attr.get_scalar]
  · by_cases h : d j > 0
    · rw [if_pos h, min_eq_right (le_of_lt h)]; ring
    · rw [if_neg h, min_eq_left (not_lt.1 h)]; ring
  · by_cases h : d j < 0
    · rw [if_pos h, max_eq_right (le_of_lt h)]; ring
    · rw [if_neg h, max_eq_left (not_lt.1 h)]; ring

/-- C24, dual, for the limit 0 (e.g. non-negativity): one dual step of the constraint is the proximal step of the conjugate
of half the squared distance to the admissible values; an admissible point with no accumulated dual exerts no push. -/
theorem C24_limit_zero_dual (side : LimitSide) (limit : Attr ν) (dual x : Arr ν) (j : ν) (h0 : limit.get j = 0) :
    IsProxConj (fLimitPenalty side 0) 1 (dual j + x j)
      (limitProxDual side (limitNorm limit) (limitUpdateDual limit dual x) j) ∧
    (dual j = 0 → x j ∈ (fLimit side 0).dom →
      limitProxDual side (limitNorm limit) (limitUpdateDual limit dual x) j = 0) := by
  rw [limit_dual_eq, h0]
  constructor
  · have := (cert_limit side 0 (dual j + x j)).isProxConj one_pos
    simpa using this
  · intro hd hx
    rw [hd]
    cases side <;> simp only [fLimit, Set.mem_setOf_eq] at hx <;> simp [hx]

/-- C73 is violated: with the lower limit 1, a pixel of value 2 without accumulated dual is pushed. -/
theorem C73_limit_dual_violated :
    limitProxDual .lower (limitNorm (.scalar 1)) (limitUpdateDual (.scalar 1) (fun _ : Fin 1 => 0) fun _ => 2) 0 = -1 / 2 ∧
    ¬ IsProxConj (fLimitPenalty .lower 1) 1 (0 + 2)
      (limitProxDual .lower (limitNorm (.scalar 1)) (limitUpdateDual (.scalar 1) (fun _ : Fin 1 => 0) fun _ => 2) 0) := by
  have e : limitProxDual .lower (limitNorm (.scalar 1)) (limitUpdateDual (.scalar 1) (fun _ : Fin 1 => 0) fun _ => 2) 0
      = -1 / 2 := by rw [limit_dual_eq]; norm_num
  refine ⟨e, ?_⟩
  rw [e]
  intro h
  have h2 := (cert_limit .lower 1 (0 + 2)).isProxConj one_pos
  have := h.unique h2
  norm_num at this

/-- C73, what holds for every limit: the result is the exact proximal step minus half the limit. Missing: that half. -/
theorem C73_limit_dual_partial (side : LimitSide) (limit : Attr ν) (dual x : Arr ν) (j : ν) :
    IsProxConj (fLimitPenalty side (limit.get j)) 1 (dual j + x j)
      (limitProxDual side (limitNorm limit) (limitUpdateDual limit dual x) j + limit.get j / 2) := by
  rw [limit_dual_eq, sub_add_cancel]
  exact (cert_limit side (limit.get j) (dual j + x j)).isProxConj one_pos

end limits

/-! ## C25: sparsity regularizers -/

section sparsity
variable {ν δ : Type} [Fintype ν] [Fintype δ]

theorem soft_isProx {w τ x : ℝ} (hw : 0 ≤ w) (hτ : 0 < τ) : IsProx (fL1 w 0) τ x (softThreshold x (τ * w)) := by
  have ht : 0 ≤ τ * w := mul_nonneg hτ.le hw
  refine isProx_of_subgrad hτ (g := (x - softThreshold x (τ * w)) / τ) trivial (by field_simp; ring) fun z _ => ?_
  simp only [fL1, sub_zero]
  rcases tri x (τ * w) with h | h | h
  · rw [softThreshold_of_ge ht h, abs_of_nonneg (by linarith : 0 ≤ x - τ * w)]
    have e : (x - (x - τ * w)) / τ = w := by field_simp; ring
    rw [e]
    nlinarith [le_abs_self z]
  · rw [softThreshold_of_le ht h, abs_of_nonpos (by linarith : x + τ * w ≤ 0)]
    have e : (x - (x + τ * w)) / τ = -w := by field_simp; ring
    rw [e]
    nlinarith [neg_abs_le z]
  · rw [softThreshold_of_abs h]
    have : |x / τ| ≤ w := by rw [abs_div, abs_of_pos hτ, div_le_iff₀ hτ]; linarith
    have h2 : x / τ * z ≤ |x / τ| * |z| := by rw [← abs_mul]; exact le_abs_self _
    have h3 := mul_le_mul_of_nonneg_right this (abs_nonneg z)
    simp only [sub_zero, abs_zero, mul_zero, zero_add]
    linarith

omit [Fintype ν] in
/-- C25: the primal proximal of the l1 regularizer is the proximal operator of `weight * |x|` on the pixels of the update
mask (all of them if there is no mask) and leaves the other pixels alone; for every value, non-negative weight, positive
step size and 0/1 mask. -/
theorem C25_l1_prox (w : Attr ν) (mask : Option (Arr ν)) (hm : ∀ m, mask = some m → Binary m) (x tau : Arr ν) (j : ν)
    (hw : 0 ≤ w.get j) (hτ : 0 < tau j) :
    ((∀ m, mask = some m → m j = 1) → IsProx (fL1 (w.get j) 0) (tau j) (x j) (l1ProxPrimal w mask x tau j)) ∧
    (∀ m, mask = some m → m j = 0 → l1ProxPrimal w mask x tau j = x j) := by
  cases mask with
  | none => exact ⟨fun _ => soft_isProx hw hτ, fun m h => by cases h⟩
  | some m =>
    constructor
    · intro h
      have h1 := h m rfl
      simp only [l1ProxPrimal, h1, sub_self, mul_zero, mul_one, zero_add]
      exact soft_isProx hw hτ
    · rintro m' ⟨⟩ h0
      simp only [l1ProxPrimal, h0, sub_zero, mul_one, mul_zero]
      rw [softThreshold_of_abs (by simpa using mul_nonneg hτ.le hw), add_zero]

omit [Fintype ν] in
/-- C25: thresholding never flips a sign and never makes a value larger. -/
theorem C25_l1_shrinks (w : Attr ν) (mask : Option (Arr ν)) (hm : ∀ m, mask = some m → Binary m) (x tau : Arr ν) (j : ν)
    (hw : 0 ≤ w.get j) (hτ : 0 < tau j) :
    0 ≤ l1ProxPrimal w mask x tau j * x j ∧ |l1ProxPrimal w mask x tau j| ≤ |x j| := by
  have ht : 0 ≤ tau j * w.get j := mul_nonneg hτ.le hw
  have key : ∀ v : ℝ, 0 ≤ softThreshold v (tau j * w.get j) * v ∧ |softThreshold v (tau j * w.get j)| ≤ |v| := by
    intro v
    rcases tri v (tau j * w.get j) with h | h | h
    · rw [softThreshold_of_ge ht h, abs_of_nonneg (by linarith : 0 ≤ v - tau j * w.get j), abs_of_nonneg (by linarith)]
      exact ⟨mul_nonneg (by linarith) (by linarith), by linarith⟩
    · rw [softThreshold_of_le ht h, abs_of_nonpos (by linarith : v + tau j * w.get j ≤ 0), abs_of_nonpos (by linarith)]
      exact ⟨mul_nonneg_of_nonpos_of_nonpos (by linarith) (by linarith), by linarith⟩
    · rw [softThreshold_of_abs h]; simp
  cases mask with
  | none => exact key (x j)
  | some m =>
    rcases hm m rfl j with h | h
    · have := (C25_l1_prox w (some m) hm x tau j hw hτ).2 m rfl h
      rw [this]; exact ⟨mul_self_nonneg _, le_rfl⟩
    · simp only [l1ProxPrimal, h, sub_self, mul_zero, mul_one, zero_add]; exact key (x j)

/-- Specification: an orthogonal transform. -/
structure IsOrthogonal (W : Arr ν → Arr δ) (Wt : Arr δ → Arr ν) : Prop where
  sub : ∀ x y, W (fun j => x j - y j) = fun i => W x i - W y i
  isometry : ∀ x, ∑ i, W x i ^ 2 = ∑ j, x j ^ 2
  left : ∀ x, Wt (W x) = x
  right : ∀ c, W (Wt c) = c

/-- C25: in the domain of an orthogonal transform (decimated wavelets), the primal proximal is the unique minimiser of
`t ∑ |W y| + ‖y - x‖² / 2` (the sum over the penalised coefficients, e.g. without the approximation band), where `t > 0` is
the threshold `tau * weight`. -/
theorem C25_transform_prox {W : Arr ν → Arr δ} {Wt : Arr δ → Arr ν} (hW : IsOrthogonal W Wt) (pen : δ → Prop) (t : ℝ)
    (ht : 0 < t) (x y : Arr ν) (hy : y ≠ transformProxPrimal W Wt pen t x) :
    (t * ∑ i, if pen i then |W (transformProxPrimal W Wt pen t x) i| else 0) +
        (∑ j, (transformProxPrimal W Wt pen t x j - x j) ^ 2) / 2 <
      (t * ∑ i, if pen i then |W y i| else 0) + (∑ j, (y j - x j) ^ 2) / 2 := by
  set p := transformProxPrimal W Wt pen t x with hp
  have hWp : W p = fun i => if pen i then softThreshold (W x i) t else W x i := by
    rw [hp, transformProxPrimal, hW.right]
  have dist : ∀ z : Arr ν, ∑ j, (z j - x j) ^ 2 = ∑ i, (W z i - W x i) ^ 2 := by
    intro z
    rw [← hW.isometry fun j => z j - x j, hW.sub]
  rw [dist, dist, mul_sum, mul_sum, sum_div, sum_div, ← sum_add_distrib, ← sum_add_distrib]
  have hle : ∀ i, (t * (if pen i then |W p i| else 0) + (W p i - W x i) ^ 2 / 2 ≤
      t * (if pen i then |W y i| else 0) + (W y i - W x i) ^ 2 / 2) ∧ (W y i ≠ W p i →
      t * (if pen i then |W p i| else 0) + (W p i - W x i) ^ 2 / 2 <
      t * (if pen i then |W y i| else 0) + (W y i - W x i) ^ 2 / 2) := by
    intro i
    have hs : W y i ≠ W p i → t * (if pen i then |W p i| else 0) + (W p i - W x i) ^ 2 / 2 <
      t * (if pen i then |W y i| else 0) + (W y i - W x i) ^ 2 / 2 := by
      intro hne
      by_cases hpi : pen i
      · simp only [hWp, hpi, if_true] at hne ⊢
        have := (soft_isProx (w := 1) (x := W x i) zero_le_one ht).2 (W y i) trivial (by simpa using hne)
        simpa [fL1] using this
      · simp only [hWp, hpi, if_false, mul_zero, zero_add, sub_self] at hne ⊢
        have : 0 < (W y i - W x i) ^ 2 := by have := sub_ne_zero.2 hne; positivity
        simpa using this
    refine ⟨?_, hs⟩
    by_cases h : W y i = W p i
    · rw [h]
    · exact (hs h).le
  have hex : ∃ i, W y i ≠ W p i := by
    by_contra hall
    push Not at hall
    apply hy
    rw [← hW.left y, ← hW.left p, funext hall]
  obtain ⟨i, hi⟩ := hex
  exact sum_lt_sum (fun i _ => (hle i).1) ⟨i, mem_univ _, (hle i).2 hi⟩

/-- Example: the Haar transform of two pixels is orthogonal. -/
example : IsOrthogonal (fun x : Arr (Fin 2) => (![(x 0 + x 1) / Real.sqrt 2, (x 0 - x 1) / Real.sqrt 2] : Arr (Fin 2)))
    (fun c => ![(c 0 + c 1) / Real.sqrt 2, (c 0 - c 1) / Real.sqrt 2]) := by
  have h2 : Real.sqrt 2 * Real.sqrt 2 = 2 := Real.mul_self_sqrt (by norm_num)
  have h0 : Real.sqrt 2 ≠ 0 := by positivity
  constructor
  · intro x y; funext i; fin_cases i <;> simp <;> ring
  · intro x; simp [Fin.sum_univ_two]; field_simp; rw [Real.sq_sqrt (by norm_num)]; ring
  · intro x; funext i; fin_cases i <;> simp <;> field_simp <;> rw [Real.sq_sqrt (by norm_num)] <;> ring
  · intro x; funext i; fin_cases i <;> simp <;> field_simp <;> rw [Real.sq_sqrt (by norm_num)] <;> ring

end sparsity

/-! ## C22: the weight of a regularizer -/

/-- C22, regularizers: with a norm of the l1 family (l1, l12 along an axis, l1 ball) every dual value is, after the dual step, at most the weight of its pixel in absolute value,
and the update of the volume does not contain the weight a second time (it is the transpose applied to the dual). With the other norms the weight is in the update of the volume
and not in the dual step. -/
theorem C22_weight_once {ν δ : Type} [Fintype ν] [Fintype δ] (r : RegState ν δ) (dual : Arr δ) (hu : r.updMask = none) (hw : ∀ j, 0 < r.weight.get j) :
    ((r.norm.kind = .l1 ∨ (∃ g, r.norm.kind = .l12 g) ∨ ∃ e, r.norm.kind = .l1b e) →
      (∀ i, |r.proxDual dual i| ≤ r.weight.get (r.pix i)) ∧ (r.updatePrimal dual).1 = r.adj dual) ∧
    ((∃ e g f, r.norm.kind = .huber e g f) ∨ r.norm.kind = .l2 ∨ (∃ v, r.norm.kind = .wl2 v) ∨ (∃ e, r.norm.kind = .l2b e) ∨ r.norm.kind = .kl →
      (∀ w', ({ r with weight := w' }).proxDual dual = r.proxDual dual) ∧ (r.updatePrimal dual).1 = fun j => r.adj dual j * r.weight.get j) := by
  have hin : ∀ (d : Arr δ) (grp : δ → ℕ) (i : δ), |d i| ≤ axisNorm grp d i := by
    intro d grp i
    unfold axisNorm
    rw [← Real.sqrt_sq_eq_abs]
    refine Real.sqrt_le_sqrt ?_
    exact single_le_sum (f := fun j => d j ^ 2) (fun _ _ => sq_nonneg _) (mem_filter.2 ⟨mem_univ i, rfl⟩)
  have key : ∀ {v N w : ℝ}, 0 < w → |v| ≤ N → |v / max N w * w| ≤ w := by
    intro v N w hw hv
    have hm : 0 < max N w := lt_of_lt_of_le hw (le_max_right _ _)
    rw [abs_mul, abs_div, abs_of_pos hw, abs_of_pos hm, div_mul_eq_mul_div, div_le_iff₀ hm, mul_comm]
    exact mul_le_mul_of_nonneg_left (hv.trans (le_max_left _ _)) hw.le
  refine ⟨fun h => ?_, fun h => ?_⟩
  · have hL : r.norm.kind.isL1 = true := by rcases h with h | ⟨g, h⟩ | ⟨e, h⟩ <;> rw [h] <;> rfl
    refine ⟨fun i => ?_, by unfold RegState.updatePrimal; simp only [hL, hu]; rfl⟩
    unfold RegState.proxDual
    rw [if_pos hL]
    rcases h with h | ⟨g, h⟩ | ⟨e, h⟩ <;> unfold proxDual innerNorm <;> rw [h] <;> refine key (hw _) ?_
    · exact le_rfl
    · exact hin _ g i
    · exact le_rfl
  · have hL : r.norm.kind.isL1 = false := by rcases h with ⟨e, g, f, h⟩ | h | ⟨g, h⟩ | ⟨e, h⟩ | h <;> rw [h] <;> rfl
    exact ⟨fun w' => by simp [RegState.proxDual, hL], by unfold RegState.updatePrimal; simp only [hL, hu]; rfl⟩

/-- Non-vacuity: a regularizer with an l1-ball norm. -/
example : ∃ r : RegState (Fin 1) (Fin 1), (∃ e, r.norm.kind = .l1b e) ∧ r.updMask = none ∧ ∀ j, 0 < r.weight.get j :=
  ⟨⟨id, id, none, 1, fun _ => 1, .scalar 2, none, .new (.l1b (.scalar 1)) none, id⟩, ⟨_, rfl⟩, rfl, fun _ => by simp [Attr.get]⟩

end Verif
