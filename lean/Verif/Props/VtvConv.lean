import Verif.Props.TnvConv
import Verif.Props.Vtv

/-! # C267: PDHG with vectorial total variation -/

namespace Verif
open Classical DataTerm Finset Filter Topology Verif.Spec

/-! ## Specification -/

variable {κ : Type} [Fintype κ] [DecidableEq κ] {n : κ → ℕ}

/-- Specification: the point-wise norm of the derivatives of all channels for the exponents 1 and 2 (whose dual balls are those of `VtvFeasible`). -/
noncomputable def vtvNorm {D C : Type} [Fintype D] [Fintype C] (der2 chan2 : Bool) (y : D → C → ℝ) : ℝ :=
  match der2, chan2 with
  | false, false => ∑ d, ∑ c, |y d c|
  | false, true => ∑ d, Real.sqrt (∑ c, y d c ^ 2)
  | true, false => ∑ c, Real.sqrt (∑ d, y d c ^ 2)
  | true, true => Real.sqrt (∑ d, ∑ c, y d c ^ 2)

/-- The exponent 1 or 2. -/
def PNorm.ofTwo : Bool → PNorm
  | false => .one
  | true => .two

/-- Specification: vectorial total variation, the weight times the sum over the pixels of that norm. -/
noncomputable def vtvPenalty (mode : PadMode) {m r : ℕ} (axes : Fin m → κ) (w : ℝ) (der2 chan2 : Bool) :
    Penalty (Fin r × Idx n) (Fin m × Fin r × Idx n) :=
  ⟨channelGradient mode axes, channelGradientAdjoint mode axes, fun y => w * ∑ p, vtvNorm der2 chan2 fun d c => y (d, c, p)⟩

/-! ## The certificate -/

section cert
variable {D C : Type} [Fintype D] [Fintype C]

theorem vtvNorm_convex (der2 chan2 : Bool) {a b : ℝ} (ha : 0 ≤ a) (hb : 0 ≤ b) (x y : D → C → ℝ) :
    vtvNorm der2 chan2 (fun d c => a * x d c + b * y d c) ≤ a * vtvNorm der2 chan2 x + b * vtvNorm der2 chan2 y := by
  cases der2 <;> cases chan2 <;> simp only [vtvNorm]
  · simp only [mul_sum, ← sum_add_distrib]
    refine sum_le_sum fun d _ => sum_le_sum fun c _ => ?_
    refine (abs_add_le _ _).trans ?_
    rw [abs_mul, abs_mul, abs_of_nonneg ha, abs_of_nonneg hb]
  · rw [mul_sum, mul_sum, ← sum_add_distrib]
    exact sum_le_sum fun d _ => sqrt_sum_add_le a b ha hb _ _
  · rw [mul_sum, mul_sum, ← sum_add_distrib]
    exact sum_le_sum fun c _ => sqrt_sum_add_le a b ha hb (fun d => x d c) fun d => y d c
  · have := sqrt_sum_add_le a b ha hb (fun q : D × C => x q.1 q.2) fun q => y q.1 q.2
    simpa only [Fintype.sum_prod_type] using this

theorem vtv_pixel_cert {P : Type} (der2 chan2 : Bool) {w σ : ℝ} (hw : 0 < w) (hσ : 0 < σ) (u : Arr (D × C × P)) (p : P) (z : D → C → ℝ) :
    let R := vtvProxDual (.ofTwo der2) (.ofTwo chan2) (fun _ => w) u
    w * vtvNorm der2 chan2 (fun d c => (u (d, c, p) - R (d, c, p)) / σ) + ∑ d, ∑ c, R (d, c, p) * (z d c - (u (d, c, p) - R (d, c, p)) / σ) ≤
      w * vtvNorm der2 chan2 z := by
  cases der2 <;> cases chan2 <;> simp only [vtvNorm, PNorm.ofTwo, vtvProxDual]
  · rw [mul_sum, mul_sum, ← sum_add_distrib]
    refine sum_le_sum fun d _ => ?_
    rw [mul_sum, mul_sum, ← sum_add_distrib]
    refine sum_le_sum fun c _ => ?_
    have := ball_cert hw hσ (fun _ : Unit => u (d, c, p)) fun _ => z d c
    simpa [Real.sqrt_sq_eq_abs] using this
  · rw [mul_sum, mul_sum, ← sum_add_distrib]
    refine sum_le_sum fun d _ => ?_
    simp only [sq_abs]
    exact ball_cert hw hσ (fun c => u (d, c, p)) fun c => z d c
  · rw [mul_sum, mul_sum, sum_comm (s := univ (α := D)), ← sum_add_distrib]
    refine sum_le_sum fun c _ => ?_
    exact ball_cert hw hσ (fun d => u (d, c, p)) fun d => z d c
  · have e : ∑ c, Real.sqrt (∑ d, u (d, c, p) ^ 2) ^ 2 = ∑ q : D × C, u (q.1, q.2, p) ^ 2 := by
      rw [Fintype.sum_prod_type, sum_comm (s := univ (α := D))]
      exact sum_congr rfl fun c _ => Real.sq_sqrt (sum_nonneg fun _ _ => sq_nonneg _)
    rw [e]
    have := ball_cert hw hσ (fun q : D × C => u (q.1, q.2, p)) fun q => z q.1 q.2
    simp only [Fintype.sum_prod_type] at this ⊢
    exact this

end cert

/-- The regularizer with its penalty and published step sizes. -/
noncomputable def vtvPreg (mode : PadMode) {m r : ℕ} (axes : Fin m → κ) (w : ℝ) (der2 chan2 : Bool) :
    PReg (Fin r × Idx n) (Fin m × Fin r × Idx n) where
  reg := vtvReg mode axes (.scalar w) none (.ofTwo der2) (.ofTwo chan2) none
  pen := vtvPenalty mode axes w der2 chan2
  scale := fun _ => 1
  σ := 1 / 2
  c := fun _ => 2 * m

private theorem vtv_ok (mode : PadMode) (hm : mode ≠ .edge) {m r : ℕ} (axes : Fin m → κ) (w : ℝ) (hw : 0 < w) (der2 chan2 : Bool) :
    (vtvPreg (n := n) (r := r) mode axes w der2 chan2).Ok where
  scalepos := fun _ => one_pos
  σpos := by norm_num [vtvPreg]
  lin := by
    intro a b x y
    funext k
    exact congrFun (gradient_lin mode axes a b (fun p => x (k.2.1, p)) fun p => y (k.2.1, p)) (k.1, k.2.2)
  adj := channel_adjoint hm axes
  convex := by
    refine ⟨convex_univ, fun x _ y _ a b ha hb hab => ?_⟩
    simp only [vtvPreg, vtvPenalty, smul_eq_mul]
    have h : ∑ p : Idx n, vtvNorm der2 chan2 (fun d c => (a • x + b • y) (d, c, p)) ≤
        ∑ p : Idx n, (a * vtvNorm der2 chan2 (fun d c => x (d, c, p)) + b * vtvNorm der2 chan2 fun d c => y (d, c, p)) :=
      sum_le_sum fun p _ => vtvNorm_convex der2 chan2 ha hb (fun d c => x (d, c, p)) (fun d c => y (d, c, p))
    rw [sum_add_distrib, ← mul_sum, ← mul_sum] at h
    have h2 := mul_le_mul_of_nonneg_left h hw.le
    linarith
  primal := fun y => by
    simp only [vtvPreg, vtvReg, vtvPenalty, applyMask, one_mul]
    rfl
  dual := by
    refine ⟨vtvProxDual (.ofTwo der2) (.ofTwo chan2) (fun _ => w), fun y x d => ?_, fun u z => ?_⟩
    · simp only [vtvPreg, vtvReg, vtvPenalty, one_mul]
      rfl
    · simp only [vtvPreg, vtvPenalty]
      rw [mul_sum, mul_sum, sum_pix, ← sum_add_distrib]
      refine sum_le_sum fun p _ => ?_
      rw [sum_comm]
      exact vtv_pixel_cert der2 chan2 hw (by norm_num) u p fun d c => z (d, c, p)
  step := by
    refine ⟨fun _ => ?_, fun _ => ?_, fun x => ?_⟩
    · funext j; simp [vtvPreg, vtvReg, applyMask]
    · simp only [vtvPreg]; positivity
    · simp only [vtvPreg, vtvPenalty]
      have h : ∀ c : Fin r, _ := fun c => grad_energy mode axes (fun p => x (c, p))
      have h2 := sum_le_sum fun c (_ : c ∈ univ) => h c
      rw [sum_pix, Fintype.sum_prod_type]
      refine (Eq.le ?_).trans (h2.trans (Eq.le ?_))
      · rw [sum_comm]
        refine sum_congr rfl fun c _ => ?_
        rw [Fintype.sum_prod_type, sum_comm]
        exact sum_congr rfl fun p _ => rfl
      · rfl

variable {ι : Type} [Fintype ι]

/-- **C267 (partial).** PDHG with vectorial total variation with the exponents 1 and 2, no reference, and the attribute `pad_mode` set to zero or periodic padding, for every
matrix, volume shape, number of channels, weight and convex data term: the iterates converge to a solution of the problem "data term plus weight times the sum of the norms
of the pixels' derivatives". (Missing: the padding that the constructor sets, `C267_vtv_violated`; infinite exponents, `C144_vtv_infinite_violated`.) -/
theorem C267_vtv_converges_partial (mode : PadMode) (hm : mode ≠ .edge) {m r : ℕ} (axes : Fin m → κ) (w : ℝ) (hw : 0 < w) (der2 chan2 : Bool)
    {M : ι → Fin r × Idx n → ℝ} {S : Solver (Fin r × Idx n) ι (Arr (Fin m × Fin r × Idx n))} {b : Arr ι}
    {a : Args (Fin r × Idx n) ι} {rnd : Arr ι} (hregs : S.regs = [vtvReg mode axes (.scalar w) none (.ofTwo der2) (.ofTwo chan2) none])
    (hkind : ConvexKind S.term.kind) (hT : S.tolerance = none) (hω : 0 < S.relaxation) (hω1 : S.relaxation < 1)
    (hs : SensibleScale M a) (htw : ∀ i, trainWeight a i = 0 ∨ trainWeight a i = 1)
    (hcols : ∀ j, (∑ i, |M i j|) + 2 * m ≤ 100000)
    (hsol : ∃ x, IsSolution S M a b [vtvPenalty mode axes w der2 chan2] x)
    (hint : ∃ x, Admissible a x ∧ ∀ i, trainWeight a i ≠ 0 →
      S.term.addBackground (fun i => ∑ j, M i j * x j) i ∈ interior (pixelFunctional S.term.kind (b i) i).dom)
    {xs : ℕ → Arr (Fin r × Idx n)}
    (hrun : ∀ N, ∃ info S', pdhg S (matrixOp M) b { a with iterations := N } true rnd = .ok (xs N, info, S')) :
    ∃ x, IsSolution S M a b [vtvPenalty mode axes w der2 chan2] x ∧ Tendsto xs atTop (𝓝 x) :=
  C141_pdhg_converges (gs := [vtvPreg mode axes w der2 chan2]) (M := M) (S := S) (b := b) (a := a) (rnd := rnd)
    (by rw [hregs]; rfl) (by
      intro g hg
      rw [List.mem_singleton] at hg
      rw [hg]
      exact vtv_ok mode hm axes w hw der2 chan2) hkind hT hω hω1 hs htw
    (by simpa [vtvPreg] using hcols) hsol hint hrun

/-- **C267 (partial)**, both limits given and a data term that is finite everywhere: a solution exists, so that no hypothesis about it is needed. -/
theorem C267_vtv_converges_limits_partial (mode : PadMode) (hm : mode ≠ .edge) {m r : ℕ} (axes : Fin m → κ) (w : ℝ) (hw : 0 < w) (der2 chan2 : Bool)
    {M : ι → Fin r × Idx n → ℝ} {S : Solver (Fin r × Idx n) ι (Arr (Fin m × Fin r × Idx n))} {b : Arr ι}
    {a : Args (Fin r × Idx n) ι} {rnd : Arr ι} (hregs : S.regs = [vtvReg mode axes (.scalar w) none (.ofTwo der2) (.ofTwo chan2) none])
    (hkind : ConvexKind S.term.kind) (hkl : S.term.kind ≠ .kl) (hT : S.tolerance = none) (hω : 0 < S.relaxation)
    (hω1 : S.relaxation < 1) (hs : SensibleScale M a) (htw : ∀ i, trainWeight a i = 0 ∨ trainWeight a i = 1)
    (hcols : ∀ j, (∑ i, |M i j|) + 2 * m ≤ 100000) (hlo : a.lower.isSome) (hup : a.upper.isSome) (hlim : SensibleLimits a)
    {xs : ℕ → Arr (Fin r × Idx n)}
    (hrun : ∀ N, ∃ info S', pdhg S (matrixOp M) b { a with iterations := N } true rnd = .ok (xs N, info, S')) :
    ∃ x, IsSolution S M a b [vtvPenalty mode axes w der2 chan2] x ∧ Tendsto xs atTop (𝓝 x) :=
  C141_pdhg_converges_limits (gs := [vtvPreg mode axes w der2 chan2]) (M := M) (S := S) (b := b) (a := a)
    (rnd := rnd) (by rw [hregs]; rfl) (by
      intro g hg
      rw [List.mem_singleton] at hg
      rw [hg]
      exact vtv_ok mode hm axes w hw der2 chan2) hkind hkl hT hω hω1 hs htw
    (by simpa [vtvPreg] using hcols) hlo hup hlim hrun

/-! ## One channel of two pixels -/

private noncomputable def vtvS (mode : PadMode) (der chan : PNorm) : Solver Vol Vol (Arr (Fin 1 × Fin 1 × Two)) :=
  ⟨95 / 100, none, [vtvReg mode (fun _ : Fin 1 => 0) (.scalar 1) none der chan none], .new .l2 none, .new .l2 none, none⟩

private theorem vtv_runs (mode : PadMode) (der chan : PNorm) (a : Args Vol Vol) (ha : a.xMask = none ∧ a.bMask = none ∧ a.bTestMask = none) :
    ∃ xs : ℕ → Arr Vol, ∀ N, ∃ info S',
      pdhg (vtvS mode der chan) (matrixOp volM) volB { a with iterations := N } true (fun _ => 1) = .ok (xs N, info, S') := by
  obtain ⟨p, hp⟩ := scaling_regs_ok (M := volM) ⟨(0, fun _ => 0), (0, fun _ => 0), by simp [volM]⟩ (vtvS mode der chan) a ha (by
    intro r hr t j
    simp only [vtvS, List.mem_singleton] at hr
    subst hr
    simp [vtvReg, applyMask]) fun _ => 1
  have h : ∀ N, ∃ r, pdhg (vtvS mode der chan) (matrixOp volM) volB { a with iterations := N } true (fun _ => 1) = .ok r := fun N =>
    pdhg_runs (p := p) hp ha.2.2
  choose r hr using h
  exact ⟨fun N => (r N).1, fun N => ⟨(r N).2.1, (r N).2.2, hr N⟩⟩

/-- Non-vacuity of the partial theorems: one channel of two pixels between 0 and 20, periodic padding. -/
example (der2 chan2 : Bool) : ∃ xs : ℕ → Arr Vol, (∀ N, ∃ info S', pdhg (vtvS .wrap (.ofTwo der2) (.ofTwo chan2)) (matrixOp volM) volB
      { iterations := N, lower := some (.scalar 0), upper := some (.scalar 20) } true (fun _ => 1) = .ok (xs N, info, S')) ∧
    ∃ x, IsSolution (vtvS .wrap (.ofTwo der2) (.ofTwo chan2)) volM { iterations := 0, lower := some (.scalar 0), upper := some (.scalar 20) } volB
      [vtvPenalty .wrap (fun _ : Fin 1 => 0) 1 der2 chan2] x ∧ Tendsto xs atTop (𝓝 x) := by
  obtain ⟨xs, hxs⟩ := vtv_runs .wrap (.ofTwo der2) (.ofTwo chan2) { iterations := 0, lower := some (.scalar 0), upper := some (.scalar 20) } ⟨rfl, rfl, rfl⟩
  refine ⟨xs, hxs, ?_⟩
  refine C267_vtv_converges_limits_partial .wrap (by decide) (fun _ : Fin 1 => (0 : Fin 1)) 1 one_pos der2 chan2
    (S := vtvS .wrap (.ofTwo der2) (.ofTwo chan2)) rfl trivial (by simp [vtvS, DataTerm.new]) rfl (by norm_num [vtvS]) (by norm_num [vtvS])
    ⟨by simp, by simp, by simp, fun i => by simp [volM, abs_ite], fun i => by simp [volM, abs_ite]⟩ (fun i => Or.inr (by simp [trainWeight])) ?_ rfl rfl
    ⟨by rintro l u ⟨⟩ ⟨⟩ j; simp [Attr.get], by simp, by simp, by simp⟩ hxs
  intro j
  have : ∑ i, |volM i j| = 1 := by simp [volM, abs_ite]
  rw [this]
  norm_num

/-- With the padding of the constructor the first pixel never receives anything from the regularizer. -/
private theorem vtv_first_pixel (der chan : PNorm) {a : Args Vol Vol} (ha : a = { iterations := a.iterations }) {rnd x info S'}
    (h : pdhg (vtvS .edge der chan) (matrixOp volM) volB a true rnd = .ok (x, info, S')) : x (0, fun _ => 0) = 0 := by
  obtain ⟨sigma, tau, tt, -, -, h3⟩ := pdhg_ok h
  have hx := congrArg Prod.fst h3
  dsimp only at hx
  rw [hx]
  refine (forRange_inv (fun s : PDState Vol Vol (Arr (Fin 1 × Fin 1 × Two)) =>
    s.x (0, fun _ => 0) = 0 ∧ s.xRelax (0, fun _ => 0) = 0 ∧ s.p (0, fun _ => 0) = 0) ?_ ?_).1
  · rw [ha]
    exact ⟨rfl, rfl, rfl⟩
  · rintro k s ⟨h1, h2, h4⟩
    have hM : ∀ y : Arr Vol, ∑ j, volM (0, fun _ => 0) j * y j = y (0, fun _ => 0) := fun y => by simp [volM]
    have hM' : ∀ y : Arr Vol, ∑ i, volM i (0, fun _ => 0) * y i = y (0, fun _ => 0) := fun y => by simp [volM]
    have hp : ((vtvS .edge der chan).term.assignData (some (.array volB)) (.array sigma)).proxDual
        (((vtvS .edge der chan).term.assignData (some (.array volB)) (.array sigma)).updateDual s.p ((matrixOp volM).fwd s.xRelax))
        (.scalar 1) (0, fun _ => 0) = 0 := by
      simp only [vtvS, DataTerm.new, assignData, proxDual, updateDual, subSigmaData, computeSigmaData, Attr.map₂, Attr.get,
        matrixOp, hM, h2, h4, volB]
      simp
    have hu : ∀ q p, p (0, fun _ => 0) = 0 → (addRegUpdates (vtvS .edge der chan).regs q ((matrixOp volM).adj p)).1 (0, fun _ => 0) = 0 := by
      intro q p hp0
      cases q with
      | nil => simp [vtvS, addRegUpdates, matrixOp, hM', hp0]
      | cons q qs =>
        cases qs <;>
        · simp only [vtvS, addRegUpdates, matrixOp, hM', hp0, vtvReg, applyMask]
          rw [edge_first_zero]; norm_num
    have hb : (initBMasks a.bMask a.bTestMask).1 = none := by rw [ha]; rfl
    have hc : ∀ v : Arr Vol, clipMask a v = v := fun v => by rw [ha]; funext j; simp [clipMask, applyMask, clip1]
    have hm : ∀ p : Arr Vol, applyMask none p = p := fun _ => rfl
    have hx' := hu (updateRegDuals (vtvS .edge der chan).regs s.q s.xRelax) _ hp
    simp only [pdhgStep, hb, hm, hc]
    refine ⟨?_, ?_, hp⟩
    · rw [hx', h1]; ring
    · rw [hx', h1]; ring

/-- **C267 (violated).** With the padding that the constructor sets ("edge"), for every pair of exponents (the default included) and the same two-pixel image of one channel
(where all point-wise norms are the absolute value of the one derivative): the problem has exactly the solution (1, 9), but PDHG returns 0 at the first pixel after any number
of iterations, so that its volumes do not converge to it. -/
theorem C267_vtv_violated (der chan : PNorm) :
    ∃ (M : Vol → Vol → ℝ) (b : Arr Vol) (S : Solver Vol Vol (Arr (Fin 1 × Fin 1 × Two))) (xs : ℕ → Arr Vol),
      S.regs = [vtvReg .edge (fun _ : Fin 1 => 0) (.scalar 1) none der chan none] ∧ S.term = .new .l2 none ∧
      (∀ N, ∃ info S', pdhg S (matrixOp M) b { iterations := N } true (fun _ => 1) = .ok (xs N, info, S')) ∧
      (∀ z : Arr Vol, (∑ i, (∑ j, M i j * z j - b i) ^ 2 / 2 + |z (0, fun _ => 1) - z (0, fun _ => 0)| ≥ 9) ∧
        (∑ i, (∑ j, M i j * z j - b i) ^ 2 / 2 + |z (0, fun _ => 1) - z (0, fun _ => 0)| = 9 ↔ z (0, fun _ => 0) = 1 ∧ z (0, fun _ => 1) = 9)) ∧
      ∀ N, xs N (0, fun _ => 0) = 0 := by
  obtain ⟨xs, hxs⟩ := vtv_runs .edge der chan { iterations := 0 } ⟨rfl, rfl, rfl⟩
  refine ⟨volM, volB, vtvS .edge der chan, xs, rfl, rfl, hxs, fun z => ?_, fun N => ?_⟩
  · have hM : ∀ i, ∑ j, volM i j * z j = z i := fun i => by simp [volM]
    have e : ∑ i, (∑ j, volM i j * z j - volB i) ^ 2 / 2 = z (0, fun _ => 0) ^ 2 / 2 + (z (0, fun _ => 1) - 10) ^ 2 / 2 := by
      simp only [hM, Fintype.sum_prod_type, Fin.sum_univ_one, sum_vol, volB]
      simp
    rw [e]
    set s := z (0, fun _ => 0)
    set t := z (0, fun _ => 1)
    have h1 := le_abs_self (t - s)
    refine ⟨by nlinarith [sq_nonneg (s - 1), sq_nonneg (t - 9)], fun h => ?_, fun ⟨h2, h3⟩ => by rw [h2, h3]; norm_num⟩
    have h2 : (s - 1) ^ 2 + (t - 9) ^ 2 ≤ 0 := by nlinarith
    constructor
    · nlinarith [sq_nonneg (s - 1), sq_nonneg (t - 9)]
    · nlinarith [sq_nonneg (s - 1), sq_nonneg (t - 9)]
  · obtain ⟨info, S', h⟩ := hxs N
    exact vtv_first_pixel der chan rfl h

end Verif
