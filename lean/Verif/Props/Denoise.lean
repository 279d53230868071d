import Verif.Model.Denoise
import Verif.Lemmas.DualAverage
import Verif.Props.PdhgRegs

/-! # C180: what `denoise_image` converges to -/

namespace Verif
open Classical DataTerm Finset Filter Topology Verif.Spec

variable {ν δ : Type} [Fintype ν] [Fintype δ]

/-- Specification: `x` solves the denoising problem with pixel weights `w`: it minimises half the weighted squared distance
to the image plus the penalty. -/
def SolvesDenoising (w b : Arr ν) (pen : Penalty ν δ) (x : Arr ν) : Prop :=
  ∀ z, (∑ i, w i * (x i - b i) ^ 2) / 2 + pen.H (pen.K x) ≤ (∑ i, w i * (z i - b i) ^ 2) / 2 + pen.H (pen.K z)

/-- The requested pixel weights: 1 if none are given. -/
def pixelWeights (w : Option (Arr ν)) : Arr ν := w.getD fun _ => 1

private theorem scaling_identity {Q : Type} {S : Solver ν ν Q} {a : Args ν ν} {r : Reg ν Q} {c : Arr ν} {rnd sigma tau : Arr ν}
    (hregs : S.regs = [r]) (hc : ∀ t, r.sigmaTau t = c) (hc0 : ∀ j, 0 ≤ c j) (hω : 0 < S.relaxation)
    (hx : a.xMask = none) (hb : a.bMask = none) (ht : a.bTestMask = none)
    (h : pdhgScaling S identityOp a true rnd = .ok (sigma, tau)) : (∀ i, sigma i = S.relaxation) ∧ ∀ j, 0 < tau j := by
  simp only [pdhgScaling, identityOp, if_true, diagonalScaling, hregs, hx, hb, ht, initBMasks, applyMask, List.foldl_cons,
    List.foldl_nil, hc, id, abs_one] at h
  split_ifs at h
  simp only [Except.ok.injEq, Prod.mk.injEq] at h
  obtain ⟨rfl, rfl⟩ := h
  refine ⟨fun i => ?_, fun j => ?_⟩
  · have : Nonempty ν := ⟨i⟩
    simp only [fixSmall, npMax, ciSup_const]
    norm_num
  · have hp : 0 < fixSmall (fun j => 1 + c j) j := by
      unfold fixSmall
      split_ifs
      · exact one_pos
      · have := hc0 j; linarith
    exact div_pos hω hp

private theorem dual_formula (w : Option (Arr ν)) (hw : ∀ W, w = some W → ∀ i, 0 < W i) (b sigma p y : Arr ν) (i : ν)
    (hs : 0 < sigma i) :
    (((denoiseTerm w).assignData (some (.array b)) (.array sigma)).proxDual
      (((denoiseTerm w).assignData (some (.array b)) (.array sigma)).updateDual p y)) i =
      (p i + sigma i * (y i - b i)) / (1 + sigma i / pixelWeights w i) := by
  cases w with
  | none =>
    simp only [denoiseTerm, DataTerm.new, proxDual, assignData, subSigmaData, computeSigmaData, computeSigma1, updateDual,
      addBackground, Attr.map, Attr.map₂, Attr.get, pixelWeights, Option.getD_none]
    field_simp
    ring
  | some W =>
    have h0 := hw W rfl i
    simp only [denoiseTerm, DataTerm.new, proxDual, assignData, subSigmaData, computeSigmaData, computeSigma1, updateDual,
      addBackground, Attr.map, Attr.map₂, Attr.get, pixelWeights, Option.getD_some, if_neg h0.ne']
    field_simp
    ring

/-- **C180 (steps for a PSF).** With a PSF of odd sizes - of either sign - that is not zero, the step sizes of the solver are the same in all pixels: 0.95 over the
sum of the absolute values of the PSF for the dual, and for the image the same with the contribution of the regularizer added to the sum. -/
theorem C180_psf_steps {κ : Type} [Fintype κ] [DecidableEq κ] {n w : κ → ℕ} (hn : ∀ k, 0 < n k) (hw : ∀ k, w k % 2 = 1) (psf : Arr (Idx w)) (hpsf : ∃ j, psf j ≠ 0)
    {Q : Type} (d : Denoise (Idx n) Q) (hop : d.op = psfOp psf) (lam c : ℝ) (hc : 0 ≤ c) (hreg : ∀ t, (d.regularizer lam).sigmaTau t = fun _ => c) (rnd : Arr (Idx n)) :
    pdhgScaling (d.solverInit lam) d.op (d.args none) true rnd = .ok (fun _ => (95 / 100) / ∑ j, |psf j|, fun _ => (95 / 100) / (∑ j, |psf j| + c)) := by
  have hS : 0 < ∑ j, |psf j| := by
    obtain ⟨j, hj⟩ := hpsf
    exact Finset.sum_pos' (fun _ _ => abs_nonneg _) ⟨j, Finset.mem_univ _, abs_pos.2 hj⟩
  have : Nonempty (Idx n) := ⟨fun k => ⟨0, hn k⟩⟩
  have hone : (Convolution.absolute ({ kernel := psf } : Convolution w)).direct (n := n) (fun _ => 1) = fun _ => ∑ j, |psf j| := by
    funext p
    unfold Convolution.direct Convolution.absolute convolveSame
    refine Finset.sum_congr rfl fun j _ => ?_
    dsimp only
    rw [if_pos]
    · simp [padGet]
    · intro k
      have h1 := (p k).isLt
      have h2 := (j k).isLt
      have h3 := hw k
      constructor <;> omega
  have hfix : ∀ s : ℝ, 0 < s → ∀ p : Idx n, fixSmall (fun _ : Idx n => s) p = s := by
    intro s hs p
    unfold fixSmall
    simp only [npMax, ciSup_const]
    rw [if_neg]
    rw [div_self hs.ne']
    norm_num
  have hmask : applyMask (none : Option (Arr (Idx n))) (fun _ => (1 : ℝ)) = fun _ => 1 := rfl
  rw [hop]
  simp only [pdhgScaling, psfOp, if_true, diagonalScaling, Denoise.solverInit, Denoise.args, initBMasks, hmask, List.foldl_cons, List.foldl_nil, hreg, hone,
    abs_of_pos hS]
  rw [if_neg, if_neg]
  · simp only [hfix _ hS, hfix _ (add_pos_of_pos_of_nonneg hS hc)]
  · simp only [npMax, ciSup_const]; exact hS.ne'
  · simp only [npMax, ciSup_const]; exact (add_pos_of_pos_of_nonneg hS hc).ne'

/-- An image of 4 x 5 pixels, an asymmetric PSF with a negative value and the l1 penalty meet the hypotheses. -/
example (img rnd : Arr (Idx ![4, 5])) (lam : ℝ) :
    let psf : Arr (Idx fun _ : Fin 2 => 3) := fun j => if (j 0 : ℕ) = 0 then -1 else 1
    let d : Denoise (Idx ![4, 5]) (Arr (Idx ![4, 5])) := ⟨img, psfOp psf, denoiseTerm none, 0, fun lam => (l1Reg (.scalar lam) none (.new .l1 none)).toReg, none, id⟩
    pdhgScaling (d.solverInit lam) d.op (d.args none) true rnd = .ok (fun _ => (95 / 100) / ∑ j, |psf j|, fun _ => (95 / 100) / (∑ j, |psf j| + 1)) :=
  C180_psf_steps (by intro k; fin_cases k <;> simp) (by simp) _ ⟨fun _ => 0, by simp⟩ _ rfl lam 1 zero_le_one (fun _ => rfl) rnd

/-- C180. With one weight, the result is the image PDHG returns for the regularizer of that weight, started at the image. -/
theorem C180_single_weight_partial {Q : Type} {d : Denoise ν Q} {rnd : Arr ν} {lam : ℝ} {pe masks orders x o}
    (h : denoiseImage d rnd [lam] pe masks orders = .ok (x, o)) :
    o = none ∧ ∃ info S', pdhg ⟨95 / 100, none, [d.regularizer lam], d.term, d.term, none⟩ d.op d.img
      { iterations := d.iterations, x0 := some d.img, lower := d.lower.map .scalar } true rnd = .ok (x, info, S') := by
  simp only [denoiseImage, Denoise.final, Denoise.solverExec] at h
  cases hp : pdhg (d.solverInit lam) d.op d.img (d.args none) true rnd with
  | error e => rw [hp] at h; cases h
  | ok r =>
    rw [hp] at h
    simp only [Except.map, Except.ok.injEq, Prod.mk.injEq] at h
    exact ⟨h.2.symm, r.2.1, r.2.2, by rw [← h.1]; exact hp⟩

/-- One iteration of the denoising loop, with the dual of the data overwritten by the update. -/
private noncomputable def dnStep (w : Option (Arr ν)) (b sigma tau : Arr ν) (g : PReg ν δ) (s : Arr ν × Arr ν × Arr ν × Arr δ) :
    Arr ν × Arr ν × Arr ν × Arr δ :=
  let q := g.reg.proxDual (g.reg.updateDual s.2.2.2 s.2.1)
  let upd : Arr ν := fun j => (s.2.2.1 j + sigma j * (s.2.1 j - b j)) / (1 + sigma j / pixelWeights w j) +
    g.pen.Kt (fun d => g.scale d * q d) j
  let x : Arr ν := fun j => s.1 j - upd j * tau j
  (x, fun j => x j + (x j - s.1 j), upd, q)

private theorem denoise_run {d : Denoise ν (Arr δ)} {w : Option (Arr ν)} (hop : d.op = identityOp) (hterm : d.term = denoiseTerm w)
    (hlow : d.lower = none) (hw : ∀ W, w = some W → ∀ i, 0 < W i) {lam : ℝ} {g : PReg ν δ} (hreg : d.regularizer lam = g.reg)
    (hg : g.Ok) {rnd sigma tau : Arr ν} (hsc : pdhgScaling (d.solverInit lam) identityOp (d.args none) true rnd = .ok (sigma, tau))
    (hs : ∀ i, 0 < sigma i) {N : ℕ} {pe masks orders x o}
    (h : denoiseImage { d with iterations := N } rnd [lam] pe masks orders = .ok (x, o)) :
    x = ((dnStep w d.img sigma tau g)^[N] (d.img, d.img, fun _ => 0, g.reg.initDual)).1 := by
  set d' : Denoise ν (Arr δ) := { d with iterations := N } with hd'
  have h1 : ∃ info S', pdhg (d'.solverInit lam) identityOp d'.img (d'.args none) true rnd = .ok (x, info, S') := by
    obtain ⟨-, info, S', h⟩ := C180_single_weight_partial h
    have e : d'.op = identityOp := hop
    rw [e] at h
    exact ⟨info, S', h⟩
  obtain ⟨info, S', h1⟩ := h1
  obtain ⟨sigma', tau', tt, h2, _, h3⟩ := pdhg_ok h1
  have e0 : pdhgScaling (d'.solverInit lam) identityOp (d'.args none) true rnd =
    pdhgScaling (d.solverInit lam) identityOp (d.args none) true rnd := rfl
  rw [e0, hsc] at h2
  simp only [Except.ok.injEq, Prod.mk.injEq] at h2
  obtain ⟨rfl, rfl⟩ := h2
  have hx := congrArg Prod.fst h3
  dsimp only at hx
  rw [hx]
  set term := (d'.solverInit lam).term.assignData (some (.array d'.img)) (.array sigma) with hterm'
  have hterm'' : term = (denoiseTerm w).assignData (some (.array d.img)) (.array sigma) := by
    rw [← hterm]; rfl
  have hreg' : (d'.solverInit lam).regs = [g.reg] := by rw [← hreg]; rfl
  let toL : Arr ν × Arr ν × Arr ν × Arr δ → Arr ν × Arr ν × Arr ν × List (Arr δ) := fun s => (s.1, s.2.1, s.2.2.1, [s.2.2.2])
  let f : Arr ν × Arr ν × Arr ν × List (Arr δ) → Arr ν × Arr ν × Arr ν × List (Arr δ) := fun s =>
    let q := updateRegDuals [g.reg] s.2.2.2 s.2.1
    let u := addRegUpdates [g.reg] q (term.proxDual (term.updateDual s.2.2.1 s.2.1))
    let x' : Arr ν := fun j => s.1 j - u.1 j * tau j
    (x', fun j => x' j + (x' j - s.1 j), u.1, u.2)
  have hclip : ∀ v : Arr ν, clipMask (d'.args none) v = v := by
    intro v
    have : d'.lower = none := hlow
    simp only [clipMask, Denoise.args, this, clip1, Option.map_none]
    rfl
  have am : ∀ p : Arr ν, applyMask none p = p := fun _ => rfl
  have hloop := forRange_noBreak (step := pdhgStep identityOp (d'.args none) (d'.solverInit lam).regs term tt none none tau
      (d'.solverInit lam).tolerance)
    (fun s : PDState ν ν (Arr δ) => (s.x, s.xRelax, s.p, s.q)) f
    (fun k s => by
      have : (d'.solverInit lam).tolerance = none := rfl
      simp only [pdhgStep, this]
      exact recordResiduals_noTol)
    (fun k s => by
      simp only [pdhgStep, hreg', identityOp, f, hclip, am, id, List.cons_ne_nil, if_false]) N
    ⟨d'.img, d'.img, term.initializeDual, (d'.solverInit lam).regs.map (·.initDual),
      initialResiduals term tt none none (d'.solverInit lam).tolerance (identityOp.fwd d'.img)
        (Info.new N (d'.solverInit lam).tolerance)⟩
  have hfx := congrArg Prod.fst hloop
  refine Eq.trans hfx ?_
  have hinit : ((d'.img, d'.img, term.initializeDual, (d'.solverInit lam).regs.map (·.initDual)) :
      Arr ν × Arr ν × Arr ν × List (Arr δ)) = toL (d.img, d.img, fun _ => 0, g.reg.initDual) := by
    rw [hreg']; rfl
  have hsim : ∀ s, f (toL s) = toL (dnStep w d.img sigma tau g s) := by
    intro s
    have hp : term.proxDual (term.updateDual s.2.2.1 s.2.1) =
        fun i => (s.2.2.1 i + sigma i * (s.2.1 i - d.img i)) / (1 + sigma i / pixelWeights w i) := by
      funext i
      rw [hterm'', dual_formula w hw _ _ _ _ _ (hs i)]
    simp only [f, toL, updateRegDuals, addRegUpdates, hp, hg.primal, dnStep]
  show (f^[N] _).1 = _
  rw [hinit]
  have hit : ∀ n s, f^[n] (toL s) = toL ((dnStep w d.img sigma tau g)^[n] s) := by
    intro n
    induction n with
    | zero => intro s; rfl
    | succ n ih => intro s; rw [Function.iterate_succ_apply, Function.iterate_succ_apply, hsim, ih]
  rw [hit]

/-- C180, partial. `denoise_image` without PSF and lower limit, for one weight: if the images returned after `N` iterations
converge as `N` grows, then the limit solves the denoising problem with *changed* pixel weights: `1 / (1 / w + 1 / 0.95)`
instead of `w`. (The transpose of the identity returns its argument, so the solver overwrites the dual of the data; C71.) -/
theorem C180_denoise_limit_partial {d : Denoise ν (Arr δ)} {w : Option (Arr ν)} (hop : d.op = identityOp)
    (hterm : d.term = denoiseTerm w) (hlow : d.lower = none) (hw : ∀ W, w = some W → ∀ i, 0 < W i) {lam : ℝ} {g : PReg ν δ}
    (hreg : d.regularizer lam = g.reg) (hg : g.Ok) {rnd : Arr ν} {pe masks orders} {xs : ℕ → Arr ν} {x : Arr ν}
    (hrun : ∀ N, denoiseImage { d with iterations := N } rnd [lam] pe masks orders = .ok (xs N, none))
    (hx : Tendsto xs atTop (𝓝 x)) :
    SolvesDenoising (fun i => 1 / (1 / pixelWeights w i + 1 / (95 / 100))) d.img g.pen x := by
  -- step sizes
  obtain ⟨sigma, tau, hsc⟩ : ∃ sigma tau, pdhgScaling (d.solverInit lam) identityOp (d.args none) true rnd = .ok (sigma, tau) := by
    obtain ⟨-, info, S', h⟩ := C180_single_weight_partial (hrun 0)
    dsimp only at h
    rw [hop] at h
    obtain ⟨sigma, tau, _, h1, _⟩ := pdhg_ok h
    exact ⟨sigma, tau, h1⟩
  have hregs : (d.solverInit lam).regs = [g.reg] := by rw [← hreg]; rfl
  obtain ⟨hσ, hτ⟩ := scaling_identity hregs hg.step.published hg.step.nonneg (by norm_num [Denoise.solverInit]) rfl rfl rfl hsc
  have hσ' : ∀ i, sigma i = 95 / 100 := hσ
  have hσ0 : ∀ i, 0 < sigma i := fun i => by rw [hσ' i]; norm_num
  have hw0 : ∀ i, 0 < pixelWeights w i := by
    intro i
    cases w with
    | none => exact one_pos
    | some W => exact hw W rfl i
  -- the sequences
  let st : ℕ → Arr ν × Arr ν × Arr ν × Arr δ := fun n => (dnStep w d.img sigma tau g)^[n] (d.img, d.img, fun _ => 0, g.reg.initDual)
  have hst : ∀ n, st (n + 1) = dnStep w d.img sigma tau g (st n) := fun n => Function.iterate_succ_apply' _ _ _
  have hxs : ∀ n, (st n).1 = xs n := fun n => (denoise_run hop hterm hlow hw hreg hg hsc hσ0 (hrun n)).symm
  have hx1 : ∀ j, Tendsto (fun n => xs n j) atTop (𝓝 (x j)) := fun j => tendsto_pi_nhds.1 hx j
  have hx2 : ∀ j, Tendsto (fun n => xs (n + 1) j) atTop (𝓝 (x j)) := fun j => (hx1 j).comp (tendsto_add_atTop_nat 1)
  have hbar : ∀ n j, (st (n + 1)).2.1 j = xs (n + 1) j + (xs (n + 1) j - xs n j) := by
    intro n j
    rw [← hxs, ← hxs, hst]
    simp only [dnStep]
  have hupd : ∀ n j, (st (n + 1)).2.2.1 j = (xs n j - xs (n + 1) j) / tau j := by
    intro n j
    rw [← hxs, ← hxs, hst]
    simp only [dnStep]
    have := (hτ j).ne'
    field_simp
    ring
  have hy : Tendsto (fun n => (st (n + 1)).2.1) atTop (𝓝 x) := by
    refine tendsto_pi_nhds.2 fun j => ?_
    simp only [hbar]
    have := (hx2 j).add ((hx2 j).sub (hx1 j))
    simpa using this
  have hs0 : ∀ j, Tendsto (fun n => (st (n + 1)).2.2.1 j) atTop (𝓝 0) := by
    intro j
    simp only [hupd]
    have := ((hx1 j).sub (hx2 j)).div_const (tau j)
    simpa using this
  obtain ⟨R, hR1, hR2⟩ := hg.dual
  let q : ℕ → Arr δ := fun n d => g.scale d * (st (n + 1)).2.2.2 d
  have hq : ∀ n, q (n + 1) = R fun k => q n k + g.σ * g.pen.K ((st (n + 1)).2.1) k := by
    intro n
    funext k
    simp only [q]
    rw [hst (n + 1)]
    simp only [dnStep]
    rw [hR1]
  have hKt : ∀ n j, g.pen.Kt (q (n + 1)) j = (st (n + 2)).2.2.1 j -
      ((st (n + 1)).2.2.1 j + 95 / 100 * ((st (n + 1)).2.1 j - d.img j)) / (1 + 95 / 100 / pixelWeights w j) := by
    intro n j
    have e : q (n + 1) = fun k => g.scale k * g.reg.proxDual (g.reg.updateDual (st (n + 1)).2.2.2 (st (n + 1)).2.1) k := by
      funext k; simp only [q]; rw [hst (n + 1)]; rfl
    rw [hst (n + 1)]
    simp only [dnStep, hσ']
    rw [← e]
    ring
  let v : Arr ν := fun j => 1 / (1 / pixelWeights w j + 1 / (95 / 100)) * (x j - d.img j)
  have hgl : Tendsto (fun n => g.pen.Kt (q (n + 1))) atTop (𝓝 fun j => -v j) := by
    refine tendsto_pi_nhds.2 fun j => ?_
    simp only [hKt]
    have h1 := ((hs0 j).comp (tendsto_add_atTop_nat 1)).sub
      (((hs0 j).add (((tendsto_pi_nhds.1 hy j).sub_const (d.img j)).const_mul (95 / 100))).div_const (1 + 95 / 100 / pixelWeights w j))
    have e : (0 : ℝ) - (0 + 95 / 100 * (x j - d.img j)) / (1 + 95 / 100 / pixelWeights w j) = -v j := by
      have := hw0 j
      simp only [v]
      field_simp
      ring
    rw [e] at h1
    exact h1
  have hsub := fun z => dual_average hg.lin hg.adj hg.convex hg.σpos hR2 hq hy hgl z
  intro z
  have h1 := hsub z
  have h2 : ∑ j, v j * (z j - x j) ≤ (∑ i, 1 / (1 / pixelWeights w i + 1 / (95 / 100)) * (z i - d.img i) ^ 2) / 2 -
      (∑ i, 1 / (1 / pixelWeights w i + 1 / (95 / 100)) * (x i - d.img i) ^ 2) / 2 := by
    rw [← sub_div, ← sum_sub_distrib, sum_div]
    refine sum_le_sum fun i _ => ?_
    have hp : 0 < 1 / (1 / pixelWeights w i + 1 / (95 / 100 : ℝ)) := by have := hw0 i; positivity
    simp only [v]
    generalize 1 / (1 / pixelWeights w i + 1 / (95 / 100 : ℝ)) = e at hp
    nlinarith [mul_nonneg hp.le (sq_nonneg (z i - x i))]
  linarith

/-- C180, partial, without pixel weights: the limit solves the documented problem for a penalty 39/19 (about 2.05) times the
requested one. -/
theorem C180_denoise_weight_partial {d : Denoise ν (Arr δ)} (hop : d.op = identityOp)
    (hterm : d.term = denoiseTerm none) (hlow : d.lower = none) {lam : ℝ} {g : PReg ν δ}
    (hreg : d.regularizer lam = g.reg) (hg : g.Ok) {rnd : Arr ν} {pe masks orders} {xs : ℕ → Arr ν} {x : Arr ν}
    (hrun : ∀ N, denoiseImage { d with iterations := N } rnd [lam] pe masks orders = .ok (xs N, none))
    (hx : Tendsto xs atTop (𝓝 x)) :
    SolvesDenoising (fun _ => 1) d.img ⟨g.pen.K, g.pen.Kt, fun y => 39 / 19 * g.pen.H y⟩ x := by
  have h := C180_denoise_limit_partial hop hterm hlow (fun _ hW => by cases hW) hreg hg hrun hx
  intro z
  have h1 := h z
  simp only [pixelWeights, Option.getD_none, ← mul_sum] at h1 ⊢
  simp only [one_mul]
  norm_num at h1
  linarith

/-- The example: one pixel of value 1, l1 penalty with weight 1/4. -/
private noncomputable def onePixel : Denoise (Fin 1) (Arr (Fin 1)) :=
  ⟨fun _ => 1, identityOp, denoiseTerm none, 0, fun lam => (l1Reg (.scalar lam) none (.new .l1 none)).toReg, none, id⟩

private noncomputable def onePen : PReg (Fin 1) (Fin 1) :=
  (l1Reg (.scalar (1 / 4)) none (.new .l1 none)).preg (l1Penalty (l1Reg (.scalar (1 / 4)) none (.new .l1 none)))

private theorem onePen_ok : onePen.Ok := C141_l1 _ (fun _ => by norm_num [Attr.get]) _ rfl

private theorem onePixel_scaling (rnd : Arr (Fin 1)) :
    pdhgScaling (onePixel.solverInit (1 / 4)) identityOp (onePixel.args none) true rnd = .ok (fun _ => 95 / 100, fun _ => 95 / 200) := by
  simp only [pdhgScaling, identityOp, if_true, diagonalScaling, Denoise.solverInit, onePixel, Denoise.args, initBMasks, applyMask,
    List.foldl_cons, List.foldl_nil, id, abs_one, l1Reg, RegState.toReg, fixSmall, npMax, ciSup_const]
  norm_num

private theorem onePixel_runs (N : ℕ) (rnd : Arr (Fin 1)) (pe masks orders) :
    ∃ x, denoiseImage { onePixel with iterations := N } rnd [1 / 4] pe masks orders = .ok (x, none) := by
  have e : pdhgScaling (({ onePixel with iterations := N } : Denoise _ _).solverInit (1 / 4)) identityOp
      (({ onePixel with iterations := N } : Denoise _ _).args none) true rnd = .ok (fun _ => 95 / 100, fun _ => 95 / 200) :=
    onePixel_scaling rnd
  have hop : ({ onePixel with iterations := N } : Denoise _ _).op = identityOp := rfl
  obtain ⟨r, hr⟩ : ∃ r, pdhg (({ onePixel with iterations := N } : Denoise _ _).solverInit (1 / 4)) identityOp onePixel.img
      (({ onePixel with iterations := N } : Denoise _ _).args none) true rnd = .ok r := by
    unfold pdhg
    rw [e]
    exact ⟨_, rfl⟩
  refine ⟨r.1, ?_⟩
  unfold denoiseImage Denoise.final Denoise.solverExec
  rw [hop]
  dsimp only
  rw [hr]
  rfl

/-- The state after `n + 1` iterations, in terms of the last two errors. -/
private theorem onePixel_state (n : ℕ) : ∃ a b : ℝ, a ^ 2 - 21 / 20 * (a * b) + 439 / 1560 * b ^ 2 ≤ (439 / 1560) ^ n * (1 / 50) ∧
    (dnStep none onePixel.img (fun _ => 95 / 100) (fun _ => 95 / 200) onePen)^[n + 1]
      (onePixel.img, onePixel.img, fun _ => 0, onePen.reg.initDual) =
      (fun _ => 37 / 76 + a, fun _ => 37 / 76 + (2 * a - b), fun _ => (b - a) * (40 / 19), fun _ => 1 / 4) := by
  have hq : ∀ u : ℝ, 1 / 4 ≤ u → u / max |u| (1 / 4) * (1 / 4) = 1 / 4 := by
    intro u hu
    have h0 : 0 < u := by linarith
    rw [abs_of_pos h0, max_eq_left hu]
    field_simp
  have hstep : ∀ x xb s q : ℝ, 1 / 4 ≤ q + xb →
      dnStep none onePixel.img (fun _ => 95 / 100) (fun _ => 95 / 200) onePen (fun _ => x, fun _ => xb, fun _ => s, fun _ => q) =
      (fun _ => x - ((20 * s + 19 * (xb - 1)) / 39 + 1 / 4) * (19 / 40),
       fun _ => x - ((20 * s + 19 * (xb - 1)) / 39 + 1 / 4) * (19 / 40) + (x - ((20 * s + 19 * (xb - 1)) / 39 + 1 / 4) * (19 / 40) - x),
       fun _ => (20 * s + 19 * (xb - 1)) / 39 + 1 / 4, fun _ => 1 / 4) := by
    intro x xb s q h
    have e1 : onePen.reg.proxDual (onePen.reg.updateDual (fun _ => q) (fun _ => xb)) = fun _ => 1 / 4 := by
      funext k
      show (RegState.proxDual (l1Reg (.scalar (1 / 4)) none (.new .l1 none))
        (RegState.updateDual (l1Reg (.scalar (1 / 4)) none (.new .l1 none)) (fun _ => q) fun _ => xb)) k = 1 / 4
      unfold RegState.proxDual
      have hk : (l1Reg (.scalar (1 / 4 : ℝ)) none (.new .l1 none) : RegState (Fin 1) (Fin 1)).norm.kind.isL1 = true := rfl
      rw [if_pos hk]
      have := hq (q + 1 * xb) (by linarith)
      simpa [proxDual, l1Reg, DataTerm.new, assignData, subSigmaData, computeSigmaData, applyThreshold, innerNorm, RegState.updateDual,
        Attr.get] using this
    have e2 : ∀ k, onePen.pen.Kt (fun d => onePen.scale d * (1 / 4 : ℝ)) k = 1 / 4 := by
      intro k
      show (1 : ℝ) * (1 / 4) = 1 / 4
      ring
    simp only [dnStep, e1, e2, onePixel, pixelWeights, Option.getD_none, Prod.mk.injEq]
    refine ⟨?_, ?_, ?_, trivial⟩ <;> funext k <;> norm_num <;> ring
  induction n with
  | zero =>
    refine ⟨141 / 160 - 37 / 76, 39 / 76, by norm_num, ?_⟩
    rw [Function.iterate_succ_apply, Function.iterate_zero, id]
    have := hstep 1 1 0 0 (by norm_num)
    refine Eq.trans this ?_
    norm_num
  | succ n ih =>
    obtain ⟨a, b, hV, hs⟩ := ih
    have hc : ((439 : ℝ) / 1560) ^ n ≤ 1 := pow_le_one₀ (by norm_num) (by norm_num)
    have hV1 : a ^ 2 - 21 / 20 * (a * b) + 439 / 1560 * b ^ 2 ≤ 1 / 50 := by linarith
    have hx : 0 ≤ 37 / 76 + (2 * a - b) := by
      have h1 : (2 * a - b) ^ 2 ≤ 9 / 2 * (a ^ 2 - 21 / 20 * (a * b) + 439 / 1560 * b ^ 2) := by
        nlinarith [sq_nonneg (a - 29 / 40 * b), sq_nonneg b]
      have h2 : (2 * a - b) ^ 2 ≤ (37 / 76) ^ 2 := by
        refine h1.trans (le_trans (mul_le_mul_of_nonneg_left hV1 (by norm_num)) (by norm_num))
      have := abs_le_of_sq_le_sq' h2 (by norm_num)
      linarith [this.1]
    refine ⟨21 / 20 * a - 439 / 1560 * b, a, ?_, ?_⟩
    · have e : (21 / 20 * a - 439 / 1560 * b) ^ 2 - 21 / 20 * ((21 / 20 * a - 439 / 1560 * b) * a) + 439 / 1560 * a ^ 2 =
          439 / 1560 * (a ^ 2 - 21 / 20 * (a * b) + 439 / 1560 * b ^ 2) := by ring
      rw [e, pow_succ]
      exact (mul_le_mul_of_nonneg_left hV (show (0 : ℝ) ≤ 439 / 1560 by norm_num)).trans (le_of_eq (by ring))
    · rw [Function.iterate_succ_apply', hs, hstep _ _ _ _ (by linarith)]
      simp only [Prod.mk.injEq]
      refine ⟨?_, ?_, ?_, trivial⟩ <;> funext k <;> ring

private theorem onePixel_limit (rnd : Arr (Fin 1)) (pe masks orders) :
    ∃ xs : ℕ → Arr (Fin 1), (∀ N, denoiseImage { onePixel with iterations := N } rnd [1 / 4] pe masks orders = .ok (xs N, none)) ∧
      Tendsto xs atTop (𝓝 fun _ => 37 / 76) := by
  choose xs hxs using fun N => onePixel_runs N rnd pe masks orders
  refine ⟨xs, hxs, ?_⟩
  have hr : ∀ n, xs (n + 1) = _ := fun n => denoise_run (d := onePixel) (w := none) rfl rfl rfl (fun _ h => by cases h)
    (g := onePen) rfl onePen_ok (onePixel_scaling rnd) (fun _ => by norm_num) (hxs (n + 1))
  refine (tendsto_add_atTop_iff_nat 1).1 (tendsto_pi_nhds.2 fun k => ?_)
  have hb : ∀ n, |xs (n + 1) k - 37 / 76| ^ 2 ≤ 1 * (439 / 1560) ^ n := by
    intro n
    obtain ⟨a, b, hV, hs⟩ := onePixel_state n
    rw [hr n, hs, sq_abs]
    have e : (37 / 76 + a - 37 / 76 : ℝ) = a := by ring
    simp only [e, one_mul]
    have h1 : a ^ 2 ≤ 49 * (a ^ 2 - 21 / 20 * (a * b) + 439 / 1560 * b ^ 2) := by
      nlinarith [sq_nonneg (48 * a - 25725 / 1000 * b), sq_nonneg b]
    have h2 : (0 : ℝ) ≤ (439 / 1560) ^ n := by positivity
    linarith
  have hz : Tendsto (fun n => 1 * ((439 : ℝ) / 1560) ^ n) atTop (𝓝 0) := by
    have := (tendsto_pow_atTop_nhds_zero_of_lt_one (show (0 : ℝ) ≤ 439 / 1560 by norm_num) (by norm_num)).const_mul 1
    simpa using this
  have h1 := squeeze_zero (fun n => sq_nonneg |xs (n + 1) k - 37 / 76|) hb hz
  have h2 := h1.sqrt
  simp only [Real.sqrt_zero, Real.sqrt_sq_eq_abs, abs_abs] at h2
  have h3 := (tendsto_zero_iff_abs_tendsto_zero _).2 h2
  have := h3.add_const (37 / 76)
  simpa using this

/-- C180 is violated: for a pixel of value 1 and an l1 penalty of weight 1/4 the denoised images converge to 37/76, but the
denoising problem is solved by 3/4 only. -/
theorem C180_denoise_violated : ¬ ∀ (d : Denoise (Fin 1) (Arr (Fin 1))) (lam : ℝ) (g : PReg (Fin 1) (Fin 1)) (rnd : Arr (Fin 1))
    (pe : ParallelEval) (masks : List (Arr (Fin 1))) (orders : ℕ → List ℕ) (xs : ℕ → Arr (Fin 1)),
    d.op = identityOp → d.term = denoiseTerm none → d.lower = none → d.regularizer lam = g.reg → g.Ok →
    (∀ N, denoiseImage { d with iterations := N } rnd [lam] pe masks orders = .ok (xs N, none)) →
    ∃ x, SolvesDenoising (fun _ => 1) d.img g.pen x ∧ Tendsto xs atTop (𝓝 x) := by
  intro h
  obtain ⟨xs, hxs, hl⟩ := onePixel_limit (fun _ => 1) .executor [] fun _ => []
  obtain ⟨x, hx, hx'⟩ := h onePixel (1 / 4) onePen _ _ _ _ xs rfl rfl rfl rfl onePen_ok hxs
  have e := tendsto_nhds_unique hx' hl
  subst e
  have h1 := hx fun _ => 3 / 4
  simp only [onePen, RegState.preg, l1Penalty, l1Reg, onePixel, Attr.get, Fin.sum_univ_one, id] at h1
  norm_num [abs_of_pos] at h1

example : ∃ (d : Denoise (Fin 1) (Arr (Fin 1))) (g : PReg (Fin 1) (Fin 1)) (xs : ℕ → Arr (Fin 1)) (x : Arr (Fin 1)),
    d.op = identityOp ∧ d.term = denoiseTerm none ∧ d.lower = none ∧ d.regularizer (1 / 4) = g.reg ∧ g.Ok ∧
    (∀ N, denoiseImage { d with iterations := N } (fun _ => 1) [1 / 4] .executor [] (fun _ => []) = .ok (xs N, none)) ∧
    Tendsto xs atTop (𝓝 x) := by
  obtain ⟨xs, hxs, hl⟩ := onePixel_limit (fun _ => 1) .executor [] fun _ => []
  exact ⟨onePixel, onePen, xs, _, rfl, rfl, rfl, rfl, onePen_ok, hxs, hl⟩

end Verif
