import Verif.Props.Denoise
import Verif.Props.Fits
import Verif.Props.SolversBasic
import Verif.Props.CvAverages
import Mathlib.Data.List.GetD

/-! # C181, C182: `denoise_image` with several weights -/

namespace Verif
open Classical DataTerm Finset Verif.Spec

variable {ν Q : Type} [Fintype ν]

/-- C181. With several increasing positive weights: if a result is returned, then there were at least three weights, the
returned weight is within their range, the image is the one returned for that weight alone, and the image respects the lower
limit. (The weight is that of a parabola fit, C38.) -/
theorem C181_several_weights_partial {d : Denoise ν Q} {rnd : Arr ν} {weights : List ℝ} {pe masks orders x o}
    (hpos : ∀ w ∈ weights, 0 < w) (hinc : weights.Pairwise (· < ·)) (h2 : 2 ≤ weights.length)
    (h : denoiseImage d rnd weights pe masks orders = .ok (x, o)) :
    3 ≤ weights.length ∧ ∃ lam, o = some lam ∧ denoiseImage d rnd [lam] pe masks orders = .ok (x, none) ∧
      (∃ w ∈ weights, w ≤ lam) ∧ (∃ w ∈ weights, lam ≤ w) ∧
      (0 < d.iterations → ∀ l, d.lower = some l → ∀ i, l ≤ x i) := by
  match weights, h2 with
  | w0 :: w1 :: ws, _ =>
    simp only [denoiseImage] at h
    cases hc : d.choose rnd (w0 :: w1 :: ws) pe masks orders with
    | error e => rw [hc] at h; cases h
    | ok lam =>
      rw [hc] at h
      simp only at h
      have hone : denoiseImage d rnd [lam] pe masks orders = .ok (x, none) ∧ o = some lam := by
        simp only [denoiseImage, Denoise.final] at h ⊢
        cases hs : d.solverExec rnd (d.solverInit lam) none with
        | error e => rw [hs] at h; cases h
        | ok r =>
          rw [hs] at h
          simp only [if_true, Except.ok.injEq, Prod.mk.injEq] at h ⊢
          exact ⟨⟨h.1, by simp⟩, h.2.symm⟩
      unfold Denoise.choose at hc
      cases hcv : cvCompute pe (d.task rnd) 3 masks (w0 :: w1 :: ws) orders with
      | error e => rw [hcv] at hc; cases hc
      | ok r =>
        rw [hcv] at hc
        simp only at hc
        set W := w0 :: w1 :: ws with hW
        have hlen : r.1.length = W.length := by
          unfold cvCompute at hcv
          cases hr : cvRounds pe (d.task rnd) masks W orders 3 with
          | error e => rw [hr] at hcv; cases hcv
          | ok fs =>
            rw [hr] at hcv
            simp only [OfNat.ofNat_ne_zero, if_false, Except.ok.injEq] at hcv
            rw [← hcv]; simp
        rw [hlen] at hc
        by_cases h3 : 3 ≤ W.length
        · refine ⟨h3, lam, hone.2, hone.1, ?_⟩
          have hget : ∀ i, i < W.length → W.getD i 0 ∈ W := fun i hi => by
            rw [List.getD_eq_getElem _ _ hi]; exact List.getElem_mem hi
          have hgood : GoodScale .log (fun k => W.getD k 0) W.length := by
            refine ⟨fun i j hij hj => ?_, fun _ => hpos _ (hget 0 (by omega))⟩
            simp only
            rw [List.getD_eq_getElem _ _ (by omega), List.getD_eq_getElem _ _ hj]
            exact List.pairwise_iff_getElem.1 hinc i j _ _ hij
          obtain ⟨p, i, m, hm, hi, ha1, ha2, _, hor⟩ := C38_fit_func_min .log (fun k => W.getD k 0) (fun k => r.1.getD k 0) W.length h3 hgood
          rw [hm] at hc
          simp only [Except.ok.injEq] at hc
          have hrange : (∃ w ∈ W, w ≤ lam) ∧ (∃ w ∈ W, lam ≤ w) := by
            rcases hor with he | ⟨hl, hu, _⟩
            · have ha : argmin (fun k => r.1.getD k 0) W.length < W.length := by omega
              have : lam = W.getD (argmin (fun k => r.1.getD k 0) W.length) 0 := by rw [← hc, he]
              exact ⟨⟨_, hget _ ha, this.ge⟩, ⟨_, hget _ ha, this.le⟩⟩
            · rw [hc] at hl hu
              exact ⟨⟨_, hget 0 (by omega), hl⟩, ⟨_, hget (W.length - 1) (by omega), hu⟩⟩
          refine ⟨hrange.1, hrange.2, fun hn l hl i => ?_⟩
          obtain ⟨-, info, S', hp⟩ := C180_single_weight_partial hone.1
          exact (C03_pdhg_limits hp ⟨fun _ _ _ hu => by simp at hu, fun _ hm => by simp at hm, fun _ _ hm => by simp at hm,
            fun _ _ hm => by simp at hm⟩ hn).1 (.scalar l) (by simp [hl]) i
        · rw [C38_bad_lengths .log _ _ _ _ (by omega)] at hc
          cases hc

/-- C181. With at least three increasing positive weights, three test masks, scored cross-validation runs and a solver that
runs for every weight, `denoise_image` returns an image and the weight that the logarithmic fit (C38) finds for the mean test
losses. -/
theorem C181_chosen_weight_partial {d : Denoise ν Q} {rnd : Arr ν} {weights : List ℝ} {pe : ParallelEval} {masks : List (Arr ν)}
    {orders : ℕ → List ℕ} {score : Arr ν → ℝ → ℝ} (hpos : ∀ w ∈ weights, 0 < w) (hinc : weights.Pairwise (· < ·))
    (h3 : 3 ≤ weights.length) (hm : masks.length = 3) (ho : ∀ i, (orders i).Perm (List.range weights.length))
    (hscore : ScoredBy (d.task rnd) score masks weights)
    (hrun : ∀ lam, ∃ r, d.solverExec rnd (d.solverInit lam) none = .ok r) :
    ∃ x m, fitFuncMin .log (fun k => weights.getD k 0) weights.length
        (fun k => (weights.map fun w => meanOfList (masks.map fun t => score t w)).getD k 0) weights.length = some m ∧
      denoiseImage d rnd weights pe masks orders = .ok (x, some m.1) := by
  obtain ⟨avgs, stds, hcv, havg, -⟩ := C145_values pe (d.task rnd) score masks weights orders ho
    (by intro h; rw [h] at hm; cases hm) hscore
  rw [hm] at hcv
  have hgood : GoodScale .log (fun k => weights.getD k 0) weights.length := by
    refine ⟨fun i j hij hj => ?_, fun _ => hpos _ ?_⟩
    · simp only
      rw [List.getD_eq_getElem _ _ (by omega), List.getD_eq_getElem _ _ hj]
      exact List.pairwise_iff_getElem.1 hinc i j _ _ hij
    · simp only
      rw [List.getD_eq_getElem _ _ (by omega)]; exact List.getElem_mem _
  obtain ⟨p, i, m, hfit, -⟩ := C38_fit_func_min .log (fun k => weights.getD k 0)
    (fun k => (weights.map fun w => meanOfList (masks.map fun t => score t w)).getD k 0) weights.length h3 hgood
  obtain ⟨r, hr⟩ := hrun m.1
  refine ⟨r.1, m, hfit, ?_⟩
  have hch : d.choose rnd weights pe masks orders = .ok m.1 := by
    unfold Denoise.choose
    rw [hcv]
    have hl : avgs.length = weights.length := by rw [havg]; simp
    simp only [hl]
    rw [havg, hfit]
  match weights, h3 with
  | w0 :: w1 :: ws, _ =>
    simp only [denoiseImage, hch, Denoise.final, hr, if_true]

/-- Three weights for a one-pixel image: the hypotheses are met. -/
private noncomputable def cvPixel : Denoise (Fin 1) (Arr (Fin 1)) :=
  ⟨fun _ => 1, identityOp, denoiseTerm none, 1, fun lam => (l1Reg (.scalar lam) none (.new .l1 none)).toReg, none, fun _ _ => 0⟩

example : ScoredBy (cvPixel.task fun _ => 1) (fun _ _ => 1) [fun _ => 1, fun _ => 1, fun _ => 1] [1, 2, 3] ∧
    ∀ lam, ∃ r, cvPixel.solverExec (fun _ => 1) (cvPixel.solverInit lam) none = .ok r := by
  constructor
  · intro m hm lam hlam
    have hm : m = fun _ => 1 := by simpa using hm
    subst hm
    have hl : 0 < lam := by
      simp only [List.mem_cons, List.not_mem_nil, or_false] at hlam
      rcases hlam with rfl | rfl | rfl <;> norm_num
    refine ⟨fun _ => 0, ⟨1, none, some 0, some 1, [0], [1], 1⟩, ?_, ?_⟩
    · simp [cvPixel, Denoise.task, Denoise.solverExec, Denoise.solverInit, Denoise.args, Denoise.start, identityOp, pdhg, pdhgScaling,
        diagonalScaling, initBMasks, Bind.bind, Except.bind, applyMask, fixSmall, npMax,
        testTerm, prepareTest, isArrayBg, forRange, loopFrom, pdhgStep, recordResiduals, denoiseTerm, DataTerm.new, assignData, addBackground, computeSigmaData,
        computeSigma1, Attr.map, Attr.map₂, Attr.get, initialResiduals, Info.new, Except.map, l1Reg, RegState.toReg,
        RegState.updateDual, RegState.proxDual, RegState.updatePrimal, Kind.isL1, addRegUpdates, updateRegDuals,
        DataTerm.proxDual, DataTerm.updateDual, subSigmaData, innerNorm, applyThreshold, initializeDual, clipMask, clip1,
        DataTerm.residual, residualNorm]
      norm_num
      trivial
    · simp [cvLoss]
  · intro lam
    simp [cvPixel, Denoise.solverExec, Denoise.solverInit, Denoise.args, Denoise.start, identityOp, pdhg, pdhgScaling,
        diagonalScaling, initBMasks, Bind.bind, Except.bind, applyMask, fixSmall, npMax,
        testTerm, Except.map, l1Reg, RegState.toReg]

/-- C181 is violated: with two weights `denoise_image` fails, whatever the image, the options and the weights. -/
theorem C181_two_weights_violated (d : Denoise ν Q) (rnd : Arr ν) (w0 w1 : ℝ) (pe : ParallelEval) (masks : List (Arr ν))
    (orders : ℕ → List ℕ) : ∃ e, denoiseImage d rnd [w0, w1] pe masks orders = .error e := by
  simp only [denoiseImage]
  suffices h : ∃ e, d.choose rnd [w0, w1] pe masks orders = .error e by
    obtain ⟨e, he⟩ := h
    exact ⟨e, by rw [he]⟩
  unfold Denoise.choose
  cases cvCompute pe (d.task rnd) 3 masks [w0, w1] orders with
  | error e => exact ⟨e, rfl⟩
  | ok r =>
    simp only
    rw [C38_bad_lengths .log _ _ _ _ (by simp)]
    exact ⟨_, rfl⟩

/-- C182, partial: the reconstructions of the cross-validation depend on held-out pixels only through the start image: if two
images agree at the training pixels and their median-filtered images agree at the test pixels, the reconstructions are the
same. -/
theorem C182_held_out_partial (d : Denoise ν Q) (he : d.term.Elementwise) (img' : Arr ν) (rnd : Arr ν) (lam : ℝ) (m : Arr ν)
    (hm : Binary m) (hagree : ∀ i, m i = 0 → d.img i = img' i) (hmed : ∀ i, m i = 1 → d.med d.img i = d.med img' i) :
    (d.solverExec rnd (d.solverInit lam) (some m)).map (·.1) =
      (({ d with img := img' } : Denoise ν Q).solverExec rnd (d.solverInit lam) (some m)).map (·.1) := by
  set d' : Denoise ν Q := { d with img := img' } with hd'
  have hstart : d.start (some m) = d'.start (some m) := by
    funext i
    simp only [Denoise.start]
    rcases hm i with h | h
    · rw [h, if_neg (by norm_num), if_neg (by norm_num), hagree i h]
    · rw [h, if_pos (by norm_num), if_pos (by norm_num), hmed i h]
  have hargs : d.args (some m) = d'.args (some m) := by
    simp only [Denoise.args, hstart]; rfl
  have h := C02_pdhg_isolated (d.solverInit lam) d.op (d.args (some m)) d.img img' true rnd he (by
    intro i hi
    refine hagree i ((hm i).resolve_right (hi.2 m rfl)))
  have h' := congrArg (fun r => Except.map (fun p : Arr ν × ℕ × Option ℝ × Option ℝ × List ℝ × ℕ => p.1) r) h
  have e : ∀ r : Except Err (Arr ν × Info × Solver ν ν Q),
      Except.map (fun p : Arr ν × ℕ × Option ℝ × Option ℝ × List ℝ × ℕ => p.1) (trainingView r) = (r.map fun r => (r.1, r.2.1)).map (·.1) := by
    intro r; cases r <;> rfl
  simp only [e] at h'
  unfold Denoise.solverExec
  rw [← hargs]
  exact h'

/-- The example: 60 pixels of value 0, then the centre of value `v`, then 60 of value 1. -/
private noncomputable def leakImg (v : ℝ) : Arr (Fin 11 × Fin 11) := fun p =>
  if 11 * p.1.val + p.2.val < 60 then 0 else if 11 * p.1.val + p.2.val = 60 then v else 1

private theorem median_at_centre (v : ℝ) (h0 : 0 < v) (h1 : v < 1) : medfilt2d 11 (leakImg v) (5, 5) = v := by
  unfold medfilt2d
  have hval : (fun d : Fin 11 × Fin 11 =>
      let r : ℤ := ((5 : Fin 11) : ℕ) + (d.1 : ℤ) - (11 / 2 : ℕ)
      let c : ℤ := ((5 : Fin 11) : ℕ) + (d.2 : ℤ) - (11 / 2 : ℕ)
      if hr : 0 ≤ r ∧ r < (11 : ℕ) ∧ 0 ≤ c ∧ c < (11 : ℕ) then leakImg v (⟨r.toNat, by omega⟩, ⟨c.toNat, by omega⟩) else 0) =
      leakImg v := by
    funext d
    have e5 : (((5 : Fin 11) : ℕ) : ℤ) = 5 := rfl
    have ed : ((11 / 2 : ℕ) : ℤ) = 5 := by norm_num
    have hd1 := d.1.isLt
    have hd2 := d.2.isLt
    simp only [e5, ed]
    rw [dif_pos (by push_cast; omega)]
    congr 1
    refine Prod.ext (Fin.ext ?_) (Fin.ext ?_) <;> simp
  have hset : {t : ℝ | 11 * 11 / 2 + 1 ≤ (Finset.univ.filter fun d : Fin 11 × Fin 11 => leakImg v d ≤ t).card} = Set.Ici v := by
    ext t
    simp only [Set.mem_setOf_eq, Set.mem_Ici]
    constructor
    · intro hc
      by_contra hlt
      push Not at hlt
      have hsub : (Finset.univ.filter fun d : Fin 11 × Fin 11 => leakImg v d ≤ t) ⊆
          Finset.univ.filter fun d : Fin 11 × Fin 11 => 11 * d.1.val + d.2.val < 60 := by
        intro d hd
        simp only [mem_filter, mem_univ, true_and] at hd ⊢
        by_contra hn
        unfold leakImg at hd
        rw [if_neg hn] at hd
        split_ifs at hd <;> linarith
      have h60 : (Finset.univ.filter fun d : Fin 11 × Fin 11 => 11 * d.1.val + d.2.val < 60).card = 60 := by decide
      have := card_le_card hsub
      omega
    · intro hv
      have hsub : (Finset.univ.filter fun d : Fin 11 × Fin 11 => 11 * d.1.val + d.2.val ≤ 60) ⊆
          Finset.univ.filter fun d : Fin 11 × Fin 11 => leakImg v d ≤ t := by
        intro d hd
        simp only [mem_filter, mem_univ, true_and] at hd ⊢
        unfold leakImg
        split_ifs
        · linarith
        · exact hv
        · omega
      have h61 : (Finset.univ.filter fun d : Fin 11 × Fin 11 => 11 * d.1.val + d.2.val ≤ 60).card = 61 := by decide
      have := card_le_card hsub
      omega
  have key : ∀ f : Fin 11 × Fin 11 → ℝ, f = leakImg v →
      sInf {t : ℝ | 11 * 11 / 2 + 1 ≤ (Finset.univ.filter fun d : Fin 11 × Fin 11 => f d ≤ t).card} = v := by
    intro f hf
    rw [hf, hset, csInf_Ici]
  exact key _ hval

private noncomputable def leakD (v : ℝ) : Denoise (Fin 11 × Fin 11) (Arr (Fin 11 × Fin 11)) :=
  ⟨leakImg v, identityOp, denoiseTerm none, 1, fun lam => (l1Reg (.scalar lam) none (.new .l1 none)).toReg, none, medfilt2d 11⟩

private def leakMask : Arr (Fin 11 × Fin 11) := fun p => if p = (5, 5) then 1 else 0

private theorem leak_scaling : ∃ sigma tau, pdhgScaling ((leakD 0).solverInit (1 / 10)) identityOp
    ((leakD 0).args (some leakMask)) true (fun _ => 1) = .ok (sigma, tau) := by
  have hle : ∀ f : Arr (Fin 11 × Fin 11), f (0, 0) ≤ npMax f := fun f => le_ciSup (f := f) (Set.finite_range f).bddAbove (0, 0)
  simp only [pdhgScaling, identityOp, if_true, diagonalScaling, Denoise.solverInit, leakD, Denoise.args, initBMasks, applyMask,
    List.foldl_cons, List.foldl_nil, id, abs_one, l1Reg, RegState.toReg]
  rw [if_neg, if_neg]
  · exact ⟨_, _, rfl⟩
  · have := hle fun _ => 1
    intro h; rw [h] at this; norm_num at this
  · intro h
    have := hle fun j => |1 * (1 * (1 - leakMask j))| + 1
    have h0 : (0 : ℝ) ≤ |1 * (1 * (1 - leakMask (0, 0)))| := abs_nonneg _
    simp only [mul_one, one_mul] at this h h0
    rw [h] at this
    linarith

private theorem leak_run (sigma tau : Arr (Fin 11 × Fin 11)) (v : ℝ) (h0 : 1 / 10 ≤ v) (h1 : v < 1)
    (hsc : pdhgScaling ((leakD v).solverInit (1 / 10)) identityOp ((leakD v).args (some leakMask)) true (fun _ => 1) = .ok (sigma, tau)) :
    ∃ x, ((leakD v).solverExec (fun _ => 1) ((leakD v).solverInit (1 / 10)) (some leakMask)).map (·.1) = .ok x ∧
      x (5, 5) = v - 1 / 10 * tau (5, 5) := by
  obtain ⟨r, hr⟩ : ∃ r, pdhg ((leakD v).solverInit (1 / 10)) identityOp (leakD v).img ((leakD v).args (some leakMask)) true
      (fun _ => 1) = .ok r := by
    unfold pdhg
    rw [hsc]
    have hb : ¬ isArrayBg (((leakD v).solverInit (1 / 10)).term.background) := by
      simp [Denoise.solverInit, leakD, denoiseTerm, DataTerm.new, isArrayBg]
    have hb' : ((leakD v).solverInit (1 / 10)).termTest.background = ((leakD v).solverInit (1 / 10)).term.background := rfl
    simp only [Denoise.args, initBMasks, testTerm, prepareTest, assignData, Option.isSome_some, if_true, hb', Bind.bind, Except.bind]
    split_ifs with hc
    · exact absurd hc (not_or.2 ⟨hb, hb⟩)
    · exact ⟨_, rfl⟩
  refine ⟨r.1, ?_, ?_⟩
  · unfold Denoise.solverExec
    have : (leakD v).op = identityOp := rfl
    rw [this, hr]
    rfl
  · obtain ⟨sigma', tau', tt, h2, _, h3⟩ := pdhg_ok hr
    rw [hsc] at h2
    simp only [Except.ok.injEq, Prod.mk.injEq] at h2
    obtain ⟨rfl, rfl⟩ := h2
    have hx := congrArg Prod.fst h3
    dsimp only at hx
    rw [hx]
    have hit : ((leakD v).args (some leakMask)).iterations = 1 := rfl
    have hone : ∀ {S : Type} (step : ℕ → S → S × Bool) (s : S), forRange step 1 s = (step 0 s).1 := by
      intro S step s
      simp only [forRange, loopFrom]
      rcases step 0 s with ⟨t, b⟩
      cases b <;> rfl
    rw [hit, hone]
    have hregs : ((leakD v).solverInit (1 / 10)).regs = [(l1Reg (.scalar (1 / 10)) none (.new .l1 none)).toReg] := rfl
    have hst : (leakD v).start (some leakMask) (5, 5) = v := by
      simp only [Denoise.start, leakMask, if_true]
      rw [if_pos (by norm_num)]
      exact median_at_centre v (by linarith) h1
    have hclip : ∀ u, clipMask ((leakD v).args (some leakMask)) u = u := fun u => rfl
    have hq : (l1Reg (ν := Fin 11 × Fin 11) (.scalar (1 / 10)) none (.new .l1 none)).toReg.proxDual
        ((l1Reg (.scalar (1 / 10)) none (.new .l1 none)).toReg.updateDual (fun _ => 0) ((leakD v).start (some leakMask))) (5, 5) = 1 / 10 := by
      show (RegState.proxDual (l1Reg (.scalar (1 / 10)) none (.new .l1 none)) _) (5, 5) = 1 / 10
      unfold RegState.proxDual
      have hk : (l1Reg (.scalar (1 / 10 : ℝ)) none (.new .l1 none) : RegState (Fin 11 × Fin 11) _).norm.kind.isL1 = true := rfl
      rw [if_pos hk]
      have hu : (l1Reg (ν := Fin 11 × Fin 11) (.scalar (1 / 10)) none (.new .l1 none)).toReg.updateDual (fun _ => 0)
          ((leakD v).start (some leakMask)) (5, 5) = v := by
        show (0 : ℝ) + 1 * (leakD v).start (some leakMask) (5, 5) = v
        rw [hst]; ring
      simp only [proxDual, l1Reg, DataTerm.new, assignData, subSigmaData, computeSigmaData, applyThreshold, innerNorm, Attr.get] at hu ⊢
      rw [hu, abs_of_pos (by linarith), max_eq_left h0]
      have : v ≠ 0 := by linarith
      field_simp
    simp only [pdhgStep, hregs, hclip, List.map_cons, List.map_nil, updateRegDuals, addRegUpdates]
    have hadj : ∀ P : Arr (Fin 11 × Fin 11), identityOp.adj (applyMask (initBMasks ((leakD v).args (some leakMask)).bMask
        ((leakD v).args (some leakMask)).bTestMask).1 P) (5, 5) = 0 := by
      intro P
      simp [identityOp, applyMask, initBMasks, Denoise.args, leakMask]
    have hup : ∀ q : Arr (Fin 11 × Fin 11), ((l1Reg (.scalar (1 / 10)) none (.new .l1 none)).toReg.updatePrimal q).1 (5, 5) = q (5, 5) := by
      intro q
      have hk : (l1Reg (.scalar (1 / 10 : ℝ)) none (.new .l1 none) : RegState (Fin 11 × Fin 11) _).norm.kind.isL1 = true := rfl
      simp only [RegState.toReg, RegState.updatePrimal, hk, if_true]
      rfl
    have hx0 : ((leakD v).args (some leakMask)).x0.getD (fun _ => 0) = (leakD v).start (some leakMask) := rfl
    rw [hadj, hx0, hst, hup]
    have hi : (l1Reg (ν := Fin 11 × Fin 11) (.scalar (1 / 10)) none (.new .l1 none)).toReg.initDual = fun _ => 0 := rfl
    rw [hi, hq]
    ring

/-- C182 is violated: the start image of the cross-validation runs is median filtered including the held-out pixels. Two 11×11
images which differ at the (only) test pixel give different reconstructions. -/
theorem C182_held_out_violated : ¬ ∀ (d : Denoise (Fin 11 × Fin 11) (Arr (Fin 11 × Fin 11))) (img' rnd : Arr (Fin 11 × Fin 11)) (lam : ℝ)
    (m : Arr (Fin 11 × Fin 11)), d.op = identityOp → d.term = denoiseTerm none → d.med = medfilt2d 11 → 0 < d.iterations →
    Binary m → (∀ i, m i = 0 → d.img i = img' i) →
    (d.solverExec rnd (d.solverInit lam) (some m)).map (·.1) =
      (({ d with img := img' } : Denoise _ _).solverExec rnd (d.solverInit lam) (some m)).map (·.1) := by
  intro h
  obtain ⟨sigma, tau, hsc⟩ := leak_scaling
  have hsc' : ∀ v, pdhgScaling ((leakD v).solverInit (1 / 10)) identityOp ((leakD v).args (some leakMask)) true (fun _ => 1) =
    .ok (sigma, tau) := fun v => hsc
  obtain ⟨x, hx, hxv⟩ := leak_run sigma tau (1 / 4) (by norm_num) (by norm_num) (hsc' _)
  obtain ⟨y, hy, hyv⟩ := leak_run sigma tau (3 / 4) (by norm_num) (by norm_num) (hsc' _)
  have := h (leakD (1 / 4)) (leakImg (3 / 4)) (fun _ => 1) (1 / 10) leakMask rfl rfl rfl one_pos
    (fun i => by unfold leakMask; split_ifs <;> simp) (fun i hi => by
      have hne : i ≠ (5, 5) := by rintro rfl; simp [leakMask] at hi
      show leakImg (1 / 4) i = leakImg (3 / 4) i
      unfold leakImg
      have : 11 * i.1.val + i.2.val ≠ 60 := by
        intro hc
        refine hne (Prod.ext (Fin.ext ?_) (Fin.ext ?_)) <;>
        · have h1 := i.1.isLt
          have h2 := i.2.isLt
          show _ = 5
          omega
      rw [if_neg this, if_neg this])
  have hy' : (({ leakD (1 / 4) with img := leakImg (3 / 4) } : Denoise _ _).solverExec (fun _ => 1) ((leakD (1 / 4)).solverInit (1 / 10))
    (some leakMask)).map (·.1) = .ok y := hy
  rw [hx, hy'] at this
  simp only [Except.ok.injEq] at this
  rw [this, hyv] at hxv
  linarith

example : ∃ (d : Denoise (Fin 11 × Fin 11) (Arr (Fin 11 × Fin 11))), d.term.Elementwise ∧ d.med = medfilt2d 11 ∧ d.op = identityOp :=
  ⟨leakD 0, trivial, rfl, rfl⟩

end Verif
