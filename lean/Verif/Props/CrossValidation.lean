import Verif.Model.ParamTuning
import Verif.Props.SolversAccounting
import Verif.Lemmas.ProxGrad

/-! # C44, C70: the cross-validation score -/

namespace Verif
open Classical DataTerm

variable {ν ι Q : Type} [Fintype ν] [Fintype ι]

/-- The residual norm, by the given test data term, of the difference between data and (background-corrected) projection of
`x` over the test pixels that the data mask does not exclude. -/
noncomputable def testResidual (termTest : DataTerm ι) (A : Operator ν ι) (bMask : Option (Arr ι)) (test : Arr ι)
    (x : Arr ν) : ℝ :=
  termTest.residualNorm (termTest.residual (A.fwd x) (some fun i => test i * bMask.elim 1 (fun m => m i)))

omit [Fintype ν] [Fintype ι] in
private theorem test_mask (a : Args ν ι) {test : Arr ι} (ht : a.bTestMask = some test) :
    (initBMasks a.bMask a.bTestMask).2 = some fun i => test i * a.bMask.elim 1 (fun m => m i) := by
  rw [ht]; cases h : a.bMask <;> simp [initBMasks]

/-- If every iteration records `f` of its outcome as test residual, the last executed entry is `f` of the final state. -/
private theorem loop_last_cv {S : Type} {step : ℕ → S → S × Bool} {info : S → Info} {n : ℕ} {tol : Option ℝ} {s : S}
    (f : S → ℝ) (h0 : LoopInv n tol 0 (info s)) (hs : ∀ k s, RecStep tol k (info s) (info (step k s).1) (step k s).2)
    (hf : ∀ k s, (info (step k s).1).residualsCv = (info s).residualsCv.set k (f (step k s).1)) (hn : 1 ≤ n) :
    (info (forRange step n s)).residualsCv[(info (forRange step n s)).iterations - 1]? = some (f (forRange step n s)) := by
  refine forRange_ind (P := fun k s => LoopInv n tol k (info s) ∧ (1 ≤ k → (info s).residualsCv[k - 1]? = some (f s)))
    (R := fun s => (info s).residualsCv[(info s).iterations - 1]? = some (f s))
    ⟨h0, fun h => absurd h (by omega)⟩ ?_ ?_ ?_
  · rintro k s hk ⟨hI, -⟩ hb
    refine ⟨hI.continue hk (hb ▸ hs k s), fun _ => ?_⟩
    rw [hf, Nat.add_sub_cancel, List.getElem?_set_self (by rw [hI.lengthCv]; exact hk)]
  · rintro k s hk ⟨hI, -⟩ hb
    rw [(hs k s).it, hI.it, hf, Nat.add_sub_cancel, List.getElem?_set_self (by rw [hI.lengthCv]; exact hk)]
  · rintro s ⟨hI, h2⟩
    rw [hI.it]
    exact h2 hn

private theorem record_cv {t tt : DataTerm ι} {bm : Option (Arr ι)} {m : Arr ι} {tol : Option ℝ} {k : ℕ} {Ax : Arr ι}
    {i : Info} : (recordResiduals t tt bm (some m) tol k Ax i).1.residualsCv =
      i.residualsCv.set k (tt.residualNorm (tt.residual Ax (some m))) := by
  unfold recordResiduals
  rw [if_pos (show (some m).isSome = true ∨ _ by simp)]

private theorem record_r0 {t tt : DataTerm ι} {bm tm : Option (Arr ι)} {tol : Option ℝ} {k : ℕ} {Ax : Arr ι}
    {i : Info} : (recordResiduals t tt bm tm tol k Ax i).1.residual0Cv = i.residual0Cv := by
  unfold recordResiduals
  split_ifs <;> cases tm <;> rfl

private theorem initial_r0 {t tt : DataTerm ι} {bm : Option (Arr ι)} {m : Arr ι} {tol : Option ℝ} {Ax : Arr ι}
    {i : Info} : (initialResiduals t tt bm (some m) tol Ax i).residual0Cv =
      some (tt.residualNorm (tt.residual Ax (some m))) := by
  unfold initialResiduals
  rw [if_pos (show (some m).isSome = true ∨ _ by simp)]

private theorem cvLoss_eq {info : Info} {n : ℕ} {r r0 : ℝ} (h0 : info.residual0Cv = some r0) (hr0 : r0 ≠ 0)
    (hn : 1 ≤ n) (hl : info.residualsCv.length = n) (hr : info.residualsCv[n - 1]? = some r) :
    cvLoss info = some (r / r0) := by
  unfold cvLoss
  rw [h0]
  dsimp only
  rw [if_neg hr0, List.getLast?_eq_getElem?, hl, hr]
  rfl

/-- C44, PDHG: without a tolerance, the cross-validation score is the test residual of the returned volume relative to that
of the start volume. `S'.termTest` is the test data term the solver used. -/
theorem C44_pdhg_score {S : Solver ν ι Q} {A : Operator ν ι} {b : Arr ι} {a : Args ν ι} {pc rnd x info S'} {test : Arr ι}
    (h : pdhg S A b a pc rnd = .ok (x, info, S')) (hn : 1 ≤ a.iterations) (ht : a.bTestMask = some test)
    (htol : S.tolerance = none) (h0 : testResidual S'.termTest A a.bMask test (startVolume a 0) ≠ 0) :
    cvLoss info = some (testResidual S'.termTest A a.bMask test x /
      testResidual S'.termTest A a.bMask test (startVolume a 0)) := by
  have hacc := C05_pdhg_accounting h
  have hit : info.iterations = a.iterations := C05_no_tolerance_runs_all (htol ▸ hacc)
  obtain ⟨sigma, tau, tt, -, -, hr⟩ := pdhg_ok h
  simp only [Prod.mk.injEq] at hr
  obtain ⟨hx, hi, hS⟩ := hr
  have hR0 : info.residual0Cv = some (testResidual S'.termTest A a.bMask test (startVolume a 0)) := by
    rw [hi, hS]
    refine forRange_inv (P := fun s : PDState ν ι Q => s.info.residual0Cv = _) ?_ ?_
    · rw [test_mask a ht]; exact initial_r0 (tol := S.tolerance)
    · intro k s hs
      exact record_r0.trans hs
  have hL : info.residualsCv[a.iterations - 1]? = some (testResidual S'.termTest A a.bMask test x) := by
    rw [← hit, hi, hS, hx]
    refine loop_last_cv (info := PDState.info) (tol := S.tolerance) (fun s => testResidual tt A a.bMask test s.x)
      (inv_initial _ _ _ _ _ _ _) (fun k s => recStep_record) (fun k s => ?_) hn
    rw [test_mask a ht]
    exact record_cv (tol := S.tolerance)
  exact cvLoss_eq hR0 h0 hn hacc.lengthCv hL

/-- C44, FISTA: the same; the start volume is masked first. -/
theorem C44_fista_score {S : Solver ν ι Q} {A : Operator ν ι} {b : Arr ι} {a : Args ν ι} {pc rnd x info S'} {test : Arr ι}
    (h : fista S A b a pc rnd = .ok (x, info, S')) (hn : 1 ≤ a.iterations) (ht : a.bTestMask = some test)
    (htol : S.tolerance = none)
    (h0 : testResidual S'.termTest A a.bMask test (applyMask a.xMask (startVolume a 0)) ≠ 0) :
    cvLoss info = some (testResidual S'.termTest A a.bMask test x /
      testResidual S'.termTest A a.bMask test (applyMask a.xMask (startVolume a 0))) := by
  have hacc := C05_fista_accounting h
  have hit : info.iterations = a.iterations := C05_no_tolerance_runs_all (htol ▸ hacc)
  obtain ⟨sigma, tau, tt, -, -, hr⟩ := fista_ok h
  simp only [Prod.mk.injEq] at hr
  obtain ⟨hx, hi, hS⟩ := hr
  have hR0 : info.residual0Cv =
      some (testResidual S'.termTest A a.bMask test (applyMask a.xMask (startVolume a 0))) := by
    rw [hi, hS]
    refine forRange_inv (P := fun s : FState ν => s.info.residual0Cv = _) ?_ ?_
    · rw [test_mask a ht]; exact initial_r0 (tol := S.tolerance)
    · intro k s hs
      exact record_r0.trans hs
  have hL : info.residualsCv[a.iterations - 1]? = some (testResidual S'.termTest A a.bMask test x) := by
    rw [← hit, hi, hS, hx]
    refine loop_last_cv (info := FState.info) (tol := S.tolerance) (fun s => testResidual tt A a.bMask test s.x)
      (inv_initial _ _ _ _ _ _ _) (fun k s => recStep_record) (fun k s => ?_) hn
    rw [test_mask a ht]
    exact record_cv (tol := S.tolerance)
  exact cvLoss_eq hR0 h0 hn hacc.lengthCv hL

/-- C70: in any run that stops early (any solver with the accounting contract of C05), the score is 0 — "perfect" —
whatever the test residual of the returned volume is. -/
theorem C70_early_stop_score {n : ℕ} {tol : Option ℝ} {info : Info} (h : Accounted n tol info)
    (hs : info.iterations < n) (h0 : info.residual0Cv ≠ some 0) : cvLoss info = some 0 := by
  unfold cvLoss
  rw [List.getLast?_eq_getElem?]
  obtain ⟨v, hv⟩ : ∃ v, info.residualsCv[info.residualsCv.length - 1]? = some v :=
    ⟨_, List.getElem?_eq_getElem (by have := h.lengthCv; omega)⟩
  rw [hv, h.unusedZeroCv _ (by have := h.lengthCv; omega) v hv]
  cases hr : info.residual0Cv with
  | none => rfl
  | some r0 =>
    dsimp only
    rw [if_neg (fun e => h0 (by rw [hr, e]))]
    simp

/-- C70 is violated: a SIRT run that stops early; the returned volume has (squared) test residual 16, but the cross-validation score
is 0. -/
theorem C70_score_after_early_stop_violated :
    ∃ (x : Arr (Fin 1)) (info : Info) (S' : Solver (Fin 1) (Fin 2) Unit),
      sirt (Q := Unit) ⟨1, some 1, [], .new .l2 none, .new .l2 none, none⟩ (matrixOp fun (_ : Fin 2) (_ : Fin 1) => 1)
        ![1, 5] { iterations := 2, x0 := some fun _ => 1, bTestMask := some ![0, 1] } = .ok (x, info, S') ∧
      cvLoss info = some 0 ∧
      testResidual S'.termTest (matrixOp fun (_ : Fin 2) (_ : Fin 1) => 1) none ![0, 1] x = 16 := by
  have key : (sirt (Q := Unit) ⟨1, some 1, [], .new .l2 none, .new .l2 none, none⟩
      (matrixOp fun (_ : Fin 2) (_ : Fin 1) => 1)
        ![1, 5] { iterations := 2, x0 := some fun _ => 1, bTestMask := some ![0, 1] }).map
        (fun r => (r.1, r.2.1.iterations, r.2.1.residual0Cv,
          testResidual r.2.2.termTest (matrixOp fun (_ : Fin 2) (_ : Fin 1) => 1) none ![0, 1] r.1))
        = .ok (fun _ => 1, 1, some 16, 16) := by
    simp [sirt, diagonalScaling, npMax, absOrSelf, matrixOp, initBMasks, bind, Except.bind, applyMask, testTerm, forRange,
        loopFrom, sirtStep, recordResiduals, DataTerm.new, assignData, DataTerm.residual, addBackground, residualNorm,
        Attr.get, initialResiduals, Info.new, Except.map, prepareTest, isArrayBg, testResidual, Fin.sum_univ_two]
    norm_num
  rcases h : sirt (Q := Unit) ⟨1, some 1, [], .new .l2 none, .new .l2 none, none⟩
      (matrixOp fun (_ : Fin 2) (_ : Fin 1) => 1)
        ![1, 5] { iterations := 2, x0 := some fun _ => 1, bTestMask := some ![0, 1] } with e | ⟨x, info, S'⟩
  · rw [h] at key; simp [Except.map] at key
  · rw [h] at key
    simp only [Except.map, Except.ok.injEq, Prod.mk.injEq] at key
    obtain ⟨-, h2, h3, h4⟩ := key
    exact ⟨x, info, S', rfl, C70_early_stop_score (C05_sirt_accounting h) (by rw [h2]; norm_num) (by rw [h3]; norm_num), h4⟩

/-- C70, the part that holds for SIRT: without a tolerance, the score is that of the volume one iteration *before* the
returned one, i.e. the volume returned when asking for one iteration less. Missing: the returned volume itself, and runs
that stop early. -/
theorem C70_sirt_score_partial {S : Solver ν ι Q} {A : Operator ν ι} {b : Arr ι} {a : Args ν ι} {x info S'} {test : Arr ι}
    (h : sirt S A b a = .ok (x, info, S')) (hn : 1 ≤ a.iterations) (ht : a.bTestMask = some test)
    (htol : S.tolerance = none) (h0 : testResidual S'.termTest A a.bMask test (startVolume a 0) ≠ 0) :
    ∃ x' info' S'', sirt S A b { a with iterations := a.iterations - 1 } = .ok (x', info', S'') ∧
      cvLoss info = some (testResidual S'.termTest A a.bMask test x' /
        testResidual S'.termTest A a.bMask test (startVolume a 0)) := by
  have hacc := C05_sirt_accounting h
  have hit : info.iterations = a.iterations := C05_no_tolerance_runs_all (htol ▸ hacc)
  obtain ⟨sigma, tau, tt, hsc, htt, hr⟩ := sirt_ok h
  simp only [Prod.mk.injEq] at hr
  obtain ⟨-, hi, hS⟩ := hr
  have hR0 : info.residual0Cv = some (testResidual S'.termTest A a.bMask test (startVolume a 0)) := by
    rw [hi, hS]
    refine forRange_inv (P := fun s : XState ν => s.info.residual0Cv = _) ?_ ?_
    · rw [test_mask a ht]; exact initial_r0 (tol := S.tolerance)
    · intro k s hs
      rw [sirtStep_cases]
      exact record_r0.trans hs
  set T := S.term.assignData (some (.array b)) (.array sigma) with hT
  set bm := (initBMasks a.bMask a.bTestMask).1 with hbm
  set tm := (initBMasks a.bMask a.bTestMask).2 with htm
  set f : Arr ν → Arr ν := fun x => clipMask a fun j => x j + (S.regs.foldl (fun u r => fun j =>
      u j - (r.updatePrimal (r.proxDual (r.updateDual r.initDual x))).1 j)
        (A.adj fun i => T.residual (A.fwd x) bm i * sigma i)) j * tau j with hf
  have hstep : ∀ (a' : Args ν ι) k (s : XState ν), a' = a ∨ a' = { a with iterations := a.iterations - 1 } →
      sirtStep A a' S.regs T tt bm tm sigma tau S.tolerance k s =
      (⟨f s.x, (recordResiduals T tt bm tm none k (A.fwd s.x) { s.info with iterations := s.info.iterations + 1 }).1⟩,
        false) := by
    intro a' k s ha'
    rw [sirtStep_cases, htol, recordResiduals_noTol]
    rcases ha' with rfl | rfl <;> rfl
  have hrun : sirt S A b { a with iterations := a.iterations - 1 } = .ok
      ((forRange (sirtStep A { a with iterations := a.iterations - 1 } S.regs T tt bm tm sigma tau S.tolerance)
        (a.iterations - 1) ⟨startVolume a 0, initialResiduals T tt bm tm S.tolerance (A.fwd (startVolume a 0))
          (Info.new (a.iterations - 1) S.tolerance)⟩).x,
       (forRange (sirtStep A { a with iterations := a.iterations - 1 } S.regs T tt bm tm sigma tau S.tolerance)
        (a.iterations - 1) ⟨startVolume a 0, initialResiduals T tt bm tm S.tolerance (A.fwd (startVolume a 0))
          (Info.new (a.iterations - 1) S.tolerance)⟩).info, { S with term := T, termTest := tt }) := by
    unfold sirt
    rcases hm : initBMasks a.bMask a.bTestMask with ⟨bm', tm'⟩
    rw [hm] at hbm htm
    dsimp only at hbm htm
    subst hbm htm
    simp only [bind, Except.bind, hsc]
    rw [← hT]
    simp only [htt]
    rfl
  refine ⟨_, _, _, hrun, ?_⟩
  have hx' : (forRange (sirtStep A { a with iterations := a.iterations - 1 } S.regs T tt bm tm sigma tau S.tolerance)
        (a.iterations - 1) ⟨startVolume a 0, initialResiduals T tt bm tm S.tolerance (A.fwd (startVolume a 0))
          (Info.new (a.iterations - 1) S.tolerance)⟩).x = f^[a.iterations - 1] (startVolume a 0) :=
    forRange_noBreak XState.x f (fun k s => by rw [hstep _ k s (Or.inr rfl)]) (fun k s => by rw [hstep _ k s (Or.inr rfl)])
      _ _
  have hL : info.residualsCv[a.iterations - 1]? =
      some (testResidual tt A a.bMask test (f^[a.iterations - 1] (startVolume a 0))) := by
    rw [hi]
    refine forRange_ind (P := fun k (s : XState ν) => LoopInv a.iterations S.tolerance k s.info ∧
        s.x = f^[k] (startVolume a 0) ∧ (1 ≤ k → s.info.residualsCv[k - 1]? =
          some (testResidual tt A a.bMask test (f^[k - 1] (startVolume a 0)))))
      (R := fun s : XState ν => s.info.residualsCv[a.iterations - 1]? =
          some (testResidual tt A a.bMask test (f^[a.iterations - 1] (startVolume a 0))))
      ⟨inv_initial _ _ _ _ _ _ _, rfl, fun h => absurd h (by omega)⟩ ?_ ?_ ?_
    · rintro k s hk ⟨hI, hx, -⟩ hb
      rw [hstep a k s (Or.inl rfl)] at hb ⊢
      refine ⟨hI.continue hk ?_, ?_, fun _ => ?_⟩
      · have := recStep_record (t := T) (tt := tt) (bm := bm) (tm := tm) (tol := S.tolerance) (k := k) (Ax := A.fwd s.x)
          (i := s.info)
        rw [htol] at this ⊢
        rwa [recordResiduals_noTol] at this
      · rw [Function.iterate_succ_apply', ← hx]
      · rw [Nat.add_sub_cancel, ← hx]
        dsimp only
        rw [show tm = _ from test_mask a ht, record_cv, List.getElem?_set_self (by simp [hI.lengthCv, hk])]
        rfl
    · rintro k s hk ⟨hI, hx, -⟩ hb
      rw [hstep a k s (Or.inl rfl)] at hb
      cases hb
    · rintro s ⟨-, -, h3⟩
      exact h3 hn
  rw [hx']
  refine cvLoss_eq hR0 h0 hn hacc.lengthCv ?_
  rw [hL, hS]

/-- Example: a cross-validated PDHG run meeting the hypotheses of `C44_pdhg_score`. -/
example : ∃ (x : Arr (Fin 1)) (info : Info) (S' : Solver (Fin 1) (Fin 2) Unit),
      pdhg (Q := Unit) ⟨1, none, [], .new .l2 none, .new .l2 none, none⟩ (matrixOp fun (_ : Fin 2) (_ : Fin 1) => 1)
        ![1, 5] { iterations := 3, bTestMask := some ![0, 1] } true ![1, 1] = .ok (x, info, S') ∧
      testResidual S'.termTest (matrixOp fun (_ : Fin 2) (_ : Fin 1) => 1) none ![0, 1] (fun _ => 0) = 25 := by
  have key : (pdhg (Q := Unit) ⟨1, none, [], .new .l2 none, .new .l2 none, none⟩
      (matrixOp fun (_ : Fin 2) (_ : Fin 1) => 1)
        ![1, 5] { iterations := 3, bTestMask := some ![0, 1] } true ![1, 1]).map
        (fun r => testResidual r.2.2.termTest (matrixOp fun (_ : Fin 2) (_ : Fin 1) => 1) none ![0, 1] (fun _ => 0))
        = .ok 25 := by
    simp [pdhg, pdhgScaling, diagonalScaling, npMax, absOrSelf, matrixOp, initBMasks, bind, Except.bind, applyMask, testTerm,
        DataTerm.new, assignData, DataTerm.residual, addBackground, residualNorm,
        Attr.get, Except.map, prepareTest, isArrayBg, testResidual, Fin.sum_univ_two]
    norm_num
  rcases h : pdhg (Q := Unit) ⟨1, none, [], .new .l2 none, .new .l2 none, none⟩
      (matrixOp fun (_ : Fin 2) (_ : Fin 1) => 1)
        ![1, 5] { iterations := 3, bTestMask := some ![0, 1] } true ![1, 1] with e | ⟨x, info, S'⟩
  · rw [h] at key; simp [Except.map] at key
  · rw [h] at key
    simp only [Except.map, Except.ok.injEq] at key
    exact ⟨x, info, S', rfl, key⟩

/-! ## C247: runs without test pixels -/

/-- No test residual was recorded, although there was room for some. -/
private def NoTest (n : ℕ) (i : Info) : Prop := i.residual0Cv = none ∧ i.residualsCv.length = n

private theorem noTest_score {n : ℕ} (hn : 1 ≤ n) {i : Info} (h : NoTest n i) : cvLoss i = some 0 := by
  unfold cvLoss
  rw [h.1]
  dsimp only
  rw [List.getLast?_eq_getElem?, List.getElem?_eq_getElem (by have := h.2; omega)]
  rfl

omit [Fintype ν] in
private theorem noTest_mask (a : Args ν ι) (ht : a.bTestMask = none) : (initBMasks a.bMask a.bTestMask).2 = none := by rw [ht]; rfl

private theorem noTest_record {n : ℕ} {t tt : DataTerm ι} {bm : Option (Arr ι)} {tol : Option ℝ} {k : ℕ} {Ax : Arr ι} {i : Info} (h : NoTest n i) :
    NoTest n (recordResiduals t tt bm none tol k Ax { i with iterations := i.iterations + 1 }).1 := by
  unfold recordResiduals
  split_ifs <;> exact h

private theorem noTest_initial {t tt : DataTerm ι} {bm : Option (Arr ι)} {tol : Option ℝ} {Ax : Arr ι} {n : ℕ} :
    NoTest n (initialResiduals t tt bm none tol Ax (Info.new n tol)) := by
  unfold initialResiduals
  split_ifs <;> exact ⟨rfl, by simp [Info.new]⟩

/-- C247 is violated by SIRT: if the task does not hand the test mask on, every cross-validation score is 0, the best possible. -/
theorem C247_sirt_violated {S : Solver ν ι Q} {A : Operator ν ι} {b : Arr ι} {a : Args ν ι} {x info S'} (h : sirt S A b a = .ok (x, info, S'))
    (hn : 1 ≤ a.iterations) (ht : a.bTestMask = none) : cvLoss info = some 0 := by
  obtain ⟨sigma, tau, tt, -, -, hr⟩ := sirt_ok h
  simp only [Prod.mk.injEq, noTest_mask a ht] at hr
  rw [hr.2.1]
  refine noTest_score hn (forRange_inv (P := fun s : XState ν => NoTest a.iterations s.info) (noTest_initial (tt := tt)) fun k s hs => ?_)
  rw [sirtStep_cases]
  exact noTest_record (tt := tt) hs

/-- C247 is violated by PDHG. -/
theorem C247_pdhg_violated {S : Solver ν ι Q} {A : Operator ν ι} {b : Arr ι} {a : Args ν ι} {pc rnd x info S'} (h : pdhg S A b a pc rnd = .ok (x, info, S'))
    (hn : 1 ≤ a.iterations) (ht : a.bTestMask = none) : cvLoss info = some 0 := by
  obtain ⟨sigma, tau, tt, -, -, hr⟩ := pdhg_ok h
  simp only [Prod.mk.injEq, noTest_mask a ht] at hr
  rw [hr.2.1]
  exact noTest_score hn (forRange_inv (P := fun s : PDState ν ι Q => NoTest a.iterations s.info) (noTest_initial (tt := tt)) fun k s hs => noTest_record (tt := tt) hs)

/-- C247 is violated by FISTA. -/
theorem C247_fista_violated {S : Solver ν ι Q} {A : Operator ν ι} {b : Arr ι} {a : Args ν ι} {pc rnd x info S'} (h : fista S A b a pc rnd = .ok (x, info, S'))
    (hn : 1 ≤ a.iterations) (ht : a.bTestMask = none) : cvLoss info = some 0 := by
  obtain ⟨sigma, tau, tt, -, -, hr⟩ := fista_ok h
  simp only [Prod.mk.injEq, noTest_mask a ht] at hr
  rw [hr.2.1]
  exact noTest_score hn (forRange_inv (P := fun s : FState ν => NoTest a.iterations s.info) (noTest_initial (tt := tt)) fun k s hs => noTest_record (tt := tt) hs)

/-- C247 is violated by SART, which has no test mask: all its scores are 0. -/
theorem C247_sart_violated {na nu : ℕ} {S : Solver ν (Fin na × Fin nu) Q} {A : AngleOp ν na nu} {b : Fin na × Fin nu → ℝ} {a : Args ν (Fin na × Fin nu)}
    {rows : List (Fin na)} {x info} (h : sart S A b a rows = .ok (x, info)) (hn : 1 ≤ a.iterations) : cvLoss info = some 0 := by
  obtain ⟨sigma, tau, -, -, hr⟩ := sart_ok h
  simp only [Prod.mk.injEq] at hr
  rw [hr.2]
  refine noTest_score hn (forRange_inv (P := fun s : XState ν => NoTest a.iterations s.info) ?_ fun k s hs => ?_)
  · dsimp only
    exact ⟨rfl, by simp [Info.new]⟩
  · unfold sartStep
    cases S.tolerance <;> exact hs

/-- C247, the part that holds: a result without iterations (that of FBP, src/corrct/solvers.py:443) is noticed. -/
theorem C247_fbp_partial (tol : Option ℝ) : cvLoss (Info.new 0 tol) = none := rfl

end Verif
