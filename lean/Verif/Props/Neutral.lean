import Verif.Props.Slices
import Verif.Props.Regularizers

/-! # C276: options given with their neutral values -/

namespace Verif
open Classical DataTerm

variable {ν ι Q : Type} [Fintype ν] [Fintype ι]

/-- `new` is the option `old`, or it is `neutral` where `old` is not given. -/
def Spelled {X : Type} (neutral : X) (old new : Option X) : Prop := new = old ∨ (old = none ∧ new = some neutral)

/-- `a'` is the call `a` with some of the options that `a` leaves out given explicitly: the start (`start` in every voxel), masks that are 1 everywhere and a test
mask that is 0 everywhere. -/
structure SpelledOut (start : ℝ) (a a' : Args ν ι) : Prop where
  iterations : a'.iterations = a.iterations
  x0 : Spelled (fun _ => start) a.x0 a'.x0
  lower : a'.lower = a.lower
  upper : a'.upper = a.upper
  xMask : Spelled (fun _ => 1) a.xMask a'.xMask
  bMask : Spelled (fun _ => 1) a.bMask a'.bMask
  bTestMask : Spelled (fun _ => 0) a.bTestMask a'.bTestMask

/-- `S'` is the solver `S`, perhaps with an explicit background 0 of its data term. -/
def SpelledBackground (S S' : Solver ν ι Q) : Prop :=
  ∃ bg, Spelled (.scalar 0) S.term.background bg ∧ S' = { S with term := { S.term with background := bg } }

/-- No background is an array (a test mask with array backgrounds makes the call fail, C02). -/
def ScalarBackgrounds (S : Solver ν ι Q) : Prop := ¬ isArrayBg S.term.background ∧ ¬ isArrayBg S.termTest.background

omit [Fintype ν] [Fintype ι] in
private theorem applyMask_spelled {X : Type} {m m' : Option (Arr X)} (h : Spelled (fun _ => 1) m m') : applyMask m' = applyMask m := by
  rcases h with rfl | ⟨rfl, rfl⟩
  · rfl
  · funext r i
    simp [applyMask]

omit [Fintype ν] [Fintype ι] in
private theorem applyMask_init {m m' t t' : Option (Arr ι)} (h : Spelled (fun _ => 1) m m') (ht : Spelled (fun _ => 0) t t') :
    applyMask (initBMasks m' t').1 = applyMask (initBMasks m t).1 := by
  rcases h with rfl | ⟨rfl, rfl⟩ <;> rcases ht with rfl | ⟨rfl, rfl⟩
  · rfl
  · funext r i
    cases m' <;> simp [applyMask, initBMasks]
  · funext r i
    cases t' <;> simp [applyMask, initBMasks]
  · funext r i
    simp [applyMask, initBMasks]

private theorem residual_mask (t : DataTerm ι) (p : Arr ι) {m m' : Option (Arr ι)} (h : applyMask m' = applyMask m) : t.residual p m' = t.residual p m := by
  unfold DataTerm.residual
  simp only [h]

omit [Fintype ι] in
private theorem addBackground_spelled {t : DataTerm ι} {bg : Option (Attr ι)} (h : Spelled (.scalar 0) t.background bg) (p : Arr ι) :
    ({ t with background := bg } : DataTerm ι).addBackground p = t.addBackground p := by
  rcases h with rfl | ⟨h, rfl⟩
  · rfl
  · funext i
    simp [DataTerm.addBackground, h, Attr.get]

omit [Fintype ι] in
private theorem updateDual_spelled {t : DataTerm ι} {bg : Option (Attr ι)} (h : Spelled (.scalar 0) t.background bg) (d p : Arr ι) :
    ({ t with background := bg } : DataTerm ι).updateDual d p = t.updateDual d p := by
  rcases h with rfl | ⟨h, rfl⟩
  · rfl
  · funext i
    simp [DataTerm.updateDual, h, Attr.get]

private theorem residual_spelled {t : DataTerm ι} {bg : Option (Attr ι)} (h : Spelled (.scalar 0) t.background bg) (p : Arr ι) (m : Option (Arr ι)) :
    ({ t with background := bg } : DataTerm ι).residual p m = t.residual p m := by
  unfold DataTerm.residual
  simp only [addBackground_spelled h]
  rfl

omit [Fintype ι] in
private theorem isArrayBg_spelled {o bg : Option (Attr ι)} (h : Spelled (.scalar 0) o bg) : isArrayBg bg ↔ isArrayBg o := by
  rcases h with rfl | ⟨rfl, rfl⟩ <;> simp [isArrayBg]

omit [Fintype ν] [Fintype ι] in
private theorem testTerm_spelled {t tt : DataTerm ι} {bg : Option (Attr ι)} (h : Spelled (.scalar 0) t.background bg) {m m' : Option (Arr ι)}
    (hm : Spelled (fun _ => 0) m m') (hs : m' = m ∨ (¬ isArrayBg t.background ∧ ¬ isArrayBg tt.background)) (k k' : Option (Arr ι)) (b : Arr ι) (s : Attr ι) :
    (testTerm (initBMasks k' m').2 (({ t with background := bg } : DataTerm ι).assignData (some (.array b)) s) tt b s).map (fun _ => ()) =
      (testTerm (initBMasks k m).2 (t.assignData (some (.array b)) s) tt b s).map fun _ => () := by
  have e1 : isArrayBg (({ t with background := bg } : DataTerm ι).assignData (some (.array b)) s).background ↔ isArrayBg t.background := isArrayBg_spelled h
  have e2 : isArrayBg (t.assignData (some (.array b)) s).background ↔ isArrayBg t.background := Iff.rfl
  have n1 : (initBMasks k m).2.isSome = m.isSome := by cases m <;> rfl
  have n2 : (initBMasks k' m').2.isSome = m'.isSome := by cases m' <;> rfl
  unfold testTerm prepareTest
  simp only [e1, e2, n1, n2]
  rcases hm with rfl | ⟨rfl, rfl⟩
  · split_ifs <;> rfl
  · rcases hs with hs | ⟨h1, h2⟩
    · cases hs
    · simp [h1, h2, Except.map]

omit [Fintype ι] in
private theorem clipMask_spelled {start : ℝ} {a a' : Args ν ι} (h : SpelledOut start a a') : clipMask a' = clipMask a := by
  funext x
  unfold clipMask
  rw [applyMask_spelled h.xMask, h.lower, h.upper]

omit [Fintype ν] [Fintype ι] in
private theorem getD_spelled {X : Type} {n : X} {o o' : Option X} (h : Spelled n o o') : o'.getD n = o.getD n := by
  rcases h with rfl | ⟨rfl, rfl⟩ <;> rfl

private theorem scaling_spelled (F : Arr ν → Arr ι) (G : Arr ι → Arr ν) (rs : List (Reg ν Q)) (p q : ℝ) {xm xm' : Option (Arr ν)} {bm bm' : Option (Arr ι)}
    (hx : applyMask xm' = applyMask xm) (hb : applyMask bm' = applyMask bm) : diagonalScaling F G rs p q xm' bm' = diagonalScaling F G rs p q xm bm := by
  unfold diagonalScaling
  simp only [hx, hb]

/-- The decision to stop does not depend on whether there is a test mask. -/
private theorem recordResiduals_stop (t tt : DataTerm ι) (bm tm : Option (Arr ι)) (tol : Option ℝ) (ii : ℕ) (p : Arr ι) (info : Info) :
    (recordResiduals t tt bm tm tol ii p info).2 = match tol with | some τ => decide (τ > t.residualNorm (t.residual p bm)) | none => false := by
  unfold recordResiduals
  cases tol <;> cases tm <;> simp

/-- SIRT. -/
theorem C276_sirt {S S' : Solver ν ι Q} (hS : SpelledBackground S S') {a a' : Args ν ι} (ha : SpelledOut 0 a a')
    (hbg : a'.bTestMask = a.bTestMask ∨ ScalarBackgrounds S) (A : Operator ν ι) (b : Arr ι) : volume (sirt S' A b a') = volume (sirt S A b a) := by
  obtain ⟨bg, hb, rfl⟩ := hS
  have hm := applyMask_init ha.bMask ha.bTestMask
  unfold sirt volume
  dsimp only
  rw [scaling_spelled _ _ _ _ _ (applyMask_spelled ha.xMask) hm]
  rcases diagonalScaling (absOrSelf A).1 (absOrSelf A).2 S.regs 1 S.relaxation a.xMask (initBMasks a.bMask a.bTestMask).1 with e | ⟨σ, τ⟩
  · rfl
  have ht := testTerm_spelled (tt := S.termTest) hb ha.bTestMask hbg a.bMask a'.bMask b (.array σ)
  simp only [Bind.bind, Except.bind, Except.map] at ht ⊢
  revert ht
  rcases testTerm (initBMasks a'.bMask a'.bTestMask).2 (({ S.term with background := bg } : DataTerm ι).assignData (some (.array b)) (.array σ)) S.termTest b (.array σ) with e1 | t1 <;>
  rcases testTerm (initBMasks a.bMask a.bTestMask).2 (S.term.assignData (some (.array b)) (.array σ)) S.termTest b (.array σ) with e2 | t2 <;>
  intro ht <;> simp only [reduceCtorEq, Except.error.injEq] at ht
  · rw [ht]
  · simp only [Except.ok.injEq, ha.iterations, getD_spelled ha.x0]
    refine forRange_rel (R := fun (s s' : XState ν) => s.x = s'.x) rfl ?_
    rintro k ⟨x, i⟩ ⟨x', i'⟩ h
    dsimp only at h
    subst h
    have hr : ∀ m, (({ S.term with background := bg } : DataTerm ι).assignData (some (.array b)) (.array σ)).residual (A.fwd x) m =
        (S.term.assignData (some (.array b)) (.array σ)).residual (A.fwd x) m := residual_spelled (t := S.term.assignData (some (.array b)) (.array σ)) hb _
    have hstop := recordResiduals_stop (({ S.term with background := bg } : DataTerm ι).assignData (some (.array b)) (.array σ)) t1
      (initBMasks a'.bMask a'.bTestMask).1 (initBMasks a'.bMask a'.bTestMask).2 S.tolerance k (A.fwd x) { i with iterations := i.iterations + 1 }
    have hstop' := recordResiduals_stop (S.term.assignData (some (.array b)) (.array σ)) t2
      (initBMasks a.bMask a.bTestMask).1 (initBMasks a.bMask a.bTestMask).2 S.tolerance k (A.fwd x) { i' with iterations := i'.iterations + 1 }
    rw [hr, residual_mask _ _ hm] at hstop
    have hn : ∀ d, (({ S.term with background := bg } : DataTerm ι).assignData (some (.array b)) (.array σ)).residualNorm d =
        (S.term.assignData (some (.array b)) (.array σ)).residualNorm d := fun _ => rfl
    simp only [hn] at hstop
    rw [← hstop'] at hstop
    unfold sirtStep
    simp only [hr, residual_mask _ _ hm, clipMask_spelled ha]
    revert hstop
    generalize recordResiduals (({ S.term with background := bg } : DataTerm ι).assignData (some (.array b)) (.array σ)) t1
      (initBMasks a'.bMask a'.bTestMask).1 (initBMasks a'.bMask a'.bTestMask).2 S.tolerance k (A.fwd x) { i with iterations := i.iterations + 1 } = u
    generalize recordResiduals (S.term.assignData (some (.array b)) (.array σ)) t2
      (initBMasks a.bMask a.bTestMask).1 (initBMasks a.bMask a.bTestMask).2 S.tolerance k (A.fwd x) { i' with iterations := i'.iterations + 1 } = u'
    rcases u with ⟨u1, u2⟩
    rcases u' with ⟨u1', u2'⟩
    rintro rfl
    cases u2 <;> exact ⟨rfl, rfl⟩
/-- FISTA. -/
theorem C276_fista {S S' : Solver ν ι Q} (hS : SpelledBackground S S') {a a' : Args ν ι} (ha : SpelledOut 0 a a')
    (hbg : a'.bTestMask = a.bTestMask ∨ ScalarBackgrounds S) (A : Operator ν ι) (b : Arr ι) (precondition : Bool) (rnd : Arr ι) :
    volume (fista S' A b a' precondition rnd) = volume (fista S A b a precondition rnd) := by
  obtain ⟨bg, hb, rfl⟩ := hS
  have hm := applyMask_init ha.bMask ha.bTestMask
  have hsc : fistaScaling { S with term := { S.term with background := bg } } A a' precondition rnd = fistaScaling S A a precondition rnd := by
    unfold fistaScaling
    simp only [scaling_spelled _ _ _ _ _ (applyMask_spelled ha.xMask) hm]
  unfold fista volume
  dsimp only
  rw [hsc]
  rcases fistaScaling S A a precondition rnd with e | ⟨σ, τ⟩
  · rfl
  have ht := testTerm_spelled (tt := S.termTest) hb ha.bTestMask hbg a.bMask a'.bMask b (.scalar 1)
  simp only [Bind.bind, Except.bind, Except.map] at ht ⊢
  revert ht
  rcases testTerm (initBMasks a'.bMask a'.bTestMask).2 (({ S.term with background := bg } : DataTerm ι).assignData (some (.array b)) (.scalar 1)) S.termTest b (.scalar 1) with e1 | t1 <;>
  rcases testTerm (initBMasks a.bMask a.bTestMask).2 (S.term.assignData (some (.array b)) (.scalar 1)) S.termTest b (.scalar 1) with e2 | t2 <;>
  intro ht <;> simp only [reduceCtorEq, Except.error.injEq] at ht
  · rw [ht]
  · simp only [Except.ok.injEq, ha.iterations, getD_spelled ha.x0, applyMask_spelled ha.xMask]
    refine (forRange_rel (R := fun (s s' : FState ν) => s.x = s'.x ∧ s.y = s'.y ∧ s.t = s'.t) ?_ ?_).1
    · exact ⟨rfl, rfl, rfl⟩
    rintro k ⟨x, y, t, i⟩ ⟨x', y', t', i'⟩ ⟨h1, h2, h3⟩
    dsimp only at h1 h2 h3
    subst h1 h2 h3
    have hr : ∀ p m, (({ S.term with background := bg } : DataTerm ι).assignData (some (.array b)) (.scalar 1)).residual p m =
        (S.term.assignData (some (.array b)) (.scalar 1)).residual p m := fun p m => residual_spelled (t := S.term.assignData (some (.array b)) (.scalar 1)) hb p m
    have hn : ∀ d, (({ S.term with background := bg } : DataTerm ι).assignData (some (.array b)) (.scalar 1)).residualNorm d =
        (S.term.assignData (some (.array b)) (.scalar 1)).residualNorm d := fun _ => rfl
    unfold fistaStep
    simp only [recordResiduals_stop, hr, hn, residual_mask _ _ hm, clipMask_spelled ha, and_true, true_and]

/-- PDHG. -/
theorem C276_pdhg {S S' : Solver ν ι Q} (hS : SpelledBackground S S') {a a' : Args ν ι} (ha : SpelledOut 0 a a')
    (hbg : a'.bTestMask = a.bTestMask ∨ ScalarBackgrounds S) (A : Operator ν ι) (b : Arr ι) (precondition : Bool) (rnd : Arr ι) :
    volume (pdhg S' A b a' precondition rnd) = volume (pdhg S A b a precondition rnd) := by
  obtain ⟨bg, hb, rfl⟩ := hS
  have hm := applyMask_init ha.bMask ha.bTestMask
  have hsc : pdhgScaling { S with term := { S.term with background := bg } } A a' precondition rnd = pdhgScaling S A a precondition rnd := by
    unfold pdhgScaling
    simp only [scaling_spelled _ _ _ _ _ (applyMask_spelled ha.xMask) hm]
  unfold pdhg volume
  dsimp only
  rw [hsc]
  rcases pdhgScaling S A a precondition rnd with e | ⟨σ, τ⟩
  · rfl
  have ht := testTerm_spelled (tt := S.termTest) hb ha.bTestMask hbg a.bMask a'.bMask b (.array σ)
  simp only [Bind.bind, Except.bind, Except.map] at ht ⊢
  revert ht
  rcases testTerm (initBMasks a'.bMask a'.bTestMask).2 (({ S.term with background := bg } : DataTerm ι).assignData (some (.array b)) (.array σ)) S.termTest b (.array σ) with e1 | t1 <;>
  rcases testTerm (initBMasks a.bMask a.bTestMask).2 (S.term.assignData (some (.array b)) (.array σ)) S.termTest b (.array σ) with e2 | t2 <;>
  intro ht <;> simp only [reduceCtorEq, Except.error.injEq] at ht
  · rw [ht]
  · simp only [Except.ok.injEq, ha.iterations, getD_spelled ha.x0]
    refine (forRange_rel (R := fun (s s' : PDState ν ι Q) => s.x = s'.x ∧ s.xRelax = s'.xRelax ∧ s.p = s'.p ∧ s.q = s'.q) ?_ ?_).1
    · exact ⟨rfl, rfl, rfl, rfl⟩
    rintro k ⟨x, y, p, q, i⟩ ⟨x', y', p', q', i'⟩ ⟨h1, h2, h3, h4⟩
    dsimp only at h1 h2 h3 h4
    subst h1 h2 h3 h4
    have hr : ∀ p m, (({ S.term with background := bg } : DataTerm ι).assignData (some (.array b)) (.array σ)).residual p m =
        (S.term.assignData (some (.array b)) (.array σ)).residual p m := fun p m => residual_spelled (t := S.term.assignData (some (.array b)) (.array σ)) hb p m
    have hn : ∀ d, (({ S.term with background := bg } : DataTerm ι).assignData (some (.array b)) (.array σ)).residualNorm d =
        (S.term.assignData (some (.array b)) (.array σ)).residualNorm d := fun _ => rfl
    have hu : ∀ d p, (({ S.term with background := bg } : DataTerm ι).assignData (some (.array b)) (.array σ)).updateDual d p =
        (S.term.assignData (some (.array b)) (.array σ)).updateDual d p := fun d p => updateDual_spelled (t := S.term.assignData (some (.array b)) (.array σ)) hb d p
    have hp : ∀ d, (({ S.term with background := bg } : DataTerm ι).assignData (some (.array b)) (.array σ)).proxDual d =
        (S.term.assignData (some (.array b)) (.array σ)).proxDual d := fun _ => rfl
    unfold pdhgStep
    simp only [recordResiduals_stop, hr, hn, hu, hp, hm, residual_mask _ _ hm, clipMask_spelled ha, and_true, true_and]

/-- MLEM, whose default start is 1 in every voxel. -/
theorem C276_mlem {S S' : Solver ν ι Q} (hS : SpelledBackground S S') {a a' : Args ν ι} (ha : SpelledOut 1 a a')
    (hbg : a'.bTestMask = a.bTestMask ∨ ScalarBackgrounds S) (A : Operator ν ι) (b : Arr ι) : volume (mlem S' A b a') = volume (mlem S A b a) := by
  obtain ⟨bg, hb, rfl⟩ := hS
  have hm := applyMask_init ha.bMask ha.bTestMask
  unfold mlem volume
  dsimp only
  rw [hm]
  by_cases htau : ∃ j, A.adj (applyMask (initBMasks a.bMask a.bTestMask).1 fun _ => 1) j = 0
  · rw [if_pos htau, if_pos htau]
  rw [if_neg htau, if_neg htau]
  have hab : isArrayBg (({ S.term with background := bg } : DataTerm ι).assignData (some (.array b)) (.scalar 1)).background ↔
      isArrayBg (S.term.assignData (some (.array b)) (.scalar 1)).background := isArrayBg_spelled hb
  by_cases harr : isArrayBg (S.term.assignData (some (.array b)) (.scalar 1)).background
  · rw [if_pos harr, if_pos (hab.2 harr)]
  rw [if_neg harr, if_neg fun h => harr (hab.1 h)]
  have ht := testTerm_spelled (tt := S.termTest) hb ha.bTestMask hbg a.bMask a'.bMask b (.scalar 1)
  simp only [Bind.bind, Except.bind, Except.map] at ht ⊢
  revert ht
  rcases testTerm (initBMasks a'.bMask a'.bTestMask).2 (({ S.term with background := bg } : DataTerm ι).assignData (some (.array b)) (.scalar 1)) S.termTest b (.scalar 1) with e1 | t1 <;>
  rcases testTerm (initBMasks a.bMask a.bTestMask).2 (S.term.assignData (some (.array b)) (.scalar 1)) S.termTest b (.scalar 1) with e2 | t2 <;>
  intro ht <;> simp only [reduceCtorEq, Except.error.injEq] at ht
  · rw [ht]
  · simp only [Except.ok.injEq, ha.iterations, getD_spelled ha.x0, applyMask_spelled ha.xMask]
    refine forRange_rel (R := fun (s s' : XState ν) => s.x = s'.x) rfl ?_
    rintro k ⟨x, i⟩ ⟨x', i'⟩ h
    dsimp only at h
    subst h
    have hr : ∀ p m, (({ S.term with background := bg } : DataTerm ι).assignData (some (.array b)) (.scalar 1)).residual p m =
        (S.term.assignData (some (.array b)) (.scalar 1)).residual p m := fun p m => residual_spelled (t := S.term.assignData (some (.array b)) (.scalar 1)) hb p m
    have hn : ∀ d, (({ S.term with background := bg } : DataTerm ι).assignData (some (.array b)) (.scalar 1)).residualNorm d =
        (S.term.assignData (some (.array b)) (.scalar 1)).residualNorm d := fun _ => rfl
    have hadd : ∀ p, (({ S.term with background := bg } : DataTerm ι).assignData (some (.array b)) (.scalar 1)).addBackground p =
        (S.term.assignData (some (.array b)) (.scalar 1)).addBackground p := fun p => addBackground_spelled (t := S.term.assignData (some (.array b)) (.scalar 1)) hb p
    unfold mlemStep
    simp only [hadd, clipMask_spelled ha, hr, hn, residual_mask _ _ hm]
    cases htol : S.tolerance with
    | none => exact ⟨rfl, rfl⟩
    | some τ =>
      dsimp only
      split_ifs <;> exact ⟨rfl, rfl⟩

/-- SART, with any order of the projections (it has no test mask). -/
theorem C276_sart {na nu : ℕ} (S : Solver ν (Fin na × Fin nu) Q) {a a' : Args ν (Fin na × Fin nu)} (ha : SpelledOut 0 a a') (A : AngleOp ν na nu)
    (b : Fin na × Fin nu → ℝ) (rows : List (Fin na)) : volume (sart S A b a' rows) = volume (sart S A b a rows) := by
  have hsc : sartScaling A S.relaxation a' = sartScaling A S.relaxation a := by
    unfold sartScaling
    simp only [applyMask_spelled ha.bMask, applyMask_spelled ha.xMask]
  have hres : ∀ x, sartResidualNorm A b a'.bMask x = sartResidualNorm A b a.bMask x := fun x => by
    unfold sartResidualNorm
    simp only [getD_spelled ha.bMask]
  have hrow : ∀ σ τ, sartRow A b a' σ τ = sartRow A b a σ τ := fun σ τ => by
    funext x k
    unfold sartRow
    rw [clipMask_spelled ha]
    rcases ha.bMask with h | ⟨h, h'⟩
    · rw [h]
    · rw [h, h']
      simp only [mul_one]
  have hstep : ∀ σ τ, sartStep A b a' σ τ rows S.tolerance = sartStep A b a σ τ rows S.tolerance := fun σ τ => by
    funext ii s
    unfold sartStep
    simp only [hrow, hres]
  unfold sart volume
  simp only [hsc, hres, hstep, ha.iterations, getD_spelled ha.x0]

/-- FBP. -/
theorem C276_fbp {start : ℝ} {a a' : Args ν ι} (ha : SpelledOut start a a') (A : Operator ν ι) (filt : Arr ι → Arr ι) {w w' : Option (Arr ι)}
    (hw : Spelled (fun _ => 1) w w') (b : Arr ι) : fbp A filt w' b a' = fbp A filt w b a := by
  unfold fbp
  rw [clipMask_spelled ha, applyMask_spelled hw]

/-! ## A tolerance of 0 or less -/

private theorem residualNorm_nonneg' (t : DataTerm ι) (d : Arr ι) : 0 ≤ t.residualNorm d := by
  unfold DataTerm.residualNorm
  cases t.kind with
  | l2 => exact Finset.sum_nonneg fun _ _ => sq_nonneg _
  | l2b => exact Finset.sum_nonneg fun _ _ => sq_nonneg _
  | wl2 => exact Finset.sum_nonneg fun _ _ => sq_nonneg _
  | huber e g row =>
    exact add_nonneg (Finset.sum_nonneg fun _ _ => sq_nonneg _) (Finset.sum_nonneg fun _ _ => Finset.sum_nonneg fun _ _ => abs_nonneg _)
  | l12 g =>
    cases t.cols with
    | none => exact Finset.sum_nonneg fun _ _ => Real.sqrt_nonneg _
    | some c => exact Real.iSup_nonneg fun _ => Finset.sum_nonneg fun _ _ => Real.sqrt_nonneg _
  | l1 =>
    cases t.cols with
    | none => exact Finset.sum_nonneg fun _ _ => abs_nonneg _
    | some c => exact Real.iSup_nonneg fun _ => Finset.sum_nonneg fun _ _ => abs_nonneg _
  | l1b =>
    cases t.cols with
    | none => exact Finset.sum_nonneg fun _ _ => abs_nonneg _
    | some c => exact Real.iSup_nonneg fun _ => Finset.sum_nonneg fun _ _ => abs_nonneg _
  | kl => exact Finset.sum_nonneg fun _ _ => abs_nonneg _

private theorem stop_never {t : DataTerm ι} {d : Arr ι} {τ : ℝ} (h : τ ≤ 0) : decide (τ > t.residualNorm d) = false :=
  decide_eq_false fun hgt => absurd (lt_of_lt_of_le hgt h) (not_lt.2 (residualNorm_nonneg' t d))

/-- SIRT: a tolerance `≤ 0` is the same as none. -/
theorem C276_tolerance_sirt {S : Solver ν ι Q} (h : S.tolerance = none) {τ : ℝ} (hτ : τ ≤ 0) (A : Operator ν ι) (b : Arr ι) (a : Args ν ι) :
    volume (sirt { S with tolerance := some τ } A b a) = volume (sirt S A b a) := by
  unfold sirt volume
  dsimp only
  rcases diagonalScaling (absOrSelf A).1 (absOrSelf A).2 S.regs 1 S.relaxation a.xMask (initBMasks a.bMask a.bTestMask).1 with e | ⟨σ, θ⟩
  · rfl
  simp only [Bind.bind, Except.bind, Except.map]
  rcases testTerm (initBMasks a.bMask a.bTestMask).2 (S.term.assignData (some (.array b)) (.array σ)) S.termTest b (.array σ) with e | tt
  · rfl
  simp only [Except.ok.injEq]
  refine forRange_rel (R := fun (s s' : XState ν) => s.x = s'.x) rfl ?_
  rintro k ⟨x, i⟩ ⟨x', i'⟩ hx
  dsimp only at hx
  subst hx
  simp only [sirtStep_cases, recordResiduals_stop, stop_never hτ, h, Bool.false_eq_true, if_false, and_self]

/-- FISTA. -/
theorem C276_tolerance_fista {S : Solver ν ι Q} (h : S.tolerance = none) {τ : ℝ} (hτ : τ ≤ 0) (A : Operator ν ι) (b : Arr ι) (a : Args ν ι) (precondition : Bool)
    (rnd : Arr ι) : volume (fista { S with tolerance := some τ } A b a precondition rnd) = volume (fista S A b a precondition rnd) := by
  unfold fista volume
  rw [show fistaScaling { S with tolerance := some τ } A a precondition rnd = fistaScaling S A a precondition rnd from rfl]
  dsimp only
  rcases fistaScaling S A a precondition rnd with e | ⟨σ, θ⟩
  · rfl
  simp only [Bind.bind, Except.bind, Except.map]
  rcases testTerm (initBMasks a.bMask a.bTestMask).2 (S.term.assignData (some (.array b)) (.scalar 1)) S.termTest b (.scalar 1) with e | tt
  · rfl
  simp only [Except.ok.injEq]
  refine (forRange_rel (R := fun (s s' : FState ν) => s.x = s'.x ∧ s.y = s'.y ∧ s.t = s'.t) ?_ ?_).1
  · exact ⟨rfl, rfl, rfl⟩
  rintro k ⟨x, y, t, i⟩ ⟨x', y', t', i'⟩ ⟨h1, h2, h3⟩
  dsimp only at h1 h2 h3
  subst h1 h2 h3
  unfold fistaStep
  simp only [recordResiduals_stop, stop_never hτ, h, and_self]

/-- PDHG. -/
theorem C276_tolerance_pdhg {S : Solver ν ι Q} (h : S.tolerance = none) {τ : ℝ} (hτ : τ ≤ 0) (A : Operator ν ι) (b : Arr ι) (a : Args ν ι) (precondition : Bool)
    (rnd : Arr ι) : volume (pdhg { S with tolerance := some τ } A b a precondition rnd) = volume (pdhg S A b a precondition rnd) := by
  unfold pdhg volume
  rw [show pdhgScaling { S with tolerance := some τ } A a precondition rnd = pdhgScaling S A a precondition rnd from rfl]
  dsimp only
  rcases pdhgScaling S A a precondition rnd with e | ⟨σ, θ⟩
  · rfl
  simp only [Bind.bind, Except.bind, Except.map]
  rcases testTerm (initBMasks a.bMask a.bTestMask).2 (S.term.assignData (some (.array b)) (.array σ)) S.termTest b (.array σ) with e | tt
  · rfl
  simp only [Except.ok.injEq]
  refine (forRange_rel (R := fun (s s' : PDState ν ι Q) => s.x = s'.x ∧ s.xRelax = s'.xRelax ∧ s.p = s'.p ∧ s.q = s'.q) ?_ ?_).1
  · exact ⟨rfl, rfl, rfl, rfl⟩
  rintro k ⟨x, y, p, q, i⟩ ⟨x', y', p', q', i'⟩ ⟨h1, h2, h3, h4⟩
  dsimp only at h1 h2 h3 h4
  subst h1 h2 h3 h4
  unfold pdhgStep
  simp only [recordResiduals_stop, stop_never hτ, h, and_self]

/-- MLEM. -/
theorem C276_tolerance_mlem {S : Solver ν ι Q} (h : S.tolerance = none) {τ : ℝ} (hτ : τ ≤ 0) (A : Operator ν ι) (b : Arr ι) (a : Args ν ι) :
    volume (mlem { S with tolerance := some τ } A b a) = volume (mlem S A b a) := by
  unfold mlem volume
  dsimp only
  by_cases htau : ∃ j, A.adj (applyMask (initBMasks a.bMask a.bTestMask).1 fun _ => 1) j = 0
  · rw [if_pos htau, if_pos htau]
  rw [if_neg htau, if_neg htau]
  by_cases harr : isArrayBg (S.term.assignData (some (.array b)) (.scalar 1)).background
  · rw [if_pos harr, if_pos harr]
  rw [if_neg harr, if_neg harr]
  simp only [Bind.bind, Except.bind, Except.map]
  rcases testTerm (initBMasks a.bMask a.bTestMask).2 (S.term.assignData (some (.array b)) (.scalar 1)) S.termTest b (.scalar 1) with e | tt
  · rfl
  simp only [Except.ok.injEq]
  refine forRange_rel (R := fun (s s' : XState ν) => s.x = s'.x) rfl ?_
  rintro k ⟨x, i⟩ ⟨x', i'⟩ hx
  dsimp only at hx
  subst hx
  unfold mlemStep
  simp only [h]
  rw [if_neg fun hgt => absurd (lt_of_lt_of_le hgt hτ) (not_lt.2 (residualNorm_nonneg' _ _))]
  exact ⟨rfl, rfl⟩

/-- SART, provided the residual can be computed at all (with a tolerance, incompatible numbers of angles and pixels raise, C05). -/
theorem C276_tolerance_sart {na nu : ℕ} {S : Solver ν (Fin na × Fin nu) Q} (h : S.tolerance = none) {τ : ℝ} (hτ : τ ≤ 0) (hsh : sartShapesOk na nu)
    (A : AngleOp ν na nu) (b : Fin na × Fin nu → ℝ) (a : Args ν (Fin na × Fin nu)) (rows : List (Fin na)) :
    volume (sart { S with tolerance := some τ } A b a rows) = volume (sart S A b a rows) := by
  have hn : ∀ x, ¬ τ > sartResidualNorm A b a.bMask x := fun x hgt => by
    refine absurd (lt_of_lt_of_le hgt hτ) (not_lt.2 ?_)
    unfold sartResidualNorm
    dsimp only
    split_ifs
    · exact Real.sqrt_nonneg _
    · exact Real.sqrt_nonneg _
    · exact Real.sqrt_nonneg _
    · exact le_rfl
  unfold sart volume
  dsimp only
  rcases sartScaling A S.relaxation a with e | ⟨σ, θ⟩
  · rfl
  simp only [Bind.bind, Except.bind, Except.map, h, Option.isSome_some, Option.isSome_none, hsh, not_true_eq_false, and_false, if_false, if_true, Bool.false_eq_true,
    Except.ok.injEq]
  refine forRange_rel (R := fun (s s' : XState ν) => s.x = s'.x) rfl ?_
  rintro k ⟨x, i⟩ ⟨x', i'⟩ hx
  dsimp only at hx
  subst hx
  simp only [sartStep, hn, decide_false, and_self]

/-- FISTA: a restart period greater than the number of iterations is the same as none. -/
theorem C276_restart {S : Solver ν ι Q} (h : S.restartPeriod = none) (A : Operator ν ι) (b : Arr ι) (a : Args ν ι) {k : ℕ} (hk : a.iterations < k)
    (precondition : Bool) (rnd : Arr ι) :
    volume (fista { S with restartPeriod := some k } A b a precondition rnd) = volume (fista S A b a precondition rnd) := by
  have hstep : ∀ (t tt : DataTerm ι) (σ θ : _) ii, ii < a.iterations → ∀ s,
      fistaStep A a S.regs (some k) t tt (initBMasks a.bMask a.bTestMask).1 (initBMasks a.bMask a.bTestMask).2 σ θ S.tolerance ii s =
      fistaStep A a S.regs S.restartPeriod t tt (initBMasks a.bMask a.bTestMask).1 (initBMasks a.bMask a.bTestMask).2 σ θ S.tolerance ii s := by
    intro t tt σ θ ii hii s
    have e : ∀ r, fistaTNew (some k) ii r = fistaTNew S.restartPeriod ii r := fun r => by
      rw [h]
      unfold fistaTNew
      simp only
      rw [if_neg]
      rw [Nat.mod_eq_of_lt (by omega)]
      omega
    unfold fistaStep fistaMomentum
    simp only [e]
  have hloop : ∀ {X : Type} (f g : ℕ → X → X × Bool) (n : ℕ), (∀ ii, ii < a.iterations → ∀ s, f ii s = g ii s) → ∀ ii, ii + n ≤ a.iterations → ∀ s,
      loopFrom f n ii s = loopFrom g n ii s := by
    intro X f g n hfg
    induction n with
    | zero => exact fun _ _ _ => rfl
    | succ n ih =>
      intro ii hii s
      rw [loopFrom, loopFrom, hfg ii (by omega)]
      rcases g ii s with ⟨t, b⟩
      cases b
      · exact ih (ii + 1) (by omega) t
      · rfl
  unfold fista volume
  rw [show fistaScaling { S with restartPeriod := some k } A a precondition rnd = fistaScaling S A a precondition rnd from rfl]
  dsimp only
  rcases fistaScaling S A a precondition rnd with e | ⟨σ, θ⟩
  · rfl
  simp only [Bind.bind, Except.bind, Except.map]
  rcases testTerm (initBMasks a.bMask a.bTestMask).2 (S.term.assignData (some (.array b)) (.scalar 1)) S.termTest b (.scalar 1) with e | tt
  · rfl
  simp only [Except.ok.injEq]
  unfold forRange
  rw [hloop _ _ a.iterations (fun ii hii s => hstep _ _ σ θ ii hii s) 0 (by omega)]

/-- Non-vacuity: a call with iterations only, and the same call with everything given explicitly. -/
example (S : Solver ν ι Q) (n : ℕ) (h : S.term.background = none) (ht : S.termTest.background = none) (A : Operator ν ι) (b : Arr ι) :
    volume (sirt { S with term := { S.term with background := some (.scalar 0) } } A b
      { iterations := n, x0 := some fun _ => 0, xMask := some fun _ => 1, bMask := some fun _ => 1, bTestMask := some fun _ => 0 }) =
    volume (sirt S A b { iterations := n }) :=
  C276_sirt (S := S) (S' := { S with term := { S.term with background := some (.scalar 0) } }) ⟨some (.scalar 0), .inr ⟨h, rfl⟩, rfl⟩
    (a := { iterations := n })
    (a' := { iterations := n, x0 := some fun _ => 0, xMask := some fun _ => 1, bMask := some fun _ => 1, bTestMask := some fun _ => 0 })
    ⟨rfl, .inr ⟨rfl, rfl⟩, rfl, rfl, .inr ⟨rfl, rfl⟩, .inr ⟨rfl, rfl⟩, .inr ⟨rfl, rfl⟩⟩ (.inr (by simp [ScalarBackgrounds, isArrayBg, h, ht])) A b

end Verif
