import Verif.Lemmas.Solvers
import Verif.Spec.Solvers

/-! # C01–C06: masks, isolation, limits, accounting, fixed points of the iterative solvers -/

namespace Verif
open Classical DataTerm

variable {ν ι Q : Type} [Fintype ν] [Fintype ι]

/-! ## C01 -/

/-- C01. With binary masks the training and test masks used by the solvers are binary and disjoint, their union is the
user's mask, and a pixel is in the test mask only if the user put it there; a test pixel is never trained on. -/
theorem C01_masks_partition (bMask : Option (Arr ι)) (test : Arr ι) (hm : ∀ m, bMask = some m → Binary m)
    (ht : Binary test) : ∃ train tst, initBMasks bMask (some test) = (some train, some tst) ∧
      Binary train ∧ Binary tst ∧ (∀ i, ¬ (train i = 1 ∧ tst i = 1)) ∧
      (∀ i, (train i = 1 ∨ tst i = 1) ↔ ∀ m, bMask = some m → m i = 1) ∧
      (∀ i, tst i = 1 → test i = 1) ∧ (∀ i, test i = 1 → train i = 0) := by
  have hB : ∃ m : Arr ι, Binary m ∧ (∀ i, (m i = 1 ↔ ∀ m', bMask = some m' → m' i = 1)) ∧
      initBMasks bMask (some test) = (some fun i => m i * (1 - test i), some fun i => test i * m i) := by
    cases bMask with
    | none => exact ⟨fun _ => 1, fun _ => Or.inr rfl, by simp, rfl⟩
    | some m => exact ⟨m, hm m rfl, by simp, rfl⟩
  obtain ⟨m, hmb, hmu, he⟩ := hB
  refine ⟨_, _, he, fun i => ?_, fun i => ?_, fun i => ?_, fun i => ?_, fun i => ?_, fun i => ?_⟩
  · rcases hmb i with h | h <;> rcases ht i with h' | h' <;> simp [h, h']
  · rcases hmb i with h | h <;> rcases ht i with h' | h' <;> simp [h, h']
  · rcases hmb i with h | h <;> rcases ht i with h' | h' <;> simp [h, h']
  · rw [← hmu i]
    rcases hmb i with h | h <;> rcases ht i with h' | h' <;> simp [h, h']
  · rcases hmb i with h | h <;> rcases ht i with h' | h' <;> simp [h, h']
  · rcases hmb i with h | h <;> rcases ht i with h' | h' <;> simp [h, h']

/-- C01, no test mask: the user's mask is used unchanged and there is no test set. -/
theorem C01_masks_passthrough (bMask : Option (Arr ι)) : initBMasks bMask none = (bMask, none) := rfl

example : ∃ (m t : Arr (Fin 3)), Binary m ∧ Binary t ∧ m 0 = 1 ∧ m 1 = 1 ∧ m 2 = 0 ∧ t 0 = 0 ∧ t 1 = 1 :=
  ⟨![1, 1, 0], ![0, 1, 1], by intro i; fin_cases i <;> simp, by intro i; fin_cases i <;> simp, by simp⟩

/-! ## C02 -/

/-- Everything of a data term but the data. -/
private def SameButData (P : ι → Prop) (t t' : DataTerm ι) : Prop :=
  t.kind = t'.kind ∧ t.background = t'.background ∧ t.sigma = t'.sigma ∧ t.sigma1 = t'.sigma1 ∧
  t.sigmaSqrtError = t'.sigmaSqrtError ∧ t.oneSigmaError = t'.oneSigmaError ∧ t.cols = t'.cols ∧
  ∃ d d' s s', t.data = some d ∧ t'.data = some d' ∧ t.sigmaData = some s ∧ t'.sigmaData = some s' ∧
    ∀ i, P i → d.get i = d'.get i ∧ s.get i = s'.get i

omit [Fintype ι] in
private theorem map₂_get (f : ℝ → ℝ → ℝ) (s d : Attr ι) (i : ι) : (Attr.map₂ f s d).get i = f (s.get i) (d.get i) := by
  cases s <;> cases d <;> rfl

omit [Fintype ι] in
private theorem computeSigmaData_some (k : Kind ι) (sigma : Attr ι) :
    ∃ f, ∀ d, computeSigmaData k (some d) sigma = some (Attr.map₂ f sigma d) := by
  cases k <;> exact ⟨_, fun d => rfl⟩

omit [Fintype ι] in
private theorem sameButData_assign {P : ι → Prop} (t : DataTerm ι) {b b' : Arr ι} (h : ∀ i, P i → b i = b' i)
    (sigma : Attr ι) :
    SameButData P (t.assignData (some (.array b)) sigma) (t.assignData (some (.array b')) sigma) := by
  obtain ⟨f, hf⟩ := computeSigmaData_some t.kind sigma
  refine ⟨rfl, rfl, rfl, rfl, rfl, rfl, rfl, .array b, .array b', _, _, rfl, rfl, hf _, hf _, fun i hi => ?_⟩
  rw [map₂_get, map₂_get]
  simp [Attr.get, h i hi]

/-- The residual depends on the data only where the mask is not zero. -/
private theorem residual_congr {t t' : DataTerm ι} {mask : Option (Arr ι)}
    (h : SameButData (fun i => ∀ m, mask = some m → m i ≠ 0) t t') (proj : Arr ι) :
    t.residual proj mask = t'.residual proj mask := by
  obtain ⟨hk, hb, hs, hs1, hq, ho, hco, d, d', sd, sd', hd, hd', hsd, hsd', hP⟩ := h
  have hpp : t.addBackground proj = t'.addBackground proj := by funext i; simp [addBackground, hb]
  funext i
  by_cases hi : ∀ m, mask = some m → m i ≠ 0
  · obtain ⟨h1, h2⟩ := hP i hi
    unfold DataTerm.residual
    rw [hk, hpp, hq, hd, hd']
    cases hk' : t'.kind <;> simp only [applyMask, h1, proxDual, hk, hk', hs, hsd, hsd', h2]
  · push Not at hi
    obtain ⟨m, rfl, hmi⟩ := hi
    unfold DataTerm.residual
    rw [hk, hpp, hq, hd, hd']
    cases t'.kind <;> simp [applyMask, hmi]

omit [Fintype ν] [Fintype ι] in
theorem trains_iff (a : Args ν ι) (i : ι) :
    Trains a i ↔ ∀ m, (initBMasks a.bMask a.bTestMask).1 = some m → m i ≠ 0 := by
  unfold Trains initBMasks
  cases ha : a.bTestMask <;> cases hb : a.bMask <;> simp [sub_eq_zero, eq_comm (a := (1 : ℝ))]

/-- Agreement of two infos except for the test-set residuals. -/
private def InfoRel (i i' : Info) : Prop :=
  i.maxIterations = i'.maxIterations ∧ i.tolerance = i'.tolerance ∧ i.residual0 = i'.residual0 ∧
  i.residuals = i'.residuals ∧ i.iterations = i'.iterations

private theorem recordResiduals_rel {t t' tt tt' : DataTerm ι} {bm tm : Option (Arr ι)} {tol : Option ℝ} {ii : ℕ}
    {Ax : Arr ι} {i i' : Info} (h : SameButData (fun i => ∀ m, bm = some m → m i ≠ 0) t t') (hi : InfoRel i i') :
    InfoRel (recordResiduals t tt bm tm tol ii Ax i).1 (recordResiduals t' tt' bm tm tol ii Ax i').1 ∧
    (recordResiduals t tt bm tm tol ii Ax i).2 = (recordResiduals t' tt' bm tm tol ii Ax i').2 := by
  have hr : t.residual Ax bm = t'.residual Ax bm := residual_congr h Ax
  have hn : t.residualNorm = t'.residualNorm := by
    funext d
    unfold residualNorm applyThreshold
    rw [h.1, h.2.2.2.2.2.2.1]
  obtain ⟨h1, h2, h3, h4, h5⟩ := hi
  unfold recordResiduals
  rw [hr, hn]
  split_ifs
  · cases tm <;> simp [InfoRel, h1, h2, h3, h4, h5]
  · exact ⟨⟨h1, h2, h3, h4, h5⟩, rfl⟩

private theorem initialResiduals_rel {t t' tt tt' : DataTerm ι} {bm tm : Option (Arr ι)} {tol : Option ℝ}
    {Ax : Arr ι} {i : Info} (h : SameButData (fun i => ∀ m, bm = some m → m i ≠ 0) t t') :
    InfoRel (initialResiduals t tt bm tm tol Ax i) (initialResiduals t' tt' bm tm tol Ax i) := by
  have hr : t.residual Ax bm = t'.residual Ax bm := residual_congr h Ax
  have hn : t.residualNorm = t'.residualNorm := by
    funext d
    unfold residualNorm applyThreshold
    rw [h.1, h.2.2.2.2.2.2.1]
  unfold initialResiduals
  rw [hr, hn]
  split_ifs
  · cases tm <;> simp [InfoRel]
  · simp [InfoRel]

omit [Fintype ι] in
private theorem testTerm_rel (tm : Option (Arr ι)) (t t' tt : DataTerm ι) (b b' : Arr ι) (sigma : Attr ι)
    (h : t.background = t'.background) :
    (∃ e, testTerm tm t tt b sigma = .error e ∧ testTerm tm t' tt b' sigma = .error e) ∨
    (∃ u u', testTerm tm t tt b sigma = .ok u ∧ testTerm tm t' tt b' sigma = .ok u') := by
  unfold testTerm prepareTest
  rw [h]
  split_ifs
  · exact Or.inl ⟨_, rfl, rfl⟩
  · exact Or.inr ⟨_, _, rfl, rfl⟩
  · exact Or.inr ⟨_, _, rfl, rfl⟩

/-- C02, SIRT: data values at pixels that are masked out or in the test set change neither the reconstruction nor the
iteration info (other than the test residuals), for any data term, regularizers, operator, limits and tolerance. -/
theorem C02_sirt_isolated (S : Solver ν ι Q) (A : Operator ν ι) (a : Args ν ι) (b b' : Arr ι)
    (h : AgreeOnTraining a b b') : trainingView (sirt S A b a) = trainingView (sirt S A b' a) := by
  unfold sirt
  rcases hm : initBMasks a.bMask a.bTestMask with ⟨bm, tm⟩
  have hP : ∀ i, (∀ m, bm = some m → m i ≠ 0) → b i = b' i := fun i hi =>
    h i ((trains_iff a i).2 (by rw [hm]; exact hi))
  simp only [bind, Except.bind]
  cases diagonalScaling (absOrSelf A).1 (absOrSelf A).2 S.regs 1 S.relaxation a.xMask bm with
  | error e => rfl
  | ok p =>
    obtain ⟨sigma, tau⟩ := p
    dsimp only
    have hs := sameButData_assign S.term hP (.array sigma)
    rcases testTerm_rel tm (S.term.assignData (some (.array b)) (.array sigma))
      (S.term.assignData (some (.array b')) (.array sigma)) S.termTest b b' (.array sigma) rfl with
      ⟨e, h1, h2⟩ | ⟨u, u', h1, h2⟩
    · rw [h1, h2]
    · rw [h1, h2]
      dsimp only
      have := forRange_rel (n := a.iterations)
        (step := sirtStep A a S.regs (S.term.assignData (some (.array b)) (.array sigma)) u bm tm sigma tau S.tolerance)
        (step' := sirtStep A a S.regs (S.term.assignData (some (.array b')) (.array sigma)) u' bm tm sigma tau S.tolerance)
        (R := fun s s' => s.x = s'.x ∧ InfoRel s.info s'.info)
        (s := ⟨a.x0.getD fun _ => 0, _⟩) (s' := ⟨a.x0.getD fun _ => 0, _⟩)
        ⟨by rfl, initialResiduals_rel hs (tt := u) (tt' := u') (i := Info.new a.iterations S.tolerance)
          (Ax := A.fwd (a.x0.getD fun _ => 0)) (tm := tm) (tol := S.tolerance)⟩ (by
          rintro k ⟨x, i⟩ ⟨x', i'⟩ ⟨hx, hi⟩
          dsimp only at hx hi
          subst hx
          rw [sirtStep_cases, sirtStep_cases]
          have hrec := recordResiduals_rel (tt := u) (tt' := u') (tm := tm) (tol := S.tolerance) (ii := k)
            (Ax := A.fwd x) (i := { i with iterations := i.iterations + 1 })
            (i' := { i' with iterations := i'.iterations + 1 }) hs (by
              obtain ⟨h1, h2, h3, h4, h5⟩ := hi
              exact ⟨h1, h2, h3, h4, by simp [h5]⟩)
          dsimp only
          rw [hrec.2, residual_congr hs]
          exact ⟨⟨rfl, hrec.1⟩, rfl⟩)
      obtain ⟨hx, h1, h2, h3, h4, h5⟩ := this
      exact congrArg Except.ok (Prod.ext hx (Prod.ext h1 (Prod.ext h2 (Prod.ext h3 (Prod.ext h4 h5)))))

/-- C02, FISTA. -/
theorem C02_fista_isolated (S : Solver ν ι Q) (A : Operator ν ι) (a : Args ν ι) (b b' : Arr ι) (pc : Bool) (rnd : Arr ι)
    (h : AgreeOnTraining a b b') : trainingView (fista S A b a pc rnd) = trainingView (fista S A b' a pc rnd) := by
  unfold fista
  rcases hm : initBMasks a.bMask a.bTestMask with ⟨bm, tm⟩
  have hP : ∀ i, (∀ m, bm = some m → m i ≠ 0) → b i = b' i := fun i hi =>
    h i ((trains_iff a i).2 (by rw [hm]; exact hi))
  simp only [bind, Except.bind]
  cases fistaScaling S A a pc rnd with
  | error e => rfl
  | ok p =>
    obtain ⟨sigma, tau⟩ := p
    dsimp only
    have hs := sameButData_assign S.term hP (.scalar 1)
    rcases testTerm_rel tm (S.term.assignData (some (.array b)) (.scalar 1))
      (S.term.assignData (some (.array b')) (.scalar 1)) S.termTest b b' (.scalar 1) rfl with
      ⟨e, h1, h2⟩ | ⟨u, u', h1, h2⟩
    · rw [h1, h2]
    · rw [h1, h2]
      dsimp only
      have := forRange_rel (n := a.iterations)
        (step := fistaStep A a S.regs S.restartPeriod (S.term.assignData (some (.array b)) (.scalar 1)) u bm tm sigma tau
          S.tolerance)
        (step' := fistaStep A a S.regs S.restartPeriod (S.term.assignData (some (.array b')) (.scalar 1)) u' bm tm sigma tau
          S.tolerance)
        (R := fun s s' => s.x = s'.x ∧ s.y = s'.y ∧ s.t = s'.t ∧ InfoRel s.info s'.info)
        (s := ⟨applyMask a.xMask (a.x0.getD fun _ => 0), applyMask a.xMask (a.x0.getD fun _ => 0), 1, _⟩)
        (s' := ⟨applyMask a.xMask (a.x0.getD fun _ => 0), applyMask a.xMask (a.x0.getD fun _ => 0), 1, _⟩)
        ⟨by rfl, by rfl, by rfl, initialResiduals_rel hs (tt := u) (tt' := u') (i := Info.new a.iterations S.tolerance)
          (Ax := A.fwd (applyMask a.xMask (a.x0.getD fun _ => 0))) (tm := tm) (tol := S.tolerance)⟩ (by
          rintro k ⟨x, y, t, i⟩ ⟨x', y', t', i'⟩ ⟨hx, hy, ht, hi⟩
          dsimp only at hx hy ht hi
          subst hx hy ht
          unfold fistaStep
          dsimp only
          rw [residual_congr hs]
          exact ⟨⟨rfl, rfl, rfl, (recordResiduals_rel hs (by
              obtain ⟨h1, h2, h3, h4, h5⟩ := hi
              exact ⟨h1, h2, h3, h4, by simp [h5]⟩)).1⟩, (recordResiduals_rel hs (by
              obtain ⟨h1, h2, h3, h4, h5⟩ := hi
              exact ⟨h1, h2, h3, h4, by simp [h5]⟩)).2⟩)
      obtain ⟨hx, -, -, h1, h2, h3, h4, h5⟩ := this
      exact congrArg Except.ok (Prod.ext hx (Prod.ext h1 (Prod.ext h2 (Prod.ext h3 (Prod.ext h4 h5)))))

/-- The masked dual update of an element-wise term depends on the data only where the mask is not zero. -/
private theorem dual_congr {t t' : DataTerm ι} {mask : Option (Arr ι)} (he : t.Elementwise)
    (h : SameButData (fun i => ∀ m, mask = some m → m i ≠ 0) t t') (p proj : Arr ι) :
    applyMask mask (t.proxDual (t.updateDual p proj)) = applyMask mask (t'.proxDual (t'.updateDual p proj)) := by
  obtain ⟨hk, hb, hs, hs1, hq, ho, hco, d, d', sd, sd', hd, hd', hsd, hsd', hP⟩ := h
  have hpp : t.updateDual p proj = t'.updateDual p proj := by funext i; simp [updateDual, hb, hs]
  funext i
  by_cases hi : ∀ m, mask = some m → m i ≠ 0
  · obtain ⟨h1, h2⟩ := hP i hi
    have hsub : t.subSigmaData (t'.updateDual p proj) i = t'.subSigmaData (t'.updateDual p proj) i := by
      simp [subSigmaData, hd, hd', hsd, hsd', h2]
    have : t.proxDual (t.updateDual p proj) (.scalar 1) i = t'.proxDual (t'.updateDual p proj) (.scalar 1) i := by
      rw [hpp]
      unfold Elementwise at he
      unfold proxDual
      rw [hk] at he
      rw [hk, hs1, hq, ho, hsd, hsd']
      cases hk' : t'.kind with
      | l12 g => rw [hk'] at he; exact he.elim
      | huber e g r =>
        rw [hk'] at he
        cases g with
        | some g => exact he.elim
        | none => simp only [hsub]
      | _ => simp only [applyThreshold, innerNorm, hk, hk', hsub, h2]
    unfold applyMask
    cases mask <;> simp [this]
  · push Not at hi
    obtain ⟨m, rfl, hmi⟩ := hi
    simp [applyMask, hmi]

/-- C02, PDHG with an element-wise data term (every class except `l12` and the vector Huber norm). -/
theorem C02_pdhg_isolated (S : Solver ν ι Q) (A : Operator ν ι) (a : Args ν ι) (b b' : Arr ι) (pc : Bool) (rnd : Arr ι)
    (he : S.term.Elementwise) (h : AgreeOnTraining a b b') :
    trainingView (pdhg S A b a pc rnd) = trainingView (pdhg S A b' a pc rnd) := by
  unfold pdhg
  rcases hm : initBMasks a.bMask a.bTestMask with ⟨bm, tm⟩
  have hP : ∀ i, (∀ m, bm = some m → m i ≠ 0) → b i = b' i := fun i hi =>
    h i ((trains_iff a i).2 (by rw [hm]; exact hi))
  simp only [bind, Except.bind]
  cases pdhgScaling S A a pc rnd with
  | error e => rfl
  | ok p =>
    obtain ⟨sigma, tau⟩ := p
    dsimp only
    have hs := sameButData_assign S.term hP (.array sigma)
    rcases testTerm_rel tm (S.term.assignData (some (.array b)) (.array sigma))
      (S.term.assignData (some (.array b')) (.array sigma)) S.termTest b b' (.array sigma) rfl with
      ⟨e, h1, h2⟩ | ⟨u, u', h1, h2⟩
    · rw [h1, h2]
    · rw [h1, h2]
      dsimp only
      have := forRange_rel (n := a.iterations)
        (step := pdhgStep A a S.regs (S.term.assignData (some (.array b)) (.array sigma)) u bm tm tau S.tolerance)
        (step' := pdhgStep A a S.regs (S.term.assignData (some (.array b')) (.array sigma)) u' bm tm tau S.tolerance)
        (R := fun s s' => s.x = s'.x ∧ s.xRelax = s'.xRelax ∧ s.p = s'.p ∧ s.q = s'.q ∧ InfoRel s.info s'.info)
        (s := ⟨a.x0.getD fun _ => 0, a.x0.getD fun _ => 0, fun _ => 0, S.regs.map (·.initDual), _⟩)
        (s' := ⟨a.x0.getD fun _ => 0, a.x0.getD fun _ => 0, fun _ => 0, S.regs.map (·.initDual), _⟩)
        ⟨by rfl, by rfl, by rfl, by rfl, initialResiduals_rel hs (tt := u) (tt' := u') (i := Info.new a.iterations S.tolerance)
          (Ax := A.fwd (a.x0.getD fun _ => 0)) (tm := tm) (tol := S.tolerance)⟩ (by
          rintro k ⟨x, y, t, q, i⟩ ⟨x', y', t', q', i'⟩ ⟨hx, hy, ht, hq, hi⟩
          dsimp only at hx hy ht hi hq
          subst hx hy ht hq
          unfold pdhgStep
          dsimp only
          rw [dual_congr (t := S.term.assignData (some (.array b)) (.array sigma)) he hs]
          exact ⟨⟨rfl, rfl, rfl, rfl, (recordResiduals_rel hs (by
              obtain ⟨h1, h2, h3, h4, h5⟩ := hi
              exact ⟨h1, h2, h3, h4, by simp [h5]⟩)).1⟩, (recordResiduals_rel hs (by
              obtain ⟨h1, h2, h3, h4, h5⟩ := hi
              exact ⟨h1, h2, h3, h4, by simp [h5]⟩)).2⟩)
      obtain ⟨hx, -, -, -, h1, h2, h3, h4, h5⟩ := this
      exact congrArg Except.ok (Prod.ext hx (Prod.ext h1 (Prod.ext h2 (Prod.ext h3 (Prod.ext h4 h5)))))

/-- C02, SART (which has no test mask): data at masked-out pixels have no influence at all, for every row order. -/
theorem C02_sart_isolated {na nu : ℕ} (S : Solver ν (Fin na × Fin nu) Q) (A : AngleOp ν na nu)
    (a : Args ν (Fin na × Fin nu)) (rows : List (Fin na)) (b b' : Fin na × Fin nu → ℝ)
    (h : ∀ p, (∀ m, a.bMask = some m → m p ≠ 0) → b p = b' p) : sart S A b a rows = sart S A b' a rows := by
  have key : ∀ (r : ℝ) p, (r - b p) * (a.bMask.getD fun _ => 1) p = (r - b' p) * (a.bMask.getD fun _ => 1) p := by
    intro r p
    by_cases hp : ∀ m, a.bMask = some m → m p ≠ 0
    · rw [h p hp]
    · push Not at hp
      obtain ⟨m, hm, hz⟩ := hp
      simp [hm, hz]
  have hrow : sartRow A b a = sartRow A b' a := by
    funext sigma tau x k
    unfold sartRow
    cases ha : a.bMask with
    | none => simp only [ha, Option.getD_none, mul_one] at key; simp only [key]
    | some m => simp only [ha, Option.getD_some] at key; simp only [key]
  have hres : sartResidualNorm A b a.bMask = sartResidualNorm A b' a.bMask := by
    funext x
    unfold sartResidualNorm
    simp only [key]
  unfold sart
  unfold sartStep
  rw [hrow, hres]

/-- A small problem used for counterexamples: one voxel seen by two pixels. -/
private noncomputable def twoPixels : Operator (Fin 1) (Fin 2) := matrixOp fun _ _ => 1

private noncomputable def plain (k : Kind (Fin 2)) : Solver (Fin 1) (Fin 2) Unit where
  relaxation := 1
  tolerance := none
  regs := []
  term := .new k none
  termTest := .new k none

/-- C02 does not hold for MLEM: the data are divided by the projection without applying the mask
(src/corrct/solvers.py:782-789), so a masked-out pixel changes the result. -/
theorem C02_mlem_violated : ∃ (a : Args (Fin 1) (Fin 2)) (b b' : Arr (Fin 2)), AgreeOnTraining a b b' ∧
    trainingView (mlem (plain .kl) twoPixels b a) ≠ trainingView (mlem (plain .kl) twoPixels b' a) := by
  refine ⟨{ iterations := 1, bMask := some ![1, 0] }, ![1, 0], ![1, 1], ?_, ?_⟩
  · intro i hi
    have := hi.1 ![1, 0] rfl
    fin_cases i
    · rfl
    · simp at this
  · have he : eps ≤ 1 := by norm_num [eps]
    intro h
    have := congrArg (fun r : Except Err (Arr (Fin 1) × _) => r.map fun p => p.1 0) h
    simp [trainingView, mlem, plain, twoPixels, matrixOp, initBMasks, applyMask, assignData, DataTerm.new, isArrayBg,
      testTerm, forRange, loopFrom, mlemStep, addBackground, clipMask, clip1, bind, Except.bind, Except.map, he,
      Fin.sum_univ_two] at this

/-- C02 does not hold for PDHG with the `l12` term: the group norm is taken before the mask is applied
(src/corrct/solvers.py:1166-1172, src/corrct/data_terms.py:549-555). -/
theorem C02_pdhg_l12_violated : ∃ (a : Args (Fin 1) (Fin 2)) (b b' : Arr (Fin 2)), AgreeOnTraining a b b' ∧
    trainingView (pdhg (plain (.l12 fun _ => 0)) twoPixels b a true b) ≠
    trainingView (pdhg (plain (.l12 fun _ => 0)) twoPixels b' a true b) := by
  refine ⟨{ iterations := 1, bMask := some ![1, 0] }, ![3, 0], ![3, 4], ?_, ?_⟩
  · intro i hi
    have := hi.1 ![1, 0] rfl
    fin_cases i
    · rfl
    · simp at this
  · intro h
    have := congrArg (fun r : Except Err (Arr (Fin 1) × _) => r.map fun p => p.1 0) h
    have h9 : Real.sqrt (3 ^ 2) = 3 := by rw [Real.sqrt_sq] ; norm_num
    have h25 : Real.sqrt (3 ^ 2 + 4 ^ 2) = 5 := by
      rw [show (3 : ℝ) ^ 2 + 4 ^ 2 = 5 ^ 2 by norm_num, Real.sqrt_sq]; norm_num
    have hm1 : max (3 : ℝ) 1 = 3 := by norm_num
    have hm2 : max (5 : ℝ) 1 = 5 := by norm_num
    simp [trainingView, pdhg, pdhgScaling, plain, twoPixels, matrixOp, initBMasks, diagonalScaling, npMax, fixSmall,
      applyMask, assignData, DataTerm.new, testTerm, forRange, loopFrom, pdhgStep, clipMask, clip1, bind, Except.bind,
      Except.map, Fin.sum_univ_two, proxDual, updateDual, initializeDual, subSigmaData, computeSigmaData, Attr.map₂,
      Attr.get, applyThreshold, innerNorm, axisNorm, updateRegDuals, addRegUpdates, recordResiduals, h9, h25, hm1, hm2]
      at this
    norm_num at this

/-! ## C03, C04 -/

omit [Fintype ν] [Fintype ι] in
theorem clipMask_within {a : Args ν ι} (h : SensibleLimits a) (x : Arr ν) : WithinLimits a (clipMask a x) := by
  constructor
  · intro l hl j
    unfold clipMask applyMask
    have hc : l.get j ≤ clip1 (a.lower.map (·.get j)) (a.upper.map (·.get j)) (x j) := by
      cases hu : a.upper with
      | none => simp [clip1, hl]
      | some u => have := h.ordered l u hl hu j; simp [clip1, hl, this]
    cases hm : a.xMask with
    | none => exact hc
    | some m =>
      rcases h.binary m hm j with h0 | h1
      · simpa [h0] using h.lowerZero m l hm hl j h0
      · simpa [h1] using hc
  · intro u hu j
    unfold clipMask applyMask
    have hc : clip1 (a.lower.map (·.get j)) (a.upper.map (·.get j)) (x j) ≤ u.get j := by
      cases hl : a.lower <;> simp [clip1, hu]
    cases hm : a.xMask with
    | none => exact hc
    | some m =>
      rcases h.binary m hm j with h0 | h1
      · simpa [h0] using h.upperZero m u hm hu j h0
      · simpa [h1] using hc

omit [Fintype ν] [Fintype ι] in
theorem clipMask_zero (a : Args ν ι) (x : Arr ν) : ZeroOutsideMask a (clipMask a x) := by
  intro m hm j hj
  simp [clipMask, applyMask, hm, hj]

/-- General form for SIRT: a property of every clipped volume holds for the result if it holds for the start, or if no
tolerance is set and at least one iteration is made. -/
private theorem sirt_prop {S : Solver ν ι Q} {A : Operator ν ι} {b : Arr ι} {a : Args ν ι} {x info S'}
    (h : sirt S A b a = .ok (x, info, S')) (P : Arr ν → Prop) (hc : ∀ x, P (clipMask a x))
    (h0 : P (startVolume a 0) ∨ (S.tolerance = none ∧ 1 ≤ a.iterations)) : P x := by
  obtain ⟨sigma, tau, tt, -, -, hr⟩ := sirt_ok h
  simp only [Prod.mk.injEq] at hr
  rw [hr.1]
  rcases h0 with h0 | ⟨hT, hn⟩
  · refine forRange_inv (P := fun s : XState ν => P s.x) h0 fun k s hs => ?_
    rw [sirtStep_cases]
    dsimp only
    split_ifs
    · exact hs
    · exact hc _
  · refine forRange_est (P := fun s : XState ν => P s.x) hn fun k s => ?_
    rw [sirtStep_cases, hT]
    dsimp only
    rw [recordResiduals_noTol]
    exact hc _

private theorem mlem_prop {S : Solver ν ι Q} {A : Operator ν ι} {b : Arr ι} {a : Args ν ι} {x info S'}
    (h : mlem S A b a = .ok (x, info, S')) (P : Arr ν → Prop) (hc : ∀ x, P (clipMask a x))
    (h0 : P (applyMask a.xMask (startVolume a 1)) ∨ (S.tolerance = none ∧ 1 ≤ a.iterations)) : P x := by
  obtain ⟨tt, info0, -, -, -, -, hr⟩ := mlem_ok h
  simp only [Prod.mk.injEq] at hr
  rw [hr.1]
  rcases h0 with h0 | ⟨hT, hn⟩
  · refine forRange_inv (P := fun s : XState ν => P s.x) h0 fun k s hs => ?_
    unfold mlemStep
    cases S.tolerance with
    | none => exact hc _
    | some t => dsimp only; split_ifs <;> first | exact hs | exact hc _
  · refine forRange_est (P := fun s : XState ν => P s.x) hn fun k s => ?_
    rw [hT]
    exact hc _

private theorem pdhg_prop {S : Solver ν ι Q} {A : Operator ν ι} {b : Arr ι} {a : Args ν ι} {pc rnd x info S'}
    (h : pdhg S A b a pc rnd = .ok (x, info, S')) (P : Arr ν → Prop) (hc : ∀ x, P (clipMask a x))
    (h0 : P (startVolume a 0) ∨ 1 ≤ a.iterations) : P x := by
  obtain ⟨sigma, tau, tt, -, -, hr⟩ := pdhg_ok h
  simp only [Prod.mk.injEq] at hr
  rw [hr.1]
  rcases h0 with h0 | hn
  · exact forRange_inv (P := fun s : PDState ν ι Q => P s.x) h0 fun k s hs => hc _
  · exact forRange_est (P := fun s : PDState ν ι Q => P s.x) hn fun k s => hc _

private theorem fista_prop {S : Solver ν ι Q} {A : Operator ν ι} {b : Arr ι} {a : Args ν ι} {pc rnd x info S'}
    (h : fista S A b a pc rnd = .ok (x, info, S')) (P : Arr ν → Prop) (hc : ∀ x, P (clipMask a x))
    (h0 : P (applyMask a.xMask (startVolume a 0)) ∨ 1 ≤ a.iterations) : P x := by
  obtain ⟨sigma, tau, tt, -, -, hr⟩ := fista_ok h
  simp only [Prod.mk.injEq] at hr
  rw [hr.1]
  rcases h0 with h0 | hn
  · exact forRange_inv (P := fun s : FState ν => P s.x) h0 fun k s hs => hc _
  · exact forRange_est (P := fun s : FState ν => P s.x) hn fun k s => hc _

private theorem sart_prop {na nu : ℕ} {S : Solver ν (Fin na × Fin nu) Q} {A : AngleOp ν na nu}
    {a : Args ν (Fin na × Fin nu)} {rows : List (Fin na)} {b : Fin na × Fin nu → ℝ} {x info}
    (h : sart S A b a rows = .ok (x, info)) (P : Arr ν → Prop) (hc : ∀ x, P (clipMask a x))
    (h0 : P (startVolume a 0) ∨ (1 ≤ a.iterations ∧ rows ≠ [])) : P x := by
  obtain ⟨sigma, tau, -, -, hr⟩ := sart_ok h
  simp only [Prod.mk.injEq] at hr
  rw [hr.1]
  have hfold : ∀ (l : List (Fin na)) x, P x → P (l.foldl (sartRow A b a sigma tau) x) := by
    intro l
    induction l with
    | nil => exact fun x h => h
    | cons k l ih => exact fun x _ => ih _ (hc _)
  have hx : ∀ k s, (sartStep A b a sigma tau rows S.tolerance k s).1.x = rows.foldl (sartRow A b a sigma tau) s.x := by
    intro k s; unfold sartStep; cases S.tolerance <;> rfl
  rcases h0 with h0 | ⟨hn, hrows⟩
  · refine forRange_inv (P := fun s : XState ν => P s.x) h0 fun k s hs => ?_
    rw [hx]; exact hfold _ _ hs
  · refine forRange_est (P := fun s : XState ν => P s.x) hn fun k s => ?_
    rw [hx]
    cases rows with
    | nil => exact absurd rfl hrows
    | cons k l => exact hfold l _ (hc _)

/-- C03, SIRT: the result is within the limits if the start volume is, or if no tolerance is set and at least one
iteration is made. -/
theorem C03_sirt_limits {S : Solver ν ι Q} {A : Operator ν ι} {b : Arr ι} {a : Args ν ι} {x info S'}
    (h : sirt S A b a = .ok (x, info, S')) (hl : SensibleLimits a)
    (h0 : WithinLimits a (startVolume a 0) ∨ (S.tolerance = none ∧ 1 ≤ a.iterations)) : WithinLimits a x :=
  sirt_prop h (WithinLimits a) (clipMask_within hl) h0

/-- C03, MLEM. -/
theorem C03_mlem_limits {S : Solver ν ι Q} {A : Operator ν ι} {b : Arr ι} {a : Args ν ι} {x info S'}
    (h : mlem S A b a = .ok (x, info, S')) (hl : SensibleLimits a)
    (h0 : WithinLimits a (startVolume a 1) ∨ (S.tolerance = none ∧ 1 ≤ a.iterations)) : WithinLimits a x := by
  refine mlem_prop h (WithinLimits a) (clipMask_within hl) (h0.imp_left fun hw => ?_)
  constructor
  · intro l hl' j
    cases hm : a.xMask with
    | none => simpa [applyMask] using hw.1 l hl' j
    | some m =>
      rcases hl.binary m hm j with h0 | h1
      · simpa [applyMask, h0] using hl.lowerZero m l hm hl' j h0
      · simpa [applyMask, h1] using hw.1 l hl' j
  · intro u hu j
    cases hm : a.xMask with
    | none => simpa [applyMask] using hw.2 u hu j
    | some m =>
      rcases hl.binary m hm j with h0 | h1
      · simpa [applyMask, h0] using hl.upperZero m u hm hu j h0
      · simpa [applyMask, h1] using hw.2 u hu j

/-- C03, PDHG: any regularizers, preconditioned or not, with or without tolerance, after at least one iteration. -/
theorem C03_pdhg_limits {S : Solver ν ι Q} {A : Operator ν ι} {b : Arr ι} {a : Args ν ι} {pc rnd x info S'}
    (h : pdhg S A b a pc rnd = .ok (x, info, S')) (hl : SensibleLimits a) (hn : 1 ≤ a.iterations) : WithinLimits a x :=
  pdhg_prop h (WithinLimits a) (clipMask_within hl) (Or.inr hn)

/-- C03, FISTA. -/
theorem C03_fista_limits {S : Solver ν ι Q} {A : Operator ν ι} {b : Arr ι} {a : Args ν ι} {pc rnd x info S'}
    (h : fista S A b a pc rnd = .ok (x, info, S')) (hl : SensibleLimits a) (hn : 1 ≤ a.iterations) : WithinLimits a x :=
  fista_prop h (WithinLimits a) (clipMask_within hl) (Or.inr hn)

/-- C03, SART, for every order of the (at least one) projections. -/
theorem C03_sart_limits {na nu : ℕ} {S : Solver ν (Fin na × Fin nu) Q} {A : AngleOp ν na nu}
    {a : Args ν (Fin na × Fin nu)} {rows : List (Fin na)} {b : Fin na × Fin nu → ℝ} {x info}
    (h : sart S A b a rows = .ok (x, info)) (hl : SensibleLimits a) (hn : 1 ≤ a.iterations) (hr : rows ≠ []) :
    WithinLimits a x :=
  sart_prop h (WithinLimits a) (clipMask_within hl) (Or.inr ⟨hn, hr⟩)

/-- C03, FBP. -/
theorem C03_fbp_limits (A : Operator ν ι) (filt : Arr ι → Arr ι) (w : Option (Arr ι)) (b : Arr ι) (a : Args ν ι)
    (hl : SensibleLimits a) : WithinLimits a (fbp A filt w b a) := clipMask_within hl _

/-- C03 fails for SIRT with a tolerance: if the start volume already meets the tolerance, it is returned as it is, not
clipped (src/corrct/solvers.py:955-967). -/
theorem C03_sirt_early_stop_violated : ∃ (S : Solver (Fin 1) (Fin 1) Unit) (A : Operator (Fin 1) (Fin 1)) (b : Arr (Fin 1))
    (a : Args (Fin 1) (Fin 1)) (x : Arr (Fin 1)) (info : Info) (S' : Solver (Fin 1) (Fin 1) Unit),
    sirt S A b a = .ok (x, info, S') ∧ SensibleLimits a ∧ 1 ≤ a.iterations ∧ ¬ WithinLimits a x := by
  obtain ⟨⟨info, S'⟩, h⟩ := ok_of_map (x := fun _ => -1)
    (e := sirt (Q := Unit) ⟨1, some 1, [], .new .l2 none, .new .l2 none, none⟩ (matrixOp fun (_ _ : Fin 1) => 1)
      (fun _ => -1) { iterations := 1, x0 := some fun _ => -1, lower := some (.scalar 0) }) (by
    simp [sirt, diagonalScaling, npMax, absOrSelf, matrixOp, initBMasks, bind, Except.bind, applyMask, testTerm, forRange,
      loopFrom, sirtStep, recordResiduals, DataTerm.new, assignData, DataTerm.residual, addBackground, residualNorm,
      Attr.get, initialResiduals, Info.new, Except.map])
  refine ⟨_, _, _, _, _, info, S', h, ⟨by simp, by simp, by simp, by simp⟩, le_rfl, fun hw => ?_⟩
  have := hw.1 (.scalar 0) rfl 0
  norm_num [Attr.get] at this

/-- C04, SIRT: zero outside the solution mask. -/
theorem C04_sirt_mask {S : Solver ν ι Q} {A : Operator ν ι} {b : Arr ι} {a : Args ν ι} {x info S'}
    (h : sirt S A b a = .ok (x, info, S'))
    (h0 : ZeroOutsideMask a (startVolume a 0) ∨ (S.tolerance = none ∧ 1 ≤ a.iterations)) : ZeroOutsideMask a x :=
  sirt_prop h (ZeroOutsideMask a) (clipMask_zero a) h0

/-- C04, MLEM: for every iteration count, start and tolerance. -/
theorem C04_mlem_mask {S : Solver ν ι Q} {A : Operator ν ι} {b : Arr ι} {a : Args ν ι} {x info S'}
    (h : mlem S A b a = .ok (x, info, S')) : ZeroOutsideMask a x :=
  mlem_prop h (ZeroOutsideMask a) (clipMask_zero a) (Or.inl fun m hm j hj => by simp [applyMask, hm, hj])

/-- C04, PDHG. -/
theorem C04_pdhg_mask {S : Solver ν ι Q} {A : Operator ν ι} {b : Arr ι} {a : Args ν ι} {pc rnd x info S'}
    (h : pdhg S A b a pc rnd = .ok (x, info, S')) (h0 : ZeroOutsideMask a (startVolume a 0) ∨ 1 ≤ a.iterations) :
    ZeroOutsideMask a x :=
  pdhg_prop h (ZeroOutsideMask a) (clipMask_zero a) h0

/-- C04, FISTA: for every iteration count. -/
theorem C04_fista_mask {S : Solver ν ι Q} {A : Operator ν ι} {b : Arr ι} {a : Args ν ι} {pc rnd x info S'}
    (h : fista S A b a pc rnd = .ok (x, info, S')) : ZeroOutsideMask a x :=
  fista_prop h (ZeroOutsideMask a) (clipMask_zero a) (Or.inl fun m hm j hj => by simp [applyMask, hm, hj])

/-- C04, SART. -/
theorem C04_sart_mask {na nu : ℕ} {S : Solver ν (Fin na × Fin nu) Q} {A : AngleOp ν na nu}
    {a : Args ν (Fin na × Fin nu)} {rows : List (Fin na)} {b : Fin na × Fin nu → ℝ} {x info}
    (h : sart S A b a rows = .ok (x, info))
    (h0 : ZeroOutsideMask a (startVolume a 0) ∨ (1 ≤ a.iterations ∧ rows ≠ [])) : ZeroOutsideMask a x :=
  sart_prop h (ZeroOutsideMask a) (clipMask_zero a) h0

/-- C04, FBP. -/
theorem C04_fbp_mask (A : Operator ν ι) (filt : Arr ι → Arr ι) (w : Option (Arr ι)) (b : Arr ι) (a : Args ν ι) :
    ZeroOutsideMask a (fbp A filt w b a) := clipMask_zero a _

/-- C03 with a tolerance, SIRT: what is returned is the start volume as given, or it is within the limits. -/
theorem C03_sirt_start_or_limits_partial {S : Solver ν ι Q} {A : Operator ν ι} {b : Arr ι} {a : Args ν ι} {x info S'}
    (h : sirt S A b a = .ok (x, info, S')) (hl : SensibleLimits a) : x = startVolume a 0 ∨ WithinLimits a x :=
  sirt_prop h (fun x => x = startVolume a 0 ∨ WithinLimits a x) (fun y => .inr (clipMask_within hl y)) (.inl (.inl rfl))

/-- C03 with a tolerance, MLEM: what is returned is the (masked) start volume, or it is within the limits. -/
theorem C03_mlem_start_or_limits_partial {S : Solver ν ι Q} {A : Operator ν ι} {b : Arr ι} {a : Args ν ι} {x info S'}
    (h : mlem S A b a = .ok (x, info, S')) (hl : SensibleLimits a) :
    x = applyMask a.xMask (startVolume a 1) ∨ WithinLimits a x :=
  mlem_prop h (fun x => x = applyMask a.xMask (startVolume a 1) ∨ WithinLimits a x) (fun y => .inr (clipMask_within hl y))
    (.inl (.inl rfl))

/-- C04 with a tolerance, SIRT: what is returned is the start volume as given, or it is zero outside the mask. -/
theorem C04_sirt_start_or_mask_partial {S : Solver ν ι Q} {A : Operator ν ι} {b : Arr ι} {a : Args ν ι} {x info S'}
    (h : sirt S A b a = .ok (x, info, S')) : x = startVolume a 0 ∨ ZeroOutsideMask a x :=
  sirt_prop h (fun x => x = startVolume a 0 ∨ ZeroOutsideMask a x) (fun y => .inr (clipMask_zero a y)) (.inl (.inl rfl))

/-- C04 fails for SIRT with a tolerance: a start volume that already meets the tolerance is returned as it is, not masked
(src/corrct/solvers.py:955-967). -/
theorem C04_sirt_early_stop_violated : ∃ (S : Solver (Fin 2) (Fin 1) Unit) (A : Operator (Fin 2) (Fin 1)) (b : Arr (Fin 1))
    (a : Args (Fin 2) (Fin 1)) (x : Arr (Fin 2)) (info : Info) (S' : Solver (Fin 2) (Fin 1) Unit),
    sirt S A b a = .ok (x, info, S') ∧ 1 ≤ a.iterations ∧ ¬ ZeroOutsideMask a x := by
  obtain ⟨⟨info, S'⟩, h⟩ := ok_of_map (x := fun _ => 1)
    (e := sirt (Q := Unit) ⟨1, some 1, [], .new .l2 none, .new .l2 none, none⟩ (matrixOp fun (_ : Fin 1) (_ : Fin 2) => 1)
      (fun _ => 2) { iterations := 1, x0 := some fun _ => 1, xMask := some ![1, 0] }) (by
    simp [sirt, diagonalScaling, npMax, absOrSelf, matrixOp, initBMasks, bind, Except.bind, applyMask, testTerm, forRange,
      loopFrom, sirtStep, recordResiduals, DataTerm.new, assignData, DataTerm.residual, addBackground, residualNorm,
      Attr.get, initialResiduals, Info.new, Except.map, Fin.sum_univ_two, one_add_one_eq_two])
  refine ⟨_, _, _, _, _, info, S', h, le_rfl, fun hw => ?_⟩
  simpa using hw ![1, 0] rfl 1 (by simp)

end Verif
