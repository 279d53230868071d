import Verif.Model.Solvers

/-! Helper lemmas about loops, masks and residual bookkeeping. -/

namespace Verif
open Classical DataTerm

theorem ok_of_map {α β : Type} {e : Except Err (α × β)} {x : α} (h : e.map (·.1) = .ok x) : ∃ y, e = .ok (x, y) := by
  cases e with
  | error e => simp [Except.map] at h
  | ok p => obtain ⟨a, b⟩ := p; simp [Except.map] at h; exact ⟨b, by rw [h]⟩

section loops
variable {S S' : Type}

theorem loopFrom_ind (step : ℕ → S → S × Bool) (P : ℕ → S → Prop) (R : S → Prop) :
    ∀ (n ii : ℕ) (s : S), P ii s →
      (∀ k s, ii ≤ k → k < ii + n → P k s → (step k s).2 = false → P (k + 1) (step k s).1) →
      (∀ k s, ii ≤ k → k < ii + n → P k s → (step k s).2 = true → R (step k s).1) →
      (∀ s, P (ii + n) s → R s) → R (loopFrom step n ii s)
  | 0, ii, s, h0, _, _, hE => by simpa [loopFrom] using hE s h0
  | n + 1, ii, s, h0, hS, hB, hE => by
    rw [loopFrom]
    rcases hst : step ii s with ⟨s', _ | _⟩
    · have hP : P (ii + 1) s' := by
        have := hS ii s le_rfl (by omega) h0 (by rw [hst])
        rwa [hst] at this
      exact loopFrom_ind step P R n (ii + 1) s' hP
        (fun k s h1 h2 => hS k s (by omega) (by omega)) (fun k s h1 h2 => hB k s (by omega) (by omega))
        (fun s h => hE s (by rwa [show ii + (n + 1) = ii + 1 + n by omega]))
    · have := hB ii s le_rfl (by omega) h0 (by rw [hst])
      rwa [hst] at this

theorem forRange_ind {step : ℕ → S → S × Bool} {n : ℕ} {s : S} (P : ℕ → S → Prop) (R : S → Prop) (h0 : P 0 s)
    (hS : ∀ k s, k < n → P k s → (step k s).2 = false → P (k + 1) (step k s).1)
    (hB : ∀ k s, k < n → P k s → (step k s).2 = true → R (step k s).1)
    (hE : ∀ s, P n s → R s) : R (forRange step n s) :=
  loopFrom_ind step P R n 0 s h0 (fun k s _ h => hS k s (by omega)) (fun k s _ h => hB k s (by omega))
    (fun s h => hE s (by simpa using h))

/-- An invariant kept by every iteration (broken or not) holds at the end. -/
theorem forRange_inv {step : ℕ → S → S × Bool} {n : ℕ} {s : S} (P : S → Prop) (h0 : P s)
    (hS : ∀ k s, P s → P (step k s).1) : P (forRange step n s) :=
  forRange_ind (fun _ => P) P h0 (fun k s _ h _ => hS k s h) (fun k s _ h _ => hS k s h) (fun _ h => h)

/-- A property established by every iteration holds at the end if there is at least one iteration. -/
theorem forRange_est {step : ℕ → S → S × Bool} {n : ℕ} {s : S} (P : S → Prop) (hn : 1 ≤ n)
    (hS : ∀ k s, P (step k s).1) : P (forRange step n s) :=
  forRange_ind (fun k s => 1 ≤ k → P s) P (fun h => absurd h (by omega)) (fun k s _ _ _ _ => hS k s)
    (fun k s _ _ _ => hS k s) (fun _ h => h hn)

theorem loopFrom_rel (step : ℕ → S → S × Bool) (step' : ℕ → S' → S' × Bool) (R : S → S' → Prop)
    (hS : ∀ k s s', R s s' → R (step k s).1 (step' k s').1 ∧ (step k s).2 = (step' k s').2) :
    ∀ n ii s s', R s s' → R (loopFrom step n ii s) (loopFrom step' n ii s')
  | 0, _, _, _, h => h
  | n + 1, ii, s, s', h => by
    rw [loopFrom, loopFrom]
    have := hS ii s s' h
    rcases hst : step ii s with ⟨t, b⟩
    rcases hst' : step' ii s' with ⟨t', b'⟩
    rw [hst, hst'] at this
    obtain ⟨h1, h2⟩ := this
    dsimp at h1 h2
    subst h2
    cases b
    · exact loopFrom_rel step step' R hS n (ii + 1) t t' h1
    · exact h1

theorem forRange_rel {step : ℕ → S → S × Bool} {step' : ℕ → S' → S' × Bool} {R : S → S' → Prop} {n : ℕ} {s : S}
    {s' : S'} (h0 : R s s')
    (hS : ∀ k s s', R s s' → R (step k s).1 (step' k s').1 ∧ (step k s).2 = (step' k s').2) :
    R (forRange step n s) (forRange step' n s') := loopFrom_rel step step' R hS n 0 s s' h0

theorem loopFrom_noBreak (step : ℕ → S → S × Bool) (π : S → S') (f : S' → S')
    (hb : ∀ k s, (step k s).2 = false) (hf : ∀ k s, π (step k s).1 = f (π s)) :
    ∀ n ii s, π (loopFrom step n ii s) = f^[n] (π s)
  | 0, _, _ => rfl
  | n + 1, ii, s => by
    rw [loopFrom]
    rcases hst : step ii s with ⟨t, b⟩
    have h1 := hb ii s
    have h2 := hf ii s
    rw [hst] at h1 h2
    dsimp at h1 h2
    subst h1
    rw [Function.iterate_succ_apply, ← h2]
    exact loopFrom_noBreak step π f hb hf n (ii + 1) t

/-- Without breaks, an observed part of the state that evolves by `f` is the `n`-th iterate of `f`. -/
theorem forRange_noBreak {step : ℕ → S → S × Bool} (π : S → S') (f : S' → S')
    (hb : ∀ k s, (step k s).2 = false) (hf : ∀ k s, π (step k s).1 = f (π s)) (n : ℕ) (s : S) :
    π (forRange step n s) = f^[n] (π s) := loopFrom_noBreak step π f hb hf n 0 s

end loops

variable {ν ι Q : Type} [Fintype ν] [Fintype ι]

theorem recordResiduals_none {term termTest : DataTerm ι} {bm : Option (Arr ι)} {ii : ℕ} {Ax : Arr ι} {info : Info} :
    recordResiduals term termTest bm none none ii Ax info = (info, false) := by
  simp [recordResiduals]

theorem recordResiduals_noTol {term termTest : DataTerm ι} {bm tm : Option (Arr ι)} {ii : ℕ} {Ax : Arr ι} {info : Info} :
    (recordResiduals term termTest bm tm none ii Ax info).2 = false := by
  unfold recordResiduals; split_ifs <;> rfl

theorem sirtStep_cases (A : Operator ν ι) (a : Args ν ι) (regs : List (Reg ν Q)) (term termTest : DataTerm ι)
    (bm tm : Option (Arr ι)) (sigma : Arr ι) (tau : Arr ν) (tol : Option ℝ) (ii : ℕ) (s : XState ν) :
    sirtStep A a regs term termTest bm tm sigma tau tol ii s =
      (⟨if (recordResiduals term termTest bm tm tol ii (A.fwd s.x) { s.info with iterations := s.info.iterations + 1 }).2
          then s.x else clipMask a fun j => s.x j + (regs.foldl (fun u r => fun j =>
      u j - (r.updatePrimal (r.proxDual (r.updateDual r.initDual s.x))).1 j)
        (A.adj fun i => term.residual (A.fwd s.x) bm i * sigma i)) j * tau j,
        (recordResiduals term termTest bm tm tol ii (A.fwd s.x) { s.info with iterations := s.info.iterations + 1 }).1⟩,
       (recordResiduals term termTest bm tm tol ii (A.fwd s.x) { s.info with iterations := s.info.iterations + 1 }).2) := by
  unfold sirtStep
  dsimp only
  rcases recordResiduals term termTest bm tm tol ii (A.fwd s.x) { s.info with iterations := s.info.iterations + 1 }
    with ⟨i, _ | _⟩ <;> simp

/-- The intermediate values of a successful `SIRT` call. -/
theorem sirt_ok {S : Solver ν ι Q} {A : Operator ν ι} {b : Arr ι} {a : Args ν ι} {r} (h : sirt S A b a = .ok r) :
    ∃ sigma tau termTest,
      diagonalScaling (absOrSelf A).1 (absOrSelf A).2 S.regs 1 S.relaxation a.xMask (initBMasks a.bMask a.bTestMask).1
        = .ok (sigma, tau) ∧
      let bm := (initBMasks a.bMask a.bTestMask).1
      let tm := (initBMasks a.bMask a.bTestMask).2
      let term := S.term.assignData (some (.array b)) (.array sigma)
      let x0 : Arr ν := a.x0.getD fun _ => 0
      testTerm tm term S.termTest b (.array sigma) = .ok termTest ∧
      let fin := forRange (sirtStep A a S.regs term termTest bm tm sigma tau S.tolerance) a.iterations
        ⟨x0, initialResiduals term termTest bm tm S.tolerance (A.fwd x0) (Info.new a.iterations S.tolerance)⟩
      r = (fin.x, fin.info, { S with term := term, termTest := termTest }) := by
  unfold sirt at h
  rcases hm : initBMasks a.bMask a.bTestMask with ⟨bm, tm⟩
  rw [hm] at h
  simp only [bind, Except.bind] at h
  split at h
  · cases h
  · rename_i p hp
    obtain ⟨sigma, tau⟩ := p
    simp only at h hp
    split at h
    · cases h
    · rename_i tt htt
      simp only [Except.ok.injEq] at h
      exact ⟨sigma, tau, tt, hp, htt, h.symm⟩

/-- The intermediate values of a successful `MLEM` call. -/
theorem mlem_ok {S : Solver ν ι Q} {A : Operator ν ι} {b : Arr ι} {a : Args ν ι} {r} (h : mlem S A b a = .ok r) :
    ∃ termTest info0,
      let bm := (initBMasks a.bMask a.bTestMask).1
      let tm := (initBMasks a.bMask a.bTestMask).2
      let tau := A.adj (applyMask bm fun _ => 1)
      let term := S.term.assignData (some (.array b)) (.scalar 1)
      let x0 : Arr ν := applyMask a.xMask (a.x0.getD fun _ => 1)
      (∀ j, tau j ≠ 0) ∧ ¬ isArrayBg S.term.background ∧
      testTerm tm term S.termTest b (.scalar 1) = .ok termTest ∧
      (info0.residuals = List.replicate a.iterations 0 ∧ info0.residualsCv = List.replicate a.iterations 0 ∧
        info0.iterations = 0 ∧ info0.maxIterations = a.iterations ∧ info0.tolerance = S.tolerance ∧
        info0.residual0 = S.tolerance.map fun _ => term.residualNorm (term.residual (A.fwd x0) bm)) ∧
      let fin := forRange (mlemStep A a term termTest b bm tm tau S.tolerance) a.iterations ⟨x0, info0⟩
      r = (fin.x, fin.info, { S with term := term, termTest := termTest }) := by
  unfold mlem at h
  rcases hm : initBMasks a.bMask a.bTestMask with ⟨bm, tm⟩
  rw [hm] at h
  simp only [bind, Except.bind] at h
  by_cases h1 : ∃ j, A.adj (applyMask bm fun _ => 1) j = 0
  · rw [if_pos h1] at h; cases h
  rw [if_neg h1] at h
  by_cases h2 : isArrayBg (S.term.assignData (some (.array b)) (.scalar 1)).background
  · rw [if_pos h2] at h; cases h
  rw [if_neg h2] at h
  push Not at h1
  split at h
  · cases h
  · rename_i tt htt
    simp only [Except.ok.injEq] at h
    refine ⟨tt, _, h1, h2, htt, ?_, h.symm⟩
    rcases tm with _ | m <;> rcases S.tolerance with _ | t <;> simp [Info.new]

theorem pdhg_ok {S : Solver ν ι Q} {A : Operator ν ι} {b : Arr ι} {a : Args ν ι} {pc : Bool} {rnd : Arr ι} {r}
    (h : pdhg S A b a pc rnd = .ok r) :
    ∃ sigma tau termTest,
      pdhgScaling S A a pc rnd = .ok (sigma, tau) ∧
      let bm := (initBMasks a.bMask a.bTestMask).1
      let tm := (initBMasks a.bMask a.bTestMask).2
      let term := S.term.assignData (some (.array b)) (.array sigma)
      let x0 : Arr ν := a.x0.getD fun _ => 0
      testTerm tm term S.termTest b (.array sigma) = .ok termTest ∧
      let fin := forRange (pdhgStep A a S.regs term termTest bm tm tau S.tolerance) a.iterations
        ⟨x0, x0, term.initializeDual, S.regs.map (·.initDual),
          initialResiduals term termTest bm tm S.tolerance (A.fwd x0) (Info.new a.iterations S.tolerance)⟩
      r = (fin.x, fin.info, { S with term := term, termTest := termTest }) := by
  unfold pdhg at h
  rcases hm : initBMasks a.bMask a.bTestMask with ⟨bm, tm⟩
  rw [hm] at h
  simp only [bind, Except.bind] at h
  split at h
  · cases h
  · rename_i p hp
    obtain ⟨sigma, tau⟩ := p
    simp only at h hp
    split at h
    · cases h
    · rename_i tt htt
      simp only [Except.ok.injEq] at h
      exact ⟨sigma, tau, tt, hp, htt, h.symm⟩

theorem fista_ok {S : Solver ν ι Q} {A : Operator ν ι} {b : Arr ι} {a : Args ν ι} {pc : Bool} {rnd : Arr ι} {r}
    (h : fista S A b a pc rnd = .ok r) :
    ∃ sigma tau termTest,
      fistaScaling S A a pc rnd = .ok (sigma, tau) ∧
      let bm := (initBMasks a.bMask a.bTestMask).1
      let tm := (initBMasks a.bMask a.bTestMask).2
      let term := S.term.assignData (some (.array b)) (.scalar 1)
      let x0 : Arr ν := applyMask a.xMask (a.x0.getD fun _ => 0)
      testTerm tm term S.termTest b (.scalar 1) = .ok termTest ∧
      let fin := forRange (fistaStep A a S.regs S.restartPeriod term termTest bm tm sigma tau S.tolerance) a.iterations
        ⟨x0, x0, 1, initialResiduals term termTest bm tm S.tolerance (A.fwd x0) (Info.new a.iterations S.tolerance)⟩
      r = (fin.x, fin.info, { S with term := term, termTest := termTest }) := by
  unfold fista at h
  rcases hm : initBMasks a.bMask a.bTestMask with ⟨bm, tm⟩
  rw [hm] at h
  simp only [bind, Except.bind] at h
  split at h
  · cases h
  · rename_i p hp
    obtain ⟨sigma, tau⟩ := p
    simp only at h hp
    split at h
    · cases h
    · rename_i tt htt
      simp only [Except.ok.injEq] at h
      exact ⟨sigma, tau, tt, hp, htt, h.symm⟩

end Verif

namespace Verif
open Classical DataTerm
variable {ν Q : Type} [Fintype ν]

theorem sart_ok {na nu : ℕ} {S : Solver ν (Fin na × Fin nu) Q} {A : AngleOp ν na nu} {b : Fin na × Fin nu → ℝ}
    {a : Args ν (Fin na × Fin nu)} {rows : List (Fin na)} {r} (h : sart S A b a rows = .ok r) :
    ∃ sigma tau, sartScaling A S.relaxation a = .ok (sigma, tau) ∧ (S.tolerance.isSome → sartShapesOk na nu) ∧
      let x0 : Arr ν := a.x0.getD fun _ => 0
      let info0 : Info := { Info.new a.iterations S.tolerance with
        residual0 := S.tolerance.map fun _ => sartResidualNorm A b a.bMask x0 }
      let fin := forRange (sartStep A b a sigma tau rows S.tolerance) a.iterations ⟨x0, info0⟩
      r = (fin.x, fin.info) := by
  unfold sart at h
  simp only [bind, Except.bind] at h
  split at h
  · cases h
  · rename_i p hp
    obtain ⟨sigma, tau⟩ := p
    simp only at h hp
    by_cases hc : S.tolerance.isSome ∧ ¬ sartShapesOk na nu
    · rw [if_pos hc] at h; cases h
    rw [if_neg hc] at h
    simp only [Except.ok.injEq] at h
    refine ⟨sigma, tau, hp, fun h => by_contra fun h' => hc ⟨h, h'⟩, ?_⟩
    rw [← h]
    cases hT : S.tolerance <;> simp [Info.new]

end Verif
