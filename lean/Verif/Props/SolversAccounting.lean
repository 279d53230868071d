import Verif.Lemmas.Solvers
import Verif.Spec.Solvers

/-! # C05: iteration accounting and stopping -/

namespace Verif
open Classical DataTerm

variable {ν ι Q : Type} [Fintype ν] [Fintype ι]

/-- How one iteration `k` changes the info. -/
structure RecStep (tol : Option ℝ) (k : ℕ) (i i' : Info) (brk : Bool) : Prop where
  max : i'.maxIterations = i.maxIterations
  it : i'.iterations = i.iterations + 1
  res : i'.residuals = i.residuals ∨ ∃ r, i'.residuals = i.residuals.set k r
  cv : i'.residualsCv = i.residualsCv ∨ ∃ r, i'.residualsCv = i.residualsCv.set k r
  tolSet : ∀ t, tol = some t → ∃ r, i'.residuals = i.residuals.set k r ∧ (brk = true ↔ r < t)
  noTol : tol = none → brk = false

/-- The loop invariant of the bookkeeping after `k` iterations. -/
structure LoopInv (n : ℕ) (tol : Option ℝ) (k : ℕ) (info : Info) : Prop where
  max : info.maxIterations = n
  it : info.iterations = k
  length : info.residuals.length = n
  lengthCv : info.residualsCv.length = n
  zero : ∀ j, k ≤ j → ∀ v, info.residuals[j]? = some v → v = 0
  zeroCv : ∀ j, k ≤ j → ∀ v, info.residualsCv[j]? = some v → v = 0
  above : ∀ t, tol = some t → ∀ j, j < k → ∀ v, info.residuals[j]? = some v → t ≤ v

private theorem get_set_ne {l : List ℝ} {k j : ℕ} {r v : ℝ} (h : j ≠ k) (hv : (l.set k r)[j]? = some v) :
    l[j]? = some v := by
  rwa [List.getElem?_set_ne (Ne.symm h)] at hv

theorem LoopInv.common {n : ℕ} {tol : Option ℝ} {k : ℕ} {i i' : Info} {brk : Bool} (h : LoopInv n tol k i)
    (hs : RecStep tol k i i' brk) : i'.maxIterations = n ∧ i'.iterations = k + 1 ∧ i'.residuals.length = n ∧
      i'.residualsCv.length = n ∧ (∀ j, k + 1 ≤ j → ∀ v, i'.residuals[j]? = some v → v = 0) ∧
      (∀ j, k + 1 ≤ j → ∀ v, i'.residualsCv[j]? = some v → v = 0) ∧
      (∀ t, tol = some t → ∀ j, j < k → ∀ v, i'.residuals[j]? = some v → t ≤ v) := by
  refine ⟨hs.max.trans h.max, by rw [hs.it, h.it], ?_, ?_, ?_, ?_, ?_⟩
  · rcases hs.res with e | ⟨r, e⟩ <;> simp [e, h.length]
  · rcases hs.cv with e | ⟨r, e⟩ <;> simp [e, h.lengthCv]
  · intro j hj v hv
    rcases hs.res with e | ⟨r, e⟩ <;> rw [e] at hv
    · exact h.zero j (by omega) v hv
    · exact h.zero j (by omega) v (get_set_ne (by omega) hv)
  · intro j hj v hv
    rcases hs.cv with e | ⟨r, e⟩ <;> rw [e] at hv
    · exact h.zeroCv j (by omega) v hv
    · exact h.zeroCv j (by omega) v (get_set_ne (by omega) hv)
  · intro t ht j hj v hv
    rcases hs.res with e | ⟨r, e⟩ <;> rw [e] at hv
    · exact h.above t ht j hj v hv
    · exact h.above t ht j hj v (get_set_ne (by omega) hv)

theorem LoopInv.continue {n : ℕ} {tol : Option ℝ} {k : ℕ} {i i' : Info} (hk : k < n) (h : LoopInv n tol k i)
    (hs : RecStep tol k i i' false) : LoopInv n tol (k + 1) i' := by
  obtain ⟨h1, h2, h3, h4, h5, h6, h7⟩ := h.common hs
  refine ⟨h1, h2, h3, h4, h5, h6, fun t ht j hj v hv => ?_⟩
  rcases Nat.lt_succ_iff_lt_or_eq.1 hj with hj | rfl
  · exact h7 t ht j hj v hv
  · obtain ⟨r, e, hr⟩ := hs.tolSet t ht
    rw [e, List.getElem?_set_self (by rw [h.length]; exact hk)] at hv
    obtain rfl : r = v := by simpa using hv
    simpa using hr

theorem LoopInv.break {n : ℕ} {tol : Option ℝ} {k : ℕ} {i i' : Info} (hk : k < n) (h : LoopInv n tol k i)
    (hs : RecStep tol k i i' true) : Accounted n tol i' := by
  obtain ⟨h1, h2, h3, h4, h5, h6, h7⟩ := h.common hs
  refine ⟨h1, by omega, h3, h4, by rw [h2]; exact h5, by rw [h2]; exact h6, fun _ => ⟨by omega, ?_⟩, ?_⟩
  · cases ht : tol with
    | none => simpa using hs.noTol ht
    | some t =>
      obtain ⟨r, e, hr⟩ := hs.tolSet t ht
      refine ⟨t, r, rfl, ?_, hr.1 rfl⟩
      rw [e, h2, Nat.add_sub_cancel, List.getElem?_set_self (by rw [h.length]; exact hk)]
  · intro t ht j hj v hv
    exact h7 t ht j (by omega) v hv

theorem LoopInv.end {n : ℕ} {tol : Option ℝ} {i : Info} (h : LoopInv n tol n i) : Accounted n tol i :=
  ⟨h.max, h.it.le, h.length, h.lengthCv, by rw [h.it]; exact h.zero, by rw [h.it]; exact h.zeroCv,
    fun hlt => absurd h.it (by omega), fun t ht j hj v hv => h.above t ht j (by rw [h.it] at hj; omega) v hv⟩

theorem LoopInv.start {n : ℕ} {tol : Option ℝ} {i : Info} (hr : i.residuals = List.replicate n 0)
    (hc : i.residualsCv = List.replicate n 0) (hi : i.iterations = 0) (hm : i.maxIterations = n) : LoopInv n tol 0 i := by
  refine ⟨hm, hi, by simp [hr], by simp [hc], ?_, ?_, fun t _ j hj => absurd hj (by omega)⟩
  · intro j _ v hv
    rw [hr, List.getElem?_replicate] at hv
    split_ifs at hv
    simpa using hv.symm
  · intro j _ v hv
    rw [hc, List.getElem?_replicate] at hv
    split_ifs at hv
    simpa using hv.symm

/-- Any loop whose iterations do the bookkeeping of `RecStep` is accounted for. -/
theorem loop_accounted {S : Type} {step : ℕ → S → S × Bool} {info : S → Info} {n : ℕ} {tol : Option ℝ} {s : S}
    (h0 : LoopInv n tol 0 (info s)) (hs : ∀ k s, RecStep tol k (info s) (info (step k s).1) (step k s).2) :
    Accounted n tol (info (forRange step n s)) :=
  forRange_ind (P := fun k s => LoopInv n tol k (info s)) (R := fun s => Accounted n tol (info s)) h0
    (fun k s hk h hb => h.continue hk (hb ▸ hs k s)) (fun k s hk h hb => h.break hk (hb ▸ hs k s)) (fun s h => h.end)

theorem recStep_record {t tt : DataTerm ι} {bm tm : Option (Arr ι)} {tol : Option ℝ} {k : ℕ} {Ax : Arr ι}
    {i : Info} : RecStep tol k i
      (recordResiduals t tt bm tm tol k Ax { i with iterations := i.iterations + 1 }).1
      (recordResiduals t tt bm tm tol k Ax { i with iterations := i.iterations + 1 }).2 := by
  cases tol with
  | none =>
    cases tm with
    | none => exact ⟨rfl, rfl, Or.inl rfl, Or.inl rfl, by simp, fun _ => rfl⟩
    | some m =>
      exact ⟨by simp [recordResiduals], by simp [recordResiduals], Or.inr (by simp [recordResiduals]),
        Or.inr ⟨_, by simp [recordResiduals]; rfl⟩, by simp, fun _ => by simp [recordResiduals]⟩
  | some t' =>
    cases tm with
    | none =>
      exact ⟨by simp [recordResiduals], by simp [recordResiduals], Or.inr ⟨_, by simp [recordResiduals]; rfl⟩,
        Or.inl (by simp [recordResiduals]), by rintro t'' ⟨⟩; exact ⟨_, by simp [recordResiduals]; rfl, by simp [recordResiduals]⟩, by simp⟩
    | some m =>
      exact ⟨by simp [recordResiduals], by simp [recordResiduals], Or.inr ⟨_, by simp [recordResiduals]; rfl⟩,
        Or.inr ⟨_, by simp [recordResiduals]; rfl⟩, by rintro t'' ⟨⟩; exact ⟨_, by simp [recordResiduals]; rfl, by simp [recordResiduals]⟩, by simp⟩

omit [Fintype ι] in
theorem inv_initial [Fintype ι] (t tt : DataTerm ι) (bm tm : Option (Arr ι)) (tol : Option ℝ) (Ax : Arr ι) (n : ℕ) :
    LoopInv n tol 0 (initialResiduals t tt bm tm tol Ax (Info.new n tol)) := by
  apply LoopInv.start <;> unfold initialResiduals <;> split_ifs <;> cases tm <;> rfl

/-- C05, SIRT: iteration count, history length, zeros after the end, stopping exactly at the first residual below the
tolerance. -/
theorem C05_sirt_accounting {S : Solver ν ι Q} {A : Operator ν ι} {b : Arr ι} {a : Args ν ι} {x info S'}
    (h : sirt S A b a = .ok (x, info, S')) : Accounted a.iterations S.tolerance info := by
  obtain ⟨sigma, tau, tt, -, -, hr⟩ := sirt_ok h
  simp only [Prod.mk.injEq] at hr
  rw [hr.2.1]
  refine loop_accounted (info := XState.info) (inv_initial _ _ _ _ _ _ _) fun k s => ?_
  rw [sirtStep_cases]
  exact recStep_record

/-- C05, MLEM. -/
theorem C05_mlem_accounting {S : Solver ν ι Q} {A : Operator ν ι} {b : Arr ι} {a : Args ν ι} {x info S'}
    (h : mlem S A b a = .ok (x, info, S')) : Accounted a.iterations S.tolerance info := by
  obtain ⟨tt, info0, -, -, -, ⟨h1, h2, h3, h4, -⟩, hr⟩ := mlem_ok h
  simp only [Prod.mk.injEq] at hr
  rw [hr.2.1]
  refine loop_accounted (info := XState.info) (LoopInv.start h1 h2 h3 h4) fun k s => ?_
  unfold mlemStep
  cases S.tolerance with
  | none =>
    cases (initBMasks a.bMask a.bTestMask).2 with
    | none => exact ⟨rfl, rfl, Or.inl rfl, Or.inl rfl, by simp, fun _ => rfl⟩
    | some m => exact ⟨rfl, rfl, Or.inl rfl, Or.inr ⟨_, rfl⟩, by simp, fun _ => rfl⟩
  | some t =>
    dsimp only
    split_ifs with hlt
    · cases (initBMasks a.bMask a.bTestMask).2 with
      | none => exact ⟨rfl, rfl, Or.inr ⟨_, rfl⟩, Or.inl rfl, by rintro t' ⟨⟩; exact ⟨_, rfl, by simpa using hlt⟩, by simp⟩
      | some m =>
        exact ⟨rfl, rfl, Or.inr ⟨_, rfl⟩, Or.inr ⟨_, rfl⟩, by rintro t' ⟨⟩; exact ⟨_, rfl, by simpa using hlt⟩, by simp⟩
    · cases (initBMasks a.bMask a.bTestMask).2 with
      | none => exact ⟨rfl, rfl, Or.inr ⟨_, rfl⟩, Or.inl rfl, by rintro t' ⟨⟩; exact ⟨_, rfl, by simpa using hlt⟩, by simp⟩
      | some m =>
        exact ⟨rfl, rfl, Or.inr ⟨_, rfl⟩, Or.inr ⟨_, rfl⟩, by rintro t' ⟨⟩; exact ⟨_, rfl, by simpa using hlt⟩, by simp⟩

/-- C05, PDHG. -/
theorem C05_pdhg_accounting {S : Solver ν ι Q} {A : Operator ν ι} {b : Arr ι} {a : Args ν ι} {pc rnd x info S'}
    (h : pdhg S A b a pc rnd = .ok (x, info, S')) : Accounted a.iterations S.tolerance info := by
  obtain ⟨sigma, tau, tt, -, -, hr⟩ := pdhg_ok h
  simp only [Prod.mk.injEq] at hr
  rw [hr.2.1]
  exact loop_accounted (info := PDState.info) (inv_initial _ _ _ _ _ _ _) fun k s => recStep_record

/-- C05, FISTA. -/
theorem C05_fista_accounting {S : Solver ν ι Q} {A : Operator ν ι} {b : Arr ι} {a : Args ν ι} {pc rnd x info S'}
    (h : fista S A b a pc rnd = .ok (x, info, S')) : Accounted a.iterations S.tolerance info := by
  obtain ⟨sigma, tau, tt, -, -, hr⟩ := fista_ok h
  simp only [Prod.mk.injEq] at hr
  rw [hr.2.1]
  exact loop_accounted (info := FState.info) (inv_initial _ _ _ _ _ _ _) fun k s => recStep_record

/-- C05, SART. -/
theorem C05_sart_accounting {na nu : ℕ} {S : Solver ν (Fin na × Fin nu) Q} {A : AngleOp ν na nu}
    {a : Args ν (Fin na × Fin nu)} {rows : List (Fin na)} {b : Fin na × Fin nu → ℝ} {x info}
    (h : sart S A b a rows = .ok (x, info)) : Accounted a.iterations S.tolerance info := by
  obtain ⟨sigma, tau, -, -, hr⟩ := sart_ok h
  simp only [Prod.mk.injEq] at hr
  rw [hr.2]
  refine loop_accounted (info := XState.info) (LoopInv.start rfl rfl rfl rfl) fun k s => ?_
  unfold sartStep
  cases S.tolerance with
  | none => exact ⟨rfl, rfl, Or.inl rfl, Or.inl rfl, by simp, fun _ => rfl⟩
  | some t => exact ⟨rfl, rfl, Or.inr ⟨_, rfl⟩, Or.inl rfl, by rintro t' ⟨⟩; exact ⟨_, rfl, by simp⟩, by simp⟩

/-- C05: without a tolerance all requested iterations are made (consequence of the accounting contract). -/
theorem C05_no_tolerance_runs_all {n : ℕ} {info : Info} (h : Accounted n none info) : info.iterations = n := by
  by_contra hne
  obtain ⟨-, t, v, ht, -⟩ := h.earlyStop (lt_of_le_of_ne h.bound hne)
  cases ht

/-- If every iteration records `f` of its outcome, the last entry is `f` of the final state. -/
theorem loop_last {S : Type} {step : ℕ → S → S × Bool} {info : S → Info} {n : ℕ} {tol : Option ℝ} {s : S}
    (f : S → ℝ) (h0 : LoopInv n tol 0 (info s)) (hs : ∀ k s, RecStep tol k (info s) (info (step k s).1) (step k s).2)
    (hf : ∀ k s, (info (step k s).1).residuals = (info s).residuals.set k (f (step k s).1)) (hn : 1 ≤ n) :
    (info (forRange step n s)).residuals[(info (forRange step n s)).iterations - 1]? = some (f (forRange step n s)) := by
  refine forRange_ind (P := fun k s => LoopInv n tol k (info s) ∧ (1 ≤ k → (info s).residuals[k - 1]? = some (f s)))
    (R := fun s => (info s).residuals[(info s).iterations - 1]? = some (f s))
    ⟨h0, fun h => absurd h (by omega)⟩ ?_ ?_ ?_
  · rintro k s hk ⟨hI, -⟩ hb
    refine ⟨hI.continue hk (hb ▸ hs k s), fun _ => ?_⟩
    rw [hf, Nat.add_sub_cancel, List.getElem?_set_self (by rw [hI.length]; exact hk)]
  · rintro k s hk ⟨hI, -⟩ hb
    rw [(hs k s).it, hI.it, hf, Nat.add_sub_cancel, List.getElem?_set_self (by rw [hI.length]; exact hk)]
  · rintro s ⟨hI, h2⟩
    rw [hI.it]
    exact h2 hn

theorem record_residual {t tt : DataTerm ι} {bm tm : Option (Arr ι)} {tol : Option ℝ} {k : ℕ} {Ax : Arr ι}
    {i : Info} (h : tm.isSome ∨ tol.isSome) : (recordResiduals t tt bm tm tol k Ax i).1.residuals =
      i.residuals.set k (t.residualNorm (t.residual Ax bm)) := by
  unfold recordResiduals
  rw [if_pos h]
  cases tm <;> rfl

theorem testMask_isSome {a : Args ν ι} {tol : Option ℝ} (h : a.bTestMask.isSome ∨ tol.isSome) :
    (initBMasks a.bMask a.bTestMask).2.isSome ∨ tol.isSome := by
  rcases h with h | h
  · left; cases ht : a.bTestMask <;> simp_all [initBMasks]
  · exact Or.inr h

/-- C05: with a test set or a tolerance, the last residual recorded by PDHG is that of the returned volume (also after an
early stop); `S'.term` is the data term the solver used. -/
theorem C05_pdhg_last_residual {S : Solver ν ι Q} {A : Operator ν ι} {b : Arr ι} {a : Args ν ι} {pc rnd x info S'}
    (h : pdhg S A b a pc rnd = .ok (x, info, S')) (hn : 1 ≤ a.iterations)
    (hrec : a.bTestMask.isSome ∨ S.tolerance.isSome) :
    info.residuals[info.iterations - 1]? = some (S'.term.residualNorm
      (S'.term.residual (A.fwd x) (initBMasks a.bMask a.bTestMask).1)) := by
  obtain ⟨sigma, tau, tt, -, -, hr⟩ := pdhg_ok h
  simp only [Prod.mk.injEq] at hr
  obtain ⟨hx, hi, hS⟩ := hr
  rw [hS, hx, hi]
  exact loop_last (info := PDState.info) (fun s => (S.term.assignData (some (.array b)) (.array sigma)).residualNorm
      ((S.term.assignData (some (.array b)) (.array sigma)).residual (A.fwd s.x) (initBMasks a.bMask a.bTestMask).1))
    (inv_initial _ _ _ _ _ _ _) (fun k s => recStep_record) (fun k s => record_residual (testMask_isSome hrec)) hn

/-- C05: the same for FISTA. -/
theorem C05_fista_last_residual {S : Solver ν ι Q} {A : Operator ν ι} {b : Arr ι} {a : Args ν ι} {pc rnd x info S'}
    (h : fista S A b a pc rnd = .ok (x, info, S')) (hn : 1 ≤ a.iterations)
    (hrec : a.bTestMask.isSome ∨ S.tolerance.isSome) :
    info.residuals[info.iterations - 1]? = some (S'.term.residualNorm
      (S'.term.residual (A.fwd x) (initBMasks a.bMask a.bTestMask).1)) := by
  obtain ⟨sigma, tau, tt, -, -, hr⟩ := fista_ok h
  simp only [Prod.mk.injEq] at hr
  obtain ⟨hx, hi, hS⟩ := hr
  rw [hS, hx, hi]
  exact loop_last (info := FState.info) (fun s => (S.term.assignData (some (.array b)) (.scalar 1)).residualNorm
      ((S.term.assignData (some (.array b)) (.scalar 1)).residual (A.fwd s.x) (initBMasks a.bMask a.bTestMask).1))
    (inv_initial _ _ _ _ _ _ _) (fun k s => recStep_record) (fun k s => record_residual (testMask_isSome hrec)) hn

/-- C05: when SIRT stops early, the residual that triggered the stop is that of the returned volume. -/
theorem C05_sirt_stop_residual {S : Solver ν ι Q} {A : Operator ν ι} {b : Arr ι} {a : Args ν ι} {x info S'}
    (h : sirt S A b a = .ok (x, info, S')) (hs : info.iterations < a.iterations) :
    ∃ t, S.tolerance = some t ∧
      S'.term.residualNorm (S'.term.residual (A.fwd x) (initBMasks a.bMask a.bTestMask).1) < t ∧
      info.residuals[info.iterations - 1]? = some (S'.term.residualNorm
        (S'.term.residual (A.fwd x) (initBMasks a.bMask a.bTestMask).1)) := by
  obtain ⟨sigma, tau, tt, -, -, hr⟩ := sirt_ok h
  simp only [Prod.mk.injEq] at hr
  obtain ⟨hx, hi, hS⟩ := hr
  rw [hi] at hs
  rw [hS, hx, hi]
  dsimp only
  generalize S.term.assignData (some (.array b)) (.array sigma) = T at *
  generalize hst : sirtStep A a S.regs T tt (initBMasks a.bMask a.bTestMask).1 (initBMasks a.bMask a.bTestMask).2 sigma tau
    S.tolerance = step at *
  revert hs
  refine forRange_ind (P := fun k (s : XState ν) => LoopInv a.iterations S.tolerance k s.info)
    (R := fun s : XState ν => s.info.iterations < a.iterations → ∃ t, S.tolerance = some t ∧
      T.residualNorm
        (T.residual (A.fwd s.x) (initBMasks a.bMask a.bTestMask).1) < t ∧
      s.info.residuals[s.info.iterations - 1]? = some (T.residualNorm
        (T.residual (A.fwd s.x) (initBMasks a.bMask a.bTestMask).1)))
    (inv_initial _ _ _ _ _ _ _) ?_ ?_ ?_
  · intro k s hk hI hb
    refine hI.continue hk ?_
    rw [← hst, sirtStep_cases] at hb ⊢
    exact hb ▸ recStep_record
  · intro k s hk hI hb _
    rw [← hst, sirtStep_cases] at hb ⊢
    dsimp only at hb ⊢
    have hrs := recStep_record (t := T) (tt := tt)
      (bm := (initBMasks a.bMask a.bTestMask).1) (tm := (initBMasks a.bMask a.bTestMask).2) (tol := S.tolerance)
      (k := k) (Ax := A.fwd s.x) (i := s.info)
    rw [if_pos hb, hrs.it, hI.it, Nat.add_sub_cancel]
    cases hT : S.tolerance with
    | none => rw [hT, recordResiduals_noTol] at hb; cases hb
    | some t =>
      rw [hT] at hb
      rw [record_residual (Or.inr rfl), List.getElem?_set_self (by simp [hI.length, hk])]
      refine ⟨t, rfl, ?_, rfl⟩
      unfold recordResiduals at hb
      simpa using hb
  · intro s hI hlt
    rw [hI.it] at hlt
    exact absurd hlt (lt_irrefl _)

/-- Example: a SIRT run that stops early satisfies the hypotheses of `C05_sirt_stop_residual`. -/
example : ∃ (x : Arr (Fin 1)) (info : Info) (S' : Solver (Fin 1) (Fin 1) Unit),
    sirt (Q := Unit) ⟨1, some 1, [], .new .l2 none, .new .l2 none, none⟩ (matrixOp fun (_ _ : Fin 1) => 1)
      (fun _ => 5) { iterations := 3, x0 := some fun _ => 5 } = .ok (x, info, S') ∧ info.iterations < 3 := by
  obtain ⟨⟨⟨info, S'⟩, h⟩, h1⟩ : (∃ y, sirt (Q := Unit) ⟨1, some 1, [], .new .l2 none, .new .l2 none, none⟩
      (matrixOp fun (_ _ : Fin 1) => 1)
      (fun _ => 5) { iterations := 3, x0 := some fun _ => 5 } = .ok (fun _ => 5, y)) ∧
      (sirt (Q := Unit) ⟨1, some 1, [], .new .l2 none, .new .l2 none, none⟩
      (matrixOp fun (_ _ : Fin 1) => 1)
      (fun _ => 5) { iterations := 3, x0 := some fun _ => 5 }).map (·.2.1.iterations) = .ok 1 := by
    constructor
    · apply ok_of_map
      simp [sirt, diagonalScaling, npMax, absOrSelf, matrixOp, initBMasks, bind, Except.bind, applyMask, testTerm, forRange,
        loopFrom, sirtStep, recordResiduals, DataTerm.new, assignData, DataTerm.residual, addBackground, residualNorm,
        Attr.get, initialResiduals, Info.new, Except.map]
    · simp [sirt, diagonalScaling, npMax, absOrSelf, matrixOp, initBMasks, bind, Except.bind, applyMask, testTerm, forRange,
        loopFrom, sirtStep, recordResiduals, DataTerm.new, assignData, DataTerm.residual, addBackground, residualNorm,
        Attr.get, initialResiduals, Info.new, Except.map]
  refine ⟨_, info, S', h, ?_⟩
  rw [h] at h1
  simp [Except.map] at h1
  omega

end Verif
