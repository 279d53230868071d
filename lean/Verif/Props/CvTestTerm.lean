import Verif.Props.CrossValidation

/-! # C44, C146: the test data term and the background -/

namespace Verif
open Classical DataTerm

variable {ν ι Q : Type} [Fintype ν] [Fintype ι]

/-- The number that a background adds to each pixel, if it is absent or a number. -/
def bgNumber : Option (Attr ι) → Option ℝ
  | none => some 0
  | some (.scalar c) => some c
  | some (.array _) => none

private theorem test_some (a : Args ν ι) {test : Arr ι} (ht : a.bTestMask = some test) :
    (initBMasks a.bMask a.bTestMask).2.isSome = true := by
  rw [ht]; cases h : a.bMask <;> simp [initBMasks]

private theorem prepared_l2 {term tt tt' : DataTerm ι} {b : Arr ι} {sigma : Attr ι} {A : Operator ν ι} {bm : Option (Arr ι)} {test : Arr ι}
    (h : prepareTest term tt b sigma = .ok tt') (hk : tt.kind = .l2) :
    ∃ c, bgNumber term.background = some c ∧ ∀ x, testResidual tt' A bm test x =
      ∑ i, (test i * bm.elim 1 (fun m => m i) * (b i - (A.fwd x i + c))) ^ 2 := by
  unfold prepareTest at h
  split_ifs at h with hb
  cases h
  have hna : ¬ isArrayBg term.background := fun h => hb (Or.inl h)
  have key : ∀ c, (∀ (p : Arr ι) i, ({ tt with background := term.background }.assignData (some (.array b)) sigma).addBackground p i = p i + c) →
      ∀ x, testResidual ({ tt with background := term.background }.assignData (some (.array b)) sigma) A bm test x =
        ∑ i, (test i * bm.elim 1 (fun m => m i) * (b i - (A.fwd x i + c))) ^ 2 := by
    intro c hc x
    unfold testResidual
    have hk' : ({ tt with background := term.background }.assignData (some (.array b)) sigma).kind = .l2 := hk
    unfold residualNorm DataTerm.residual
    simp only [hk', hc]
    refine Finset.sum_congr rfl fun i _ => ?_
    simp only [applyMask, assignData, Attr.get]
    ring
  cases hbg : term.background with
  | none => exact ⟨0, rfl, by rw [hbg] at key; exact key 0 fun p i => by simp [addBackground, assignData]⟩
  | some v =>
    cases v with
    | scalar c => exact ⟨c, rfl, by rw [hbg] at key; exact key c fun p i => by simp [addBackground, assignData, Attr.get]⟩
    | array v => rw [hbg] at hna; exact absurd trivial hna

/-- The solvers, run with their scaling vectors. -/
inductive Run (S : Solver ν ι Q) (A : Operator ν ι) (b : Arr ι) (a : Args ν ι) : Except Err (Arr ν × Info × Solver ν ι Q) → Prop
  | sirt : Run S A b a (sirt S A b a)
  | mlem : Run S A b a (mlem S A b a)
  | pdhg (pc : Bool) (rnd : Arr ι) : Run S A b a (pdhg S A b a pc rnd)
  | fista (pc : Bool) (rnd : Arr ι) : Run S A b a (fista S A b a pc rnd)

/-- C44, what is measured: with the l2 test term, the test residual in the scores of all iterative solvers is the squared distance, over
the test pixels, between the data and the projection plus the background of the *data term* — whatever background the test term was
given. -/
theorem C44_test_residual {S : Solver ν ι Q} {A : Operator ν ι} {b : Arr ι} {a : Args ν ι} {r x info S'} {test : Arr ι}
    (hr : Run S A b a r) (h : r = .ok (x, info, S')) (ht : a.bTestMask = some test) (hk : S.termTest.kind = .l2) :
    ∃ c, bgNumber S.term.background = some c ∧ ∀ x, testResidual S'.termTest A a.bMask test x =
      ∑ i, (test i * a.bMask.elim 1 (fun m => m i) * (b i - (A.fwd x i + c))) ^ 2 := by
  have hs := test_some a ht
  have main : ∀ (sigma : Attr ι) (tt : DataTerm ι), testTerm (initBMasks a.bMask a.bTestMask).2 (S.term.assignData (some (.array b)) sigma)
      S.termTest b sigma = .ok tt → S'.termTest = tt →
      ∃ c, bgNumber S.term.background = some c ∧ ∀ x, testResidual S'.termTest A a.bMask test x =
        ∑ i, (test i * a.bMask.elim 1 (fun m => m i) * (b i - (A.fwd x i + c))) ^ 2 := by
    intro sigma tt h1 h2
    unfold testTerm at h1
    rw [if_pos hs] at h1
    rw [h2]
    exact prepared_l2 h1 hk
  cases hr with
  | sirt =>
    obtain ⟨sigma, tau, tt, -, h1, h2⟩ := sirt_ok h
    simp only [Prod.mk.injEq] at h2
    exact main _ tt h1 (by rw [h2.2.2])
  | mlem =>
    obtain ⟨tt, info0, -, -, h1, -, h2⟩ := mlem_ok h
    simp only [Prod.mk.injEq] at h2
    exact main _ tt h1 (by rw [h2.2.2])
  | pdhg pc rnd =>
    obtain ⟨sigma, tau, tt, -, h1, h2⟩ := pdhg_ok h
    simp only [Prod.mk.injEq] at h2
    exact main _ tt h1 (by rw [h2.2.2])
  | fista pc rnd =>
    obtain ⟨sigma, tau, tt, -, h1, h2⟩ := fista_ok h
    simp only [Prod.mk.injEq] at h2
    exact main _ tt h1 (by rw [h2.2.2])

/-- C146 is violated: with an array as background no iterative solver gives a result if there is a test mask, for any operator, data,
masks and settings. -/
theorem C146_array_background_violated {S : Solver ν ι Q} {A : Operator ν ι} {b : Arr ι} {a : Args ν ι} {r} {test : Arr ι} {v : Arr ι}
    (hr : Run S A b a r) (ht : a.bTestMask = some test) (hb : S.term.background = some (.array v)) : ∃ e, r = .error e := by
  have hs := test_some a ht
  cases r with
  | error e => exact ⟨e, rfl⟩
  | ok q =>
    exfalso
    obtain ⟨x, info, S'⟩ := q
    have main : ∀ (sigma : Attr ι) (tt : DataTerm ι), testTerm (initBMasks a.bMask a.bTestMask).2
        (S.term.assignData (some (.array b)) sigma) S.termTest b sigma = .ok tt → False := by
      intro sigma tt h1
      unfold testTerm prepareTest at h1
      rw [if_pos hs, if_pos (Or.inl (by simp [assignData, hb, isArrayBg]))] at h1
      cases h1
    generalize hq : (Except.ok (x, info, S') : Except Err _) = r at hr
    have h := hq.symm
    cases hr with
    | sirt => obtain ⟨sigma, tau, tt, -, h1, -⟩ := sirt_ok h; exact main _ tt h1
    | mlem => obtain ⟨tt, info0, -, -, h1, -⟩ := mlem_ok h; exact main _ tt h1
    | pdhg pc rnd => obtain ⟨sigma, tau, tt, -, h1, -⟩ := pdhg_ok h; exact main _ tt h1
    | fista pc rnd => obtain ⟨sigma, tau, tt, -, h1, -⟩ := fista_ok h; exact main _ tt h1

/-- C146, MLEM is worse: with an array as background it gives no result even without a test mask. -/
theorem C146_mlem_array_background_violated {S : Solver ν ι Q} {A : Operator ν ι} {b : Arr ι} {a : Args ν ι} {v : Arr ι}
    (hb : S.term.background = some (.array v)) : ∃ e, mlem S A b a = .error e := by
  rcases h : mlem S A b a with e | r
  · exact ⟨e, rfl⟩
  · obtain ⟨tt, info0, -, h1, -⟩ := mlem_ok h
    exact absurd (by rw [hb]; trivial) h1

/-- C146, what works: SIRT accepts an array background without a test mask, and a number with one. -/
theorem C146_background_partial {S : Solver ν ι Q} {A : Operator ν ι} {b : Arr ι} {a : Args ν ι} {p}
    (h : diagonalScaling (absOrSelf A).1 (absOrSelf A).2 S.regs 1 S.relaxation a.xMask (initBMasks a.bMask a.bTestMask).1 = .ok p)
    (hb : a.bTestMask = none ∨ (bgNumber S.term.background).isSome ∧ (bgNumber S.termTest.background).isSome) :
    ∃ r, sirt S A b a = .ok r := by
  rcases hb with ht | ⟨h1, h2⟩
  · exact sirt_runs h ht
  · have hna : ∀ o : Option (Attr ι), (bgNumber o).isSome → ¬ isArrayBg o := by
      intro o ho
      match o with
      | none => simp [isArrayBg]
      | some (.scalar c) => simp [isArrayBg]
      | some (.array v) => simp [bgNumber] at ho
    unfold sirt
    rcases hm : initBMasks a.bMask a.bTestMask with ⟨bm, tm⟩
    rw [hm] at h
    simp only at h
    simp only [bind, Except.bind, h]
    have ht : ∃ t, testTerm tm (S.term.assignData (some (.array b)) (.array p.1)) S.termTest b (.array p.1) = .ok t := by
      unfold testTerm prepareTest
      split_ifs with h3 h4
      · exact absurd h4 (not_or.2 ⟨hna _ h1, hna _ h2⟩)
      · exact ⟨_, rfl⟩
      · exact ⟨_, rfl⟩
    obtain ⟨t, ht⟩ := ht
    rw [ht]
    exact ⟨_, rfl⟩

/-- The hypotheses are met: SIRT with a background of 2, a test mask and a start volume of 1. -/
example : ∃ r, sirt (Q := Unit) ⟨1, none, [], .new .l2 (some (.scalar 2)), .new .l2 none, none⟩
    (matrixOp fun (_ : Fin 2) (_ : Fin 1) => 1) ![1, 5] { iterations := 2, bTestMask := some ![0, 1] } = .ok r := by
  have hp : ∃ p, diagonalScaling (absOrSelf (matrixOp fun (_ : Fin 2) (_ : Fin 1) => 1)).1
      (absOrSelf (matrixOp fun (_ : Fin 2) (_ : Fin 1) => 1)).2 ([] : List (Reg (Fin 1) Unit)) 1 1 none
      (initBMasks none (some ![0, 1])).1 = .ok p := by
    simp [diagonalScaling, npMax, absOrSelf, matrixOp, initBMasks, applyMask, Fin.sum_univ_two]
  obtain ⟨p, hp⟩ := hp
  exact C146_background_partial (p := p) hp (Or.inr ⟨by simp [bgNumber, DataTerm.new], by simp [bgNumber, DataTerm.new]⟩)

end Verif
