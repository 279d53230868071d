import Verif.Lemmas.ProxGrad
import Verif.Lemmas.Solvers

/-!
# C244: iterations can be split over several calls; C245: solver objects can be used again
-/

namespace Verif
open Classical DataTerm

variable {ν ι Q : Type} [Fintype ν] [Fintype ι]

/-! ## Loops whose volume evolves by itself -/

/-- `n` iterations of a step that may stop. -/
private def runF {X : Type} (f : X → X × Bool) : ℕ → X → X
  | 0, x => x
  | n + 1, x => if (f x).2 then (f x).1 else runF f n (f x).1

private theorem loop_runF {T X : Type} (step : ℕ → T → T × Bool) (π : T → X) (f : X → X × Bool)
    (h1 : ∀ k s, π (step k s).1 = (f (π s)).1) (h2 : ∀ k s, (step k s).2 = (f (π s)).2) :
    ∀ n ii s, π (loopFrom step n ii s) = runF f n (π s)
  | 0, _, _ => rfl
  | n + 1, ii, s => by
    have e1 := h1 ii s
    have e2 := h2 ii s
    rw [loopFrom, runF]
    rcases hst : step ii s with ⟨t, _ | _⟩
    · rw [hst] at e1 e2
      dsimp only at e1 e2 ⊢
      rw [← e2, ← e1]
      simp only [Bool.false_eq_true, if_false]
      exact loop_runF step π f h1 h2 n (ii + 1) t
    · rw [hst] at e1 e2
      dsimp only at e1 e2 ⊢
      rw [← e2, ← e1]
      simp

private theorem runF_stop {X : Type} (f : X → X × Bool) (hf : ∀ x, (f x).2 = true → (f x).1 = x) (x : X) (hx : (f x).2 = true) :
    ∀ n, runF f n x = x
  | 0 => rfl
  | n + 1 => by rw [runF, if_pos hx, hf x hx]

private theorem runF_add {X : Type} (f : X → X × Bool) (hf : ∀ x, (f x).2 = true → (f x).1 = x) :
    ∀ n m x, runF f (n + m) x = runF f m (runF f n x)
  | 0, m, x => by rw [Nat.zero_add]; rfl
  | n + 1, m, x => by
    rw [Nat.add_right_comm, runF, runF]
    by_cases h : (f x).2 = true
    · rw [if_pos h, if_pos h, hf x h, runF_stop f hf x h]
    · rw [if_neg h, if_neg h]
      exact runF_add f hf n m _

private theorem record_flag (term termTest termTest' : DataTerm ι) (bm tm : Option (Arr ι)) (tol : Option ℝ) (ii ii' : ℕ) (Ax : Arr ι)
    (info info' : Info) :
    (recordResiduals term termTest bm tm tol ii Ax info).2 = (recordResiduals term termTest' bm tm tol ii' Ax info').2 := by
  unfold recordResiduals
  split_ifs <;> rfl

/-- The volume of SIRT evolves by itself. -/
private theorem sirt_auto (A : Operator ν ι) (a : Args ν ι) (regs : List (Reg ν Q)) (term termTest : DataTerm ι)
    (bm tm : Option (Arr ι)) (sigma : Arr ι) (tau : Arr ν) (tol : Option ℝ) :
    ∃ f : Arr ν → Arr ν × Bool, (∀ x, (f x).2 = true → (f x).1 = x) ∧ ∀ n info x,
      (forRange (sirtStep A a regs term termTest bm tm sigma tau tol) n ⟨x, info⟩).x = runF f n x := by
  refine ⟨fun x => ((sirtStep A a regs term termTest bm tm sigma tau tol 0 ⟨x, Info.new 0 none⟩).1.x,
    (sirtStep A a regs term termTest bm tm sigma tau tol 0 ⟨x, Info.new 0 none⟩).2), ?_, fun n info x => ?_⟩
  · intro x hx
    dsimp only at hx ⊢
    rw [sirtStep_cases] at hx ⊢
    dsimp only at hx ⊢
    rw [if_pos hx]
  · refine loop_runF _ XState.x _ (fun k s => ?_) (fun k s => ?_) n 0 ⟨x, info⟩
    · rw [sirtStep_cases, sirtStep_cases]
      dsimp only
      rw [record_flag term termTest termTest bm tm tol k 0 (A.fwd s.x) _ { Info.new 0 none with iterations := (Info.new 0 none).iterations + 1 }]
    · rw [sirtStep_cases, sirtStep_cases]
      dsimp only
      exact record_flag term termTest termTest bm tm tol k 0 (A.fwd s.x) _ _

/-- C244, SIRT: `n + m` iterations give the volume of `m` iterations started from the result of `n` iterations, for every operator, data
term, regularizers, masks, limits, and with or without tolerance. -/
theorem C244_sirt_partial (S : Solver ν ι Q) (A : Operator ν ι) (b : Arr ι) (a : Args ν ι) (n m : ℕ) (x : Arr ν) (info : Info)
    (S' : Solver ν ι Q) (h : sirt S A b { a with iterations := n } = .ok (x, info, S')) :
    ∃ y i₁ S₁ i₂ S₂, sirt S A b { a with iterations := m, x0 := some x } = .ok (y, i₁, S₁) ∧
      sirt S A b { a with iterations := n + m } = .ok (y, i₂, S₂) := by
  obtain ⟨sigma, tau, tt, hs, htt, hr⟩ := sirt_ok h
  dsimp only at hs htt hr
  obtain ⟨f, hf, hrun⟩ := sirt_auto A a S.regs (S.term.assignData (some (.array b)) (.array sigma)) tt (initBMasks a.bMask a.bTestMask).1
    (initBMasks a.bMask a.bTestMask).2 sigma tau S.tolerance
  have hx : x = runF f n (a.x0.getD fun _ => 0) := by
    have := congrArg Prod.fst hr
    dsimp only at this
    rw [this]
    exact hrun n _ _
  have run : ∀ k z, ∃ i T, sirt S A b { a with iterations := k, x0 := z } = .ok (runF f k (z.getD fun _ => 0), i, T) := by
    intro k z
    unfold sirt
    dsimp only
    rw [hs]
    simp only [bind, Except.bind]
    rw [htt]
    simp only
    exact ⟨_, _, by rw [← hrun k _ (z.getD fun _ => 0)]; rfl⟩
  obtain ⟨i₁, S₁, h1⟩ := run m (some x)
  obtain ⟨i₂, S₂, h2⟩ := run (n + m) a.x0
  refine ⟨_, i₁, S₁, i₂, S₂, h1, ?_⟩
  rw [Option.getD_some, hx, ← runF_add f hf]
  exact h2

/-- The volume of MLEM evolves by itself. -/
private theorem mlem_auto (A : Operator ν ι) (a : Args ν ι) (term termTest : DataTerm ι) (b : Arr ι)
    (bm tm : Option (Arr ι)) (tau : Arr ν) (tol : Option ℝ) :
    ∃ f : Arr ν → Arr ν × Bool, (∀ x, (f x).2 = true → (f x).1 = x) ∧ (∀ x, (f x).2 = false → ∃ z, (f x).1 = clipMask a z) ∧ ∀ n info x,
      (forRange (mlemStep A a term termTest b bm tm tau tol) n ⟨x, info⟩).x = runF f n x := by
  refine ⟨fun x => ((mlemStep A a term termTest b bm tm tau tol 0 ⟨x, Info.new 0 none⟩).1.x,
    (mlemStep A a term termTest b bm tm tau tol 0 ⟨x, Info.new 0 none⟩).2), ?_, ?_, fun n info x => ?_⟩
  · intro x hx
    unfold mlemStep at hx ⊢
    cases tol with
    | none => simp at hx
    | some t =>
      dsimp only at hx ⊢
      split_ifs at hx ⊢
      rfl
  · intro x hx
    unfold mlemStep at hx ⊢
    cases tol with
    | none => exact ⟨_, rfl⟩
    | some t =>
      dsimp only at hx ⊢
      split_ifs at hx ⊢
      exact ⟨_, rfl⟩
  · refine loop_runF _ XState.x _ (fun k s => ?_) (fun k s => ?_) n 0 ⟨x, info⟩
    · unfold mlemStep
      cases tol with
      | none => rfl
      | some t => dsimp only; split_ifs <;> rfl
    · unfold mlemStep
      cases tol with
      | none => rfl
      | some t => dsimp only; split_ifs <;> rfl

private theorem mask_twice {a : Args ν ι} (hm : ∀ m, a.xMask = some m → ∀ j, m j = 0 ∨ m j = 1) (x : Arr ν) :
    applyMask a.xMask (applyMask a.xMask x) = applyMask a.xMask x := by
  funext j
  unfold applyMask
  cases h : a.xMask with
  | none => rfl
  | some m => rcases hm m h j with h0 | h0 <;> simp [h0]

/-- C244, MLEM: the same, for masks of the volume with values 0 and 1. -/
theorem C244_mlem_partial (S : Solver ν ι Q) (A : Operator ν ι) (b : Arr ι) (a : Args ν ι)
    (hm : ∀ m, a.xMask = some m → ∀ j, m j = 0 ∨ m j = 1) (n m : ℕ) (x : Arr ν) (info : Info)
    (S' : Solver ν ι Q) (h : mlem S A b { a with iterations := n } = .ok (x, info, S')) :
    ∃ y i₁ S₁ i₂ S₂, mlem S A b { a with iterations := m, x0 := some x } = .ok (y, i₁, S₁) ∧
      mlem S A b { a with iterations := n + m } = .ok (y, i₂, S₂) := by
  obtain ⟨tt, info0, ht, hbg, htt, -, hr⟩ := mlem_ok h
  dsimp only at ht hbg htt hr
  obtain ⟨f, hf, hclip, hrun⟩ := mlem_auto A a (S.term.assignData (some (.array b)) (.scalar 1)) tt b (initBMasks a.bMask a.bTestMask).1
    (initBMasks a.bMask a.bTestMask).2 (A.adj (applyMask (initBMasks a.bMask a.bTestMask).1 fun _ => 1)) S.tolerance
  have hx : x = runF f n (applyMask a.xMask (a.x0.getD fun _ => 1)) := by
    have := congrArg Prod.fst hr
    dsimp only at this
    rw [this]
    exact hrun n _ _
  have hxm : applyMask a.xMask x = x := by
    have key : ∀ k z, applyMask a.xMask z = z → applyMask a.xMask (runF f k z) = runF f k z := by
      intro k
      induction k with
      | zero => intro z hz; exact hz
      | succ k ih =>
        intro z hz
        rw [runF]
        split_ifs with hb
        · rw [hf z hb]; exact hz
        · refine ih _ ?_
          obtain ⟨w, hw⟩ := hclip z (by simpa using hb)
          rw [hw]
          unfold clipMask
          exact mask_twice hm _
    rw [hx]
    exact key n _ (mask_twice hm _)
  have run : ∀ k z, ∃ i T, mlem S A b { a with iterations := k, x0 := z } = .ok (runF f k (applyMask a.xMask (z.getD fun _ => 1)), i, T) := by
    intro k z
    unfold mlem
    simp only [bind, Except.bind]
    rw [if_neg (by push Not; exact ht), if_neg (show ¬ isArrayBg (S.term.assignData (some (.array b)) (.scalar 1)).background from hbg), htt]
    simp only
    exact ⟨_, _, by rw [← hrun k _ (applyMask a.xMask (z.getD fun _ => 1))]; rfl⟩
  obtain ⟨i₁, S₁, h1⟩ := run m (some x)
  obtain ⟨i₂, S₂, h2⟩ := run (n + m) a.x0
  refine ⟨_, i₁, S₁, i₂, S₂, h1, ?_⟩
  rw [Option.getD_some, hxm, hx, ← runF_add f hf]
  exact h2

/-- C244, SART: the same without tolerance, if both calls go through the projections in the same (random) order. -/
theorem C244_sart_partial {na nu : ℕ} (S : Solver ν (Fin na × Fin nu) Q) (hS : S.tolerance = none) (A : AngleOp ν na nu) (b : Fin na × Fin nu → ℝ)
    (a : Args ν (Fin na × Fin nu)) (rows : List (Fin na)) (n m : ℕ) (x : Arr ν) (info : Info)
    (h : sart S A b { a with iterations := n } rows = .ok (x, info)) :
    ∃ y i₁ i₂, sart S A b { a with iterations := m, x0 := some x } rows = .ok (y, i₁) ∧
      sart S A b { a with iterations := n + m } rows = .ok (y, i₂) := by
  obtain ⟨sigma, tau, hs, -, hr⟩ := sart_ok h
  dsimp only at hs hr
  rw [hS] at hr
  have hrun : ∀ k info z, (forRange (sartStep A b a sigma tau rows none) k ⟨z, info⟩).x =
      (fun z => rows.foldl (sartRow A b a sigma tau) z)^[k] z := by
    intro k info z
    exact forRange_noBreak (step := sartStep A b a sigma tau rows none) XState.x _ (fun _ _ => rfl) (fun _ _ => rfl) k ⟨z, info⟩
  have hx : x = (fun z => rows.foldl (sartRow A b a sigma tau) z)^[n] (a.x0.getD fun _ => 0) := by
    have := congrArg Prod.fst hr
    dsimp only at this
    rw [this]
    exact hrun n _ _
  have run : ∀ k z, ∃ i, sart S A b { a with iterations := k, x0 := z } rows =
      .ok ((fun z => rows.foldl (sartRow A b a sigma tau) z)^[k] (z.getD fun _ => 0), i) := by
    intro k z
    unfold sart
    simp only [bind, Except.bind]
    have hs' : sartScaling A S.relaxation { a with iterations := k, x0 := z } = .ok (sigma, tau) := hs
    rw [hs', hS]
    simp only [Option.isSome_none, Bool.false_eq_true, false_and, if_false]
    exact ⟨_, by rw [← hrun k _ (z.getD fun _ => 0)]; rfl⟩
  obtain ⟨i₁, h1⟩ := run m (some x)
  obtain ⟨i₂, h2⟩ := run (n + m) a.x0
  refine ⟨_, i₁, i₂, h1, ?_⟩
  rw [Option.getD_some, hx, ← Function.iterate_add_apply, Nat.add_comm m n]
  exact h2

/-! ## The accelerated solvers keep state between iterations -/

namespace OneValue

/-- One pixel seen by one detector pixel. -/
def M1 : Fin 1 → Fin 1 → ℝ := fun _ _ => 1

/-- A solver with relaxation 1/2, l2 data term and no regularizer. -/
noncomputable def S1 : Solver (Fin 1) (Fin 1) Unit := ⟨1 / 2, none, [], .new .l2 none, .new .l2 none, none⟩

theorem scaling_aux (rs rt : ℝ) : diagonalScaling (Q := Unit) (fun (x : Arr (Fin 1)) i => ∑ j, |M1 i j| * x j) (fun (y : Arr (Fin 1)) j => ∑ i, |M1 i j| * y i) [] rs rt none none =
    .ok (fun _ => rs, fun _ => rt) := by
  obtain ⟨⟨sigma, tau⟩, hp⟩ := matrix_scaling_ok (Q := Unit) (M := M1) rs rt ⟨0, 0, by simp [M1]⟩
  obtain ⟨R, C, -, -, h1, h2, hC, hR, -, -⟩ := scaling_matrix (M := M1) (a := { iterations := 0 }) hp (by simp [effMask, initBMasks, applyMask])
    (by simp [effXMask, applyMask])
  simp only [effMask, effXMask, initBMasks, applyMask, M1, Finset.univ_unique, Finset.sum_singleton, mul_one, abs_one, Option.getD_none, or_self] at hC hR
  rw [hp]
  congr 2
  · funext i; rw [h1, hR, div_one]
  · funext i; rw [h2, hC, div_one]

theorem fista_sc (n : ℕ) (x0 : Option (Arr (Fin 1))) (rnd : Arr (Fin 1)) :
    fistaScaling S1 (matrixOp M1) { iterations := n, x0 := x0 } true rnd = .ok (fun _ => 1, fun _ => 1 / 2) := by
  simp only [fistaScaling, matrixOp, if_true, initBMasks, S1]
  exact scaling_aux 1 (1 / 2)

theorem pdhg_sc (n : ℕ) (x0 : Option (Arr (Fin 1))) (rnd : Arr (Fin 1)) :
    pdhgScaling S1 (matrixOp M1) { iterations := n, x0 := x0 } true rnd = .ok (fun _ => 1 / 2, fun _ => 1 / 2) := by
  simp only [pdhgScaling, matrixOp, if_true, initBMasks, S1]
  exact scaling_aux (1 / 2) (1 / 2)

/-- One FISTA step on the volume. -/
theorem fista_step (a : Args (Fin 1) (Fin 1)) (hl : a.lower = none) (hu : a.upper = none) (hm : a.xMask = none) (tt : DataTerm (Fin 1)) (k : ℕ) (s : FState (Fin 1)) :
    ∃ i, fistaStep (matrixOp M1) a S1.regs S1.restartPeriod (S1.term.assignData (some (.array fun _ => 1)) (.scalar 1)) tt none none
      (fun _ => 1) (fun _ => 1 / 2) S1.tolerance k s =
      (⟨fun _ => s.y 0 + 1 / 2 * (1 - s.y 0), fun _ => s.y 0 + 1 / 2 * (1 - s.y 0) + fistaMomentum none k s.t * (s.y 0 + 1 / 2 * (1 - s.y 0) - s.x 0),
        fistaTNew none k s.t, i⟩, false) := by
  refine ⟨{ s.info with iterations := s.info.iterations + 1 }, ?_⟩
  have e : ∀ j : Fin 1, j = 0 := fun j => Subsingleton.elim _ _
  simp only [fistaStep, recordResiduals, S1, clipMask, hl, hu, hm, applyMask, clip1, matrixOp, M1, DataTerm.residual, DataTerm.assignData, DataTerm.new, addBackground, Attr.get]
  simp only [Option.isSome_none, Bool.false_eq_true, or_self, if_false, Prod.mk.injEq, FState.mk.injEq, and_true]
  have hn : ∀ f : Arr (Fin 1), applyMask none f = f := fun _ => rfl
  constructor <;> funext j <;> rw [e j] <;> simp [hn]

/-- One PDHG step on the volume. -/
theorem pdhg_step (a : Args (Fin 1) (Fin 1)) (hl : a.lower = none) (hu : a.upper = none) (hm : a.xMask = none) (tt : DataTerm (Fin 1)) (k : ℕ) (s : PDState (Fin 1) (Fin 1) Unit)
    (hq : s.q = []) :
    ∃ i, pdhgStep (matrixOp M1) a S1.regs (S1.term.assignData (some (.array fun _ => 1)) (.array fun _ => 1 / 2)) tt none none
      (fun _ => 1 / 2) S1.tolerance k s =
      (⟨fun _ => s.x 0 - (s.p 0 + s.xRelax 0 * (1 / 2) - 1 / 2) * (2 / 3) * (1 / 2),
        fun _ => s.x 0 - 2 * ((s.p 0 + s.xRelax 0 * (1 / 2) - 1 / 2) * (2 / 3) * (1 / 2)),
        fun _ => (s.p 0 + s.xRelax 0 * (1 / 2) - 1 / 2) * (2 / 3), [], i⟩, false) := by
  refine ⟨{ s.info with iterations := s.info.iterations + 1 }, ?_⟩
  have e : ∀ j : Fin 1, j = 0 := fun j => Subsingleton.elim _ _
  simp only [pdhgStep, recordResiduals, S1, clipMask, hl, hu, hm, hq, applyMask, clip1, matrixOp, M1, DataTerm.proxDual, DataTerm.updateDual, DataTerm.subSigmaData, DataTerm.assignData, DataTerm.new, computeSigma1,
    computeSigmaData, Attr.get, Attr.map, Attr.map₂, addRegUpdates, updateRegDuals]
  simp only [Option.isSome_none, Bool.false_eq_true, or_self, if_false, Prod.mk.injEq, PDState.mk.injEq, and_true]
  have hn : ∀ f : Arr (Fin 1), applyMask none f = f := fun _ => rfl
  refine ⟨?_, ?_, ?_⟩ <;> funext j <;> rw [e j] <;> simp [hn] <;> ring_nf <;> simp

theorem fista_result {n : ℕ} {x0 : Option (Arr (Fin 1))} {rnd : Arr (Fin 1)} {x info S'}
    (h : fista S1 (matrixOp M1) (fun _ => 1) { iterations := n, x0 := x0 } true rnd = .ok (x, info, S')) :
    ∃ i tt, x = (forRange (fistaStep (matrixOp M1) { iterations := n, x0 := x0 } S1.regs S1.restartPeriod (S1.term.assignData (some (.array fun _ => 1)) (.scalar 1)) tt none none
      (fun _ => 1) (fun _ => 1 / 2) S1.tolerance) n ⟨x0.getD fun _ => 0, x0.getD fun _ => 0, 1, i⟩).x := by
  obtain ⟨sigma, tau, tt, hsc, -, hres⟩ := fista_ok h
  rw [fista_sc] at hsc
  simp only [Except.ok.injEq, Prod.mk.injEq] at hsc hres
  obtain ⟨rfl, rfl⟩ := hsc
  exact ⟨_, tt, hres.1⟩

theorem pdhg_result {n : ℕ} {x0 : Option (Arr (Fin 1))} {rnd : Arr (Fin 1)} {x info S'}
    (h : pdhg S1 (matrixOp M1) (fun _ => 1) { iterations := n, x0 := x0 } true rnd = .ok (x, info, S')) :
    ∃ i tt, x = (forRange (pdhgStep (matrixOp M1) { iterations := n, x0 := x0 } S1.regs (S1.term.assignData (some (.array fun _ => 1)) (.array fun _ => 1 / 2)) tt none none
      (fun _ => 1 / 2) S1.tolerance) n ⟨x0.getD fun _ => 0, x0.getD fun _ => 0, fun _ => 0, [], i⟩).x := by
  obtain ⟨sigma, tau, tt, hsc, -, hres⟩ := pdhg_ok h
  rw [pdhg_sc] at hsc
  simp only [Except.ok.injEq, Prod.mk.injEq] at hsc hres
  obtain ⟨rfl, rfl⟩ := hsc
  exact ⟨_, tt, hres.1⟩

end OneValue

open OneValue in
/-- C244 is violated by FISTA: two iterations followed by one iteration give 7/8, three iterations give more. -/
theorem C244_fista_violated (rnd : Arr (Fin 1)) : ∃ x y z i₁ i₂ i₃ S₁ S₂ S₃,
    fista S1 (matrixOp M1) (fun _ => 1) { iterations := 2 } true rnd = .ok (x, i₁, S₁) ∧
    fista S1 (matrixOp M1) (fun _ => 1) { iterations := 1, x0 := some x } true rnd = .ok (y, i₂, S₂) ∧
    fista S1 (matrixOp M1) (fun _ => 1) { iterations := 3 } true rnd = .ok (z, i₃, S₃) ∧ y 0 = 7 / 8 ∧ 7 / 8 < z 0 := by
  obtain ⟨⟨x, i₁, S₁⟩, h1⟩ := fista_runs (b := fun _ => 1) (fista_sc 2 none rnd) rfl
  obtain ⟨⟨y, i₂, S₂⟩, h2⟩ := fista_runs (b := fun _ => 1) (fista_sc 1 (some x) rnd) rfl
  obtain ⟨⟨z, i₃, S₃⟩, h3⟩ := fista_runs (b := fun _ => 1) (fista_sc 3 none rnd) rfl
  refine ⟨x, y, z, i₁, i₂, i₃, S₁, S₂, S₃, h1, h2, h3, ?_, ?_⟩
  · obtain ⟨i, tt, hx⟩ := fista_result h1
    obtain ⟨j, ttj, hy⟩ := fista_result h2
    have hx0 : x 0 = 3 / 4 := by
      obtain ⟨u, hu⟩ := fista_step { iterations := 2 } rfl rfl rfl tt 0 ⟨fun _ => 0, fun _ => 0, 1, i⟩
      rw [hx, forRange, loopFrom]
      simp only [Option.getD_none]
      rw [hu]
      dsimp only
      rw [loopFrom]
      obtain ⟨v, hv⟩ := fista_step { iterations := 2 } rfl rfl rfl tt (0 + 1) ⟨fun _ => (0 : ℝ) + 1 / 2 * (1 - 0), fun _ => 0 + 1 / 2 * (1 - 0) + fistaMomentum none 0 1 * (0 + 1 / 2 * (1 - 0) - 0),
        fistaTNew none 0 1, u⟩
      rw [hv]
      simp only [loopFrom, fistaMomentum]
      norm_num
    obtain ⟨u, hu⟩ := fista_step { iterations := 1, x0 := some x } rfl rfl rfl ttj 0 ⟨x, x, 1, j⟩
    rw [hy, forRange, loopFrom]
    simp only [Option.getD_some]
    rw [hu]
    simp only [loopFrom, hx0]
    norm_num
  · obtain ⟨i, tt, hz⟩ := fista_result h3
    obtain ⟨u, hu⟩ := fista_step { iterations := 3 } rfl rfl rfl tt 0 ⟨fun _ => 0, fun _ => 0, 1, i⟩
    rw [hz, forRange, loopFrom]
    simp only [Option.getD_none]
    rw [hu]
    dsimp only
    rw [loopFrom]
    obtain ⟨v, hv⟩ := fista_step { iterations := 3 } rfl rfl rfl tt (0 + 1) ⟨fun _ => (0 : ℝ) + 1 / 2 * (1 - 0), fun _ => 0 + 1 / 2 * (1 - 0) + fistaMomentum none 0 1 * (0 + 1 / 2 * (1 - 0) - 0),
      fistaTNew none 0 1, u⟩
    rw [hv]
    dsimp only
    rw [loopFrom]
    obtain ⟨w, hw⟩ := fista_step { iterations := 3 } rfl rfl rfl tt (0 + 1 + 1) ⟨_, _, _, v⟩
    rw [hw]
    have m0 : fistaMomentum none 0 1 = 0 := by simp [fistaMomentum]
    have t0 : 1 < fistaTNew none 0 1 := by
      have h5 : 2 < Real.sqrt 5 := by
        rw [Real.lt_sqrt (by norm_num)]; norm_num
      have e5 : fistaTNew none 0 1 = (1 + Real.sqrt 5) / 2 := by
        simp only [fistaTNew]; norm_num
      rw [e5]
      linarith
    have m1 : 0 < fistaMomentum none (0 + 1) (fistaTNew none 0 1) := by
      unfold fistaMomentum
      refine div_pos (by linarith) ?_
      simp only [fistaTNew]
      positivity
    simp only [loopFrom, m0]
    nlinarith [m1]

open OneValue in
/-- C244 is violated by PDHG: one iteration followed by one iteration gives 11/36, two iterations give 7/18. -/
theorem C244_pdhg_violated (rnd : Arr (Fin 1)) : ∃ x y z i₁ i₂ i₃ S₁ S₂ S₃,
    pdhg S1 (matrixOp M1) (fun _ => 1) { iterations := 1 } true rnd = .ok (x, i₁, S₁) ∧
    pdhg S1 (matrixOp M1) (fun _ => 1) { iterations := 1, x0 := some x } true rnd = .ok (y, i₂, S₂) ∧
    pdhg S1 (matrixOp M1) (fun _ => 1) { iterations := 2 } true rnd = .ok (z, i₃, S₃) ∧ y 0 = 11 / 36 ∧ z 0 = 7 / 18 := by
  obtain ⟨⟨x, i₁, S₁⟩, h1⟩ := pdhg_runs (b := fun _ => 1) (pdhg_sc 1 none rnd) rfl
  obtain ⟨⟨y, i₂, S₂⟩, h2⟩ := pdhg_runs (b := fun _ => 1) (pdhg_sc 1 (some x) rnd) rfl
  obtain ⟨⟨z, i₃, S₃⟩, h3⟩ := pdhg_runs (b := fun _ => 1) (pdhg_sc 2 none rnd) rfl
  refine ⟨x, y, z, i₁, i₂, i₃, S₁, S₂, S₃, h1, h2, h3, ?_, ?_⟩
  · obtain ⟨i, tt, hx⟩ := pdhg_result h1
    obtain ⟨j, ttj, hy⟩ := pdhg_result h2
    have hx0 : x 0 = 1 / 6 := by
      obtain ⟨u, hu⟩ := pdhg_step { iterations := 1 } rfl rfl rfl tt 0 ⟨fun _ => 0, fun _ => 0, fun _ => 0, [], i⟩ rfl
      rw [hx, forRange, loopFrom]
      simp only [Option.getD_none]
      rw [hu]
      simp only [loopFrom]
      norm_num
    obtain ⟨u, hu⟩ := pdhg_step { iterations := 1, x0 := some x } rfl rfl rfl ttj 0 ⟨x, x, fun _ => 0, [], j⟩ rfl
    rw [hy, forRange, loopFrom]
    simp only [Option.getD_some]
    rw [hu]
    simp only [loopFrom, hx0]
    norm_num
  · obtain ⟨i, tt, hz⟩ := pdhg_result h3
    obtain ⟨u, hu⟩ := pdhg_step { iterations := 2 } rfl rfl rfl tt 0 ⟨fun _ => 0, fun _ => 0, fun _ => 0, [], i⟩ rfl
    rw [hz, forRange, loopFrom]
    simp only [Option.getD_none]
    rw [hu]
    dsimp only
    rw [loopFrom]
    obtain ⟨v, hv⟩ := pdhg_step { iterations := 2 } rfl rfl rfl tt (0 + 1) ⟨_, _, _, [], u⟩ rfl
    rw [hv]
    simp only [loopFrom]
    norm_num

/-! ## C245: solver objects can be used again -/

/-- The solver object `S'` after some successful calls (with any operators, data and arguments of the same shapes) of the solver `S`. -/
inductive AfterCalls (S : Solver ν ι Q) : Solver ν ι Q → Prop
  | new : AfterCalls S S
  | sirt {S' S'' : Solver ν ι Q} {A : Operator ν ι} {b : Arr ι} {a : Args ν ι} {x i} : AfterCalls S S' → sirt S' A b a = .ok (x, i, S'') → AfterCalls S S''
  | mlem {S' S'' : Solver ν ι Q} {A : Operator ν ι} {b : Arr ι} {a : Args ν ι} {x i} : AfterCalls S S' → mlem S' A b a = .ok (x, i, S'') → AfterCalls S S''
  | pdhg {S' S'' : Solver ν ι Q} {A : Operator ν ι} {b : Arr ι} {a : Args ν ι} {pc rnd x i} : AfterCalls S S' → pdhg S' A b a pc rnd = .ok (x, i, S'') → AfterCalls S S''
  | fista {S' S'' : Solver ν ι Q} {A : Operator ν ι} {b : Arr ι} {a : Args ν ι} {pc rnd x i} : AfterCalls S S' → fista S' A b a pc rnd = .ok (x, i, S'') → AfterCalls S S''

omit [Fintype ι] in
private theorem assign_twice (t : DataTerm ι) (d d' : Option (Attr ι)) (s s' : Attr ι) : (t.assignData d s).assignData d' s' = t.assignData d' s' := by
  rcases t with ⟨k, _, _, _, _, _, _, _, _⟩
  cases k <;> rfl

omit [Fintype ι] in
private theorem assign_bg (t : DataTerm ι) (bg : Option (Attr ι)) (d d' : Option (Attr ι)) (s s' : Attr ι) :
    ({ ({ t with background := bg } : DataTerm ι).assignData d s with background := bg } : DataTerm ι).assignData d' s' =
      ({ t with background := bg } : DataTerm ι).assignData d' s' := by
  rcases t with ⟨k, _, _, _, _, _, _, _, _⟩
  cases k <;> rfl

/-- What the calls leave of a solver object. -/
private structure Used (S S' : Solver ν ι Q) : Prop where
  rel : S'.relaxation = S.relaxation
  tol : S'.tolerance = S.tolerance
  regs : S'.regs = S.regs
  per : S'.restartPeriod = S.restartPeriod
  bg : S'.term.background = S.term.background
  term : ∀ d s, S'.term.assignData d s = S.term.assignData d s
  test : S'.termTest = S.termTest ∨ (¬ isArrayBg S.term.background ∧ ¬ isArrayBg S.termTest.background ∧ S'.termTest.background = S.term.background ∧
    ∀ d s, ({ S'.termTest with background := S.term.background } : DataTerm ι).assignData d s = ({ S.termTest with background := S.term.background } : DataTerm ι).assignData d s)

private theorem used_step {S S' : Solver ν ι Q} (h : Used S S') {tm : Option (Arr ι)} {b : Arr ι} {s s' : Attr ι} {tt : DataTerm ι}
    (ht : testTerm tm (S'.term.assignData (some (.array b)) s) S'.termTest b s' = .ok tt) :
    Used S { S' with term := S'.term.assignData (some (.array b)) s, termTest := tt } where
  rel := h.rel
  tol := h.tol
  regs := h.regs
  per := h.per
  bg := h.bg
  term d u := by rw [assign_twice]; exact h.term d u
  test := by
    unfold testTerm prepareTest at ht
    have hbg : (S'.term.assignData (some (.array b)) s).background = S.term.background := h.bg
    rw [hbg] at ht
    split_ifs at ht with h1 h2
    · push Not at h2
      simp only [Except.ok.injEq] at ht
      right
      rcases h.test with h0 | ⟨ha, hb, hc, hd⟩
      · rw [h0] at h2 ht
        refine ⟨h2.1, h2.2, ?_, fun d u => ?_⟩
        · dsimp only; rw [← ht]; rfl
        · dsimp only; rw [← ht]; exact assign_bg _ _ _ _ _ _
      · refine ⟨ha, hb, ?_, fun d u => ?_⟩
        · dsimp only; rw [← ht]; rfl
        · dsimp only; rw [← ht, ← hd d u]; exact assign_bg _ _ _ _ _ _
    · simp only [Except.ok.injEq] at ht
      rw [← ht]
      exact h.test

private theorem used_after {S S' : Solver ν ι Q} (h : AfterCalls S S') : Used S S' := by
  induction h with
  | new => exact ⟨rfl, rfl, rfl, rfl, rfl, fun _ _ => rfl, Or.inl rfl⟩
  | sirt _ h ih =>
    obtain ⟨sigma, tau, tt, -, htt, hr⟩ := sirt_ok h
    have := congrArg (·.2.2) hr
    dsimp only at this
    rw [this]
    exact used_step ih htt
  | mlem _ h ih =>
    obtain ⟨tt, i0, -, -, htt, -, hr⟩ := mlem_ok h
    have := congrArg (·.2.2) hr
    dsimp only at this
    rw [this]
    exact used_step ih htt
  | pdhg _ h ih =>
    obtain ⟨sigma, tau, tt, -, htt, hr⟩ := pdhg_ok h
    have := congrArg (·.2.2) hr
    dsimp only at this
    rw [this]
    exact used_step ih htt
  | fista _ h ih =>
    obtain ⟨sigma, tau, tt, -, htt, hr⟩ := fista_ok h
    have := congrArg (·.2.2) hr
    dsimp only at this
    rw [this]
    exact used_step ih htt

private theorem used_test {S S' : Solver ν ι Q} (h : Used S S') (m : Arr ι) (b : Arr ι) (s s' : Attr ι) :
    testTerm (some m) (S.term.assignData (some (.array b)) s) S'.termTest b s' = testTerm (some m) (S.term.assignData (some (.array b)) s) S.termTest b s' := by
  unfold testTerm prepareTest
  have hbg : (S.term.assignData (some (.array b)) s).background = S.term.background := rfl
  rw [hbg]
  rcases h.test with h0 | ⟨ha, hb, hc, hd⟩
  · rw [h0]
  · rw [if_neg (show ¬ (isArrayBg S.term.background ∨ isArrayBg S'.termTest.background) by push Not; exact ⟨ha, by rw [hc]; exact ha⟩),
      if_neg (show ¬ (isArrayBg S.term.background ∨ isArrayBg S.termTest.background) by push Not; exact ⟨ha, hb⟩), hd]
    simp

/-- What a call returns: the volume and the info, or the exception. -/
def returned {X : Type} (r : Except Err (Arr ν × Info × X)) : Except Err (Arr ν × Info) := r.map fun r => (r.1, r.2.1)

/-- C245: a SIRT object that has been used returns the same volume and info (or raises the same exception) as a new one. -/
theorem C245_sirt {S S' : Solver ν ι Q} (h : AfterCalls S S') (A : Operator ν ι) (b : Arr ι) (a : Args ν ι) :
    returned (sirt S' A b a) = returned (sirt S A b a) := by
  have u := used_after h
  unfold sirt
  simp only [bind, Except.bind, u.rel, u.tol, u.regs, u.term]
  rcases diagonalScaling (absOrSelf A).1 (absOrSelf A).2 S.regs 1 S.relaxation a.xMask (initBMasks a.bMask a.bTestMask).1 with e | ⟨sigma, tau⟩
  · rfl
  dsimp only
  rcases hm : (initBMasks a.bMask a.bTestMask).2 with _ | m
  · rfl
  · rw [used_test u]
    rcases testTerm (some m) (S.term.assignData (some (.array b)) (.array sigma)) S.termTest b (.array sigma) with e | tt <;> rfl

/-- C245 for MLEM. -/
theorem C245_mlem {S S' : Solver ν ι Q} (h : AfterCalls S S') (A : Operator ν ι) (b : Arr ι) (a : Args ν ι) :
    returned (mlem S' A b a) = returned (mlem S A b a) := by
  have u := used_after h
  unfold mlem
  simp only [bind, Except.bind, u.tol, u.term]
  by_cases h1 : ∃ j, A.adj (applyMask (initBMasks a.bMask a.bTestMask).1 fun _ => 1) j = 0
  · rw [if_pos h1, if_pos h1]
  rw [if_neg h1, if_neg h1]
  by_cases h2 : isArrayBg (S.term.assignData (some (.array b)) (.scalar 1)).background
  · rw [if_pos h2, if_pos h2]
  rw [if_neg h2, if_neg h2]
  rcases hm : (initBMasks a.bMask a.bTestMask).2 with _ | m
  · rfl
  · rw [used_test u]
    rcases testTerm (some m) (S.term.assignData (some (.array b)) (.scalar 1)) S.termTest b (.scalar 1) with e | tt <;> rfl

/-- C245 for PDHG (the random start of the power method being the same). -/
theorem C245_pdhg {S S' : Solver ν ι Q} (h : AfterCalls S S') (A : Operator ν ι) (b : Arr ι) (a : Args ν ι) (pc : Bool) (rnd : Arr ι) :
    returned (pdhg S' A b a pc rnd) = returned (pdhg S A b a pc rnd) := by
  have u := used_after h
  have hsc : pdhgScaling S' A a pc rnd = pdhgScaling S A a pc rnd := by unfold pdhgScaling; rw [u.rel, u.regs]
  unfold pdhg
  simp only [bind, Except.bind, u.tol, u.term, u.regs, hsc]
  rcases pdhgScaling S A a pc rnd with e | ⟨sigma, tau⟩
  · rfl
  dsimp only
  rcases hm : (initBMasks a.bMask a.bTestMask).2 with _ | m
  · rfl
  · rw [used_test u]
    rcases testTerm (some m) (S.term.assignData (some (.array b)) (.array sigma)) S.termTest b (.array sigma) with e | tt <;> rfl

/-- C245 for FISTA (the random start of the power method being the same). -/
theorem C245_fista {S S' : Solver ν ι Q} (h : AfterCalls S S') (A : Operator ν ι) (b : Arr ι) (a : Args ν ι) (pc : Bool) (rnd : Arr ι) :
    returned (fista S' A b a pc rnd) = returned (fista S A b a pc rnd) := by
  have u := used_after h
  have hsc : fistaScaling S' A a pc rnd = fistaScaling S A a pc rnd := by unfold fistaScaling; rw [u.rel]
  unfold fista
  simp only [bind, Except.bind, u.tol, u.term, u.regs, u.per, hsc]
  rcases fistaScaling S A a pc rnd with e | ⟨sigma, tau⟩
  · rfl
  dsimp only
  rcases hm : (initBMasks a.bMask a.bTestMask).2 with _ | m
  · rfl
  · rw [used_test u]
    rcases testTerm (some m) (S.term.assignData (some (.array b)) (.scalar 1)) S.termTest b (.scalar 1) with e | tt <;> rfl

open OneValue in
/-- Non-vacuity: there are objects that have been used, and they have changed. -/
example (rnd : Arr (Fin 1)) : ∃ S', AfterCalls S1 S' ∧ S' ≠ S1 := by
  obtain ⟨⟨x, i, S'⟩, h⟩ := pdhg_runs (b := fun _ => 1) (pdhg_sc 1 none rnd) rfl
  refine ⟨S', .pdhg .new h, fun e => ?_⟩
  obtain ⟨sigma, tau, tt, -, -, hr⟩ := pdhg_ok h
  have h2 := congrArg (·.2.2.term.data.isSome) hr
  dsimp only at h2
  rw [e] at h2
  simp [S1, DataTerm.new, DataTerm.assignData] at h2

end Verif
