import Verif.Model.FuncOps
import Verif.Props.SolversConv

/-! # Operators given by functions -/

namespace Verif
open Finset Classical DataTerm Verif.Spec

variable {ν ι Q : Type} [Fintype ν] [Fintype ι]

/-- The functions of a matrix. -/
noncomputable def matrixFunctions (M : ι → ν → ℝ) : Operator ν ι := functionsOp (fun x i => ∑ j, M i j * x j) fun y j => ∑ i, M i j * y i

/-- C236, PDHG: the functions of a matrix give, whatever the setting of preconditioning, exactly what the matrix gives without preconditioning. -/
theorem C236_pdhg (M : ι → ν → ℝ) (S : Solver ν ι Q) (b : Arr ι) (a : Args ν ι) (pc : Bool) (rnd : Arr ι) :
    pdhg S (matrixFunctions M) b a pc rnd = pdhg S (matrixOp M) b a false rnd := rfl

/-- C236, FISTA. -/
theorem C236_fista (M : ι → ν → ℝ) (S : Solver ν ι Q) (b : Arr ι) (a : Args ν ι) (pc : Bool) (rnd : Arr ι) :
    fista S (matrixFunctions M) b a pc rnd = fista S (matrixOp M) b a false rnd := rfl

/-- C236, MLEM, which does not use absolute values. -/
theorem C236_mlem (M : ι → ν → ℝ) (S : Solver ν ι Q) (b : Arr ι) (a : Args ν ι) : mlem S (matrixFunctions M) b a = mlem S (matrixOp M) b a := rfl

/-- C236, SIRT, partial: with entries that are not negative the functions give exactly what the matrix gives. (Missing: entries of both signs.) -/
theorem C236_sirt_partial (M : ι → ν → ℝ) (hM : ∀ i j, 0 ≤ M i j) (S : Solver ν ι Q) (b : Arr ι) (a : Args ν ι) :
    sirt S (matrixFunctions M) b a = sirt S (matrixOp M) b a := by
  have e : absOrSelf (matrixFunctions M) = absOrSelf (matrixOp M) := by
    unfold absOrSelf matrixOp matrixFunctions functionsOp
    simp only [abs_of_nonneg (hM _ _)]
  unfold sirt
  rw [e]
  rfl

/-- C236, a symmetric matrix needs only one function: without the second one the solvers compute the same. -/
theorem C236_symmetric_partial (M : ν → ν → ℝ) (hM : ∀ i j, M i j = M j i) (S : Solver ν ν Q) (b : Arr ν) (a : Args ν ν) (pc : Bool) (rnd : Arr ν) :
    let A : Operator ν ν := functionsOpSym fun x i => ∑ j, M i j * x j
    pdhg S A b a pc rnd = pdhg S (matrixOp M) b a false rnd ∧ fista S A b a pc rnd = fista S (matrixOp M) b a false rnd ∧
      mlem S A b a = mlem S (matrixOp M) b a ∧ ((∀ i j, 0 ≤ M i j) → sirt S A b a = sirt S (matrixOp M) b a) := by
  intro A
  have e : A = matrixFunctions M := by
    show functionsOpSym _ = functionsOp _ _
    unfold functionsOpSym functionsOp
    congr 1
    funext y j
    exact sum_congr rfl fun i _ => by rw [hM]
  rw [e]
  exact ⟨C236_pdhg M S b a pc rnd, C236_fista M S b a pc rnd, C236_mlem M S b a, fun h => C236_sirt_partial M h S b a⟩

/-- One row with entries of both signs. -/
noncomputable def signedRow : Fin 1 → Fin 2 → ℝ := fun _ j => if j = 0 then 1 else -1 / 2

theorem signedRow_scaling (ω : ℝ) : diagonalScaling (Q := Q) (absOrSelf (matrixFunctions signedRow)).1 (absOrSelf (matrixFunctions signedRow)).2 [] 1 ω none none =
    .ok (fun _ => 2, fun j => if j = 0 then ω else 2 * ω) := by
  have t0 : (fun j : Fin 2 => |(absOrSelf (matrixFunctions signedRow)).2 (applyMask none fun _ => 1) j|) = fun j => if j = 0 then 1 else 1 / 2 := by
    funext j
    fin_cases j <;> simp [absOrSelf, matrixFunctions, functionsOp, signedRow, applyMask]
    norm_num
  have s0 : (fun j : Fin 1 => |(absOrSelf (matrixFunctions signedRow)).1 (applyMask none fun _ => 1) j|) = fun _ => 1 / 2 := by
    funext j
    simp [absOrSelf, matrixFunctions, functionsOp, signedRow, applyMask, Fin.sum_univ_two]
    norm_num
  have m1 : npMax (fun j : Fin 2 => if j = 0 then (1 : ℝ) else 1 / 2) = 1 := by
    refine le_antisymm (ciSup_le fun j => ?_) ?_
    · dsimp only; split_ifs <;> norm_num
    · exact le_npMax (fun j : Fin 2 => if j = 0 then (1 : ℝ) else 1 / 2) 0
  have m2 : npMax (fun _ : Fin 1 => (1 / 2 : ℝ)) = 1 / 2 := by simp [npMax]
  unfold diagonalScaling
  simp only [List.foldl_nil, t0, s0, m1, m2]
  rw [if_neg one_ne_zero, if_neg (by norm_num)]
  congr 2
  · funext i; simp only [fixSmall, m2]; norm_num
  · funext j
    simp only [fixSmall, m1]
    fin_cases j
    · norm_num
    · norm_num; ring

/-- C236 is violated for SIRT: one datum, two pixels, the row `(1, -1/2)`, given by functions, the data 1, any relaxation from 1 on (the default is 1.95). After `n`
iterations the residual is `(3 ω - 1) ^ n`, at least `2 ^ n`: SIRT diverges; with the matrix it never increases the misfit (C59). -/
theorem C236_sirt_violated (ω : ℝ) (hω : 1 ≤ ω) (n : ℕ) :
    let S : Solver (Fin 2) (Fin 1) Q := ⟨ω, none, [], .new .l2 none, .new .l2 none, none⟩
    ∃ x info S', sirt S (matrixFunctions signedRow) (fun _ => 1) { iterations := n } = .ok (x, info, S') ∧
      |1 - (matrixFunctions signedRow).fwd x 0| = (3 * ω - 1) ^ n ∧ (2 : ℝ) ^ n ≤ (3 * ω - 1) ^ n := by
  intro S
  obtain ⟨⟨x, info, S'⟩, h⟩ := sirt_runs (S := S) (A := matrixFunctions signedRow) (b := fun _ => 1) (a := { iterations := n })
    (by simpa only [initBMasks] using signedRow_scaling (Q := Q) ω) rfl
  refine ⟨x, info, S', h, ?_, pow_le_pow_left₀ (by norm_num) (by linarith) n⟩
  obtain ⟨sigma, tau, tt, hsc, -, hres⟩ := sirt_ok h
  have hsc' := hsc.symm.trans (signedRow_scaling (Q := Q) ω)
  simp only [Except.ok.injEq, Prod.mk.injEq] at hsc' hres
  obtain ⟨rfl, rfl⟩ := hsc'
  rw [hres.1]
  have key := forRange_noBreak (step := sirtStep (matrixFunctions signedRow) { iterations := n } S.regs (S.term.assignData (some (.array fun _ => 1)) (.array fun _ => 2)) tt
      (initBMasks (ι := Fin 1) none none).1 (initBMasks (ι := Fin 1) none none).2 (fun _ => 2) (fun j => if j = 0 then ω else 2 * ω) S.tolerance)
    (fun s : XState (Fin 2) => 1 - (matrixFunctions signedRow).fwd s.x 0) (fun u => (1 - 3 * ω) * u)
    (fun k s => by simp [sirtStep, S, recordResiduals, initBMasks])
    (fun k s => by
      simp [sirtStep, S, recordResiduals, initBMasks, clipMask, clip1, applyMask, matrixFunctions, functionsOp, signedRow, Fin.sum_univ_two, DataTerm.residual,
        DataTerm.assignData, DataTerm.new, addBackground, Attr.get]
      ring) n
  rw [key]
  have it : ∀ n (u : ℝ), (fun u => (1 - 3 * ω) * u)^[n] u = (1 - 3 * ω) ^ n * u := by
    intro n
    induction n with
    | zero => simp
    | succ n ih => intro u; rw [Function.iterate_succ_apply, ih]; ring
  rw [it, abs_mul, abs_pow, abs_of_neg (show 1 - 3 * ω < 0 by linarith)]
  have e0 : (matrixFunctions signedRow).fwd (fun _ => 0) 0 = 0 := by simp [matrixFunctions, functionsOp]
  simp only [Option.getD_none]
  rw [e0]
  norm_num

/-- The default relaxation. -/
example (n : ℕ) := C236_sirt_violated (Q := Unit) 1.95 (by norm_num) n

end Verif
