import Verif.Props.SolversBasic
import Verif.Lemmas.ProxGrad

/-!
# Runs that meet the hypotheses of C02, C03, C04 and C05

A matrix with both signs, two voxels of which one is masked out, three data of which one is masked out, limits, and any number of
iterations.
-/

namespace Verif
open Classical DataTerm

/-- The matrix of the examples. -/
private def runM : Fin 3 → Fin 2 → ℝ := ![![-1, 1], ![2, 2], ![1, 1]]

private def runArgs (n : ℕ) : Args (Fin 2) (Fin 3) :=
  { iterations := n, xMask := some ![1, 0], bMask := some ![1, 1, 0], lower := some (.scalar 0), upper := some (.scalar 5) }

private theorem run_limits (n : ℕ) : SensibleLimits (runArgs n) := by
  refine ⟨?_, ?_, ?_, ?_⟩
  · rintro l u hl hu j; simp [runArgs] at hl hu; norm_num [← hl, ← hu, Attr.get]
  · rintro m hm j; simp [runArgs] at hm; subst hm; fin_cases j <;> simp
  · rintro m l hm hl j _; simp [runArgs] at hl; simp [← hl, Attr.get]
  · rintro m u hm hu j _; simp [runArgs] at hu; norm_num [← hu, Attr.get]

private theorem npMax_ne_zero {κ : Type} [Fintype κ] (x : Arr κ) (k : κ) (h : 0 < x k) : npMax x ≠ 0 :=
  ne_of_gt (lt_of_lt_of_le h (le_npMax x k))

private theorem run_scaling (n : ℕ) (v w : ℝ) : ∃ p, diagonalScaling (Q := Unit) (fun x i => ∑ j, |runM i j| * x j)
    (fun y j => ∑ i, |runM i j| * y i) [] v w (runArgs n).xMask (initBMasks (runArgs n).bMask (runArgs n).bTestMask).1 = .ok p := by
  have h1 : npMax (fun j => abs (∑ i, |runM i j| * (1 * ![1, 1, 0] i))) ≠ 0 :=
    npMax_ne_zero _ 0 (by simp [runM, Fin.sum_univ_three]; norm_num)
  have h2 : npMax (fun i => abs (∑ j, |runM i j| * (1 * ![1, 0] j))) ≠ 0 :=
    npMax_ne_zero _ 0 (by simp [runM, Fin.sum_univ_two])
  unfold diagonalScaling
  simp only [runArgs, initBMasks, applyMask, List.foldl_nil, h1, h2, if_false]
  exact ⟨_, rfl⟩

/-- SIRT, PDHG and FISTA finish on it, for every number of iterations and every tolerance. -/
example (n : ℕ) (tol : Option ℝ) (b : Arr (Fin 3)) (rnd : Arr (Fin 3)) :
    let S : Solver (Fin 2) (Fin 3) Unit := ⟨1 / 2, tol, [], .new .l2 none, .new .l2 none, none⟩
    SensibleLimits (runArgs n) ∧ (∃ r, sirt S (matrixOp runM) b (runArgs n) = .ok r) ∧
      (∃ r, fista S (matrixOp runM) b (runArgs n) true rnd = .ok r) ∧
      ∃ r, pdhg S (matrixOp runM) b (runArgs n) true rnd = .ok r := by
  obtain ⟨p, hp⟩ := run_scaling n 1 (1 / 2)
  obtain ⟨p', hp'⟩ := run_scaling n (1 / 2) (1 / 2)
  exact ⟨run_limits n, sirt_runs hp rfl, fista_runs (p := p) hp rfl, pdhg_runs (p := p') hp' rfl⟩

end Verif
