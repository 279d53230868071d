import Verif.Model.Solvers

/-!
# Model of `src/corrct/param_tuning.py` and `src/corrct/testing.py`

Random permutations are parameters; timings and printing are left out.
-/

namespace Verif

/-- `roundup_to_pow2` (src/corrct/testing.py:27-44), for exact arithmetic. -/
noncomputable def roundupToPow2 (x : ℝ) (p : ℕ) : ℤ := ⌈x / 2 ^ p⌉ * 2 ^ p

/-- `create_random_test_mask` (src/corrct/param_tuning.py:143-168): the first `ceil(size * fraction)` pixels of a random
permutation `perm` of the (flattened) pixel numbers get value 1. -/
noncomputable def randomTestMask (size : ℕ) (fraction : ℝ) (perm : List ℕ) : ℕ → ℝ := fun i =>
  if i ∈ perm.take (⌈(size : ℝ) * fraction⌉.toNat) then 1 else 0

/-- Python's `l[i::k]` for `i ≥ 0`, `k ≥ 1`. -/
def strideFrom (l : List ℕ) (i k : ℕ) : List ℕ := (List.range ((l.length - i + k - 1) / k)).map fun m => l.getD (i + m * k) 0

/-- `create_k_fold_test_masks` (src/corrct/param_tuning.py:171-212); `perm` is the permuted list of pixel numbers. -/
noncomputable def kFoldMasks (k : ℕ) (perm : List ℕ) : List (ℕ → ℝ) :=
  (List.range k).map fun i => fun pixel => if pixel ∈ strideFrom perm i k then 1 else 0

/-- What a task of `_compute_reconstruction` (src/corrct/param_tuning.py:368-415) does: it returns a result or raises. The
task depends on the hyper-parameter only (no shared mutable state between tasks). -/
abbrev Task (H R : Type) := H → Except String R

/-- The loop of `_serial_compute` (src/corrct/param_tuning.py:555-566). -/
def serialCompute {H R : Type} (task : Task H R) : List H → Except String (List R)
  | [] => .ok []
  | h :: hp =>
    match task h with
    | .error e => .error e
    | .ok r =>
      match serialCompute task hp with
      | .error e => .error e
      | .ok l => .ok (r :: l)

/-- The loop of `_parallel_compute` over `as_completed` (src/corrct/param_tuning.py:458-499): the futures complete in the
order `order` (positions in `hp`); each result is stored at the position of its future; the first exception in completion
order is raised again. `none` stands for the initial placeholder of the result list. -/
def parallelLoop {H R : Type} (task : Task H R) (hp : List H) : List ℕ → List (Option R) → Except String (List (Option R))
  | [], recs => .ok recs
  | i :: order, recs =>
    match hp[i]? with
    | none => parallelLoop task hp order recs
    | some h =>
      match task h with
      | .error e => .error e
      | .ok r => parallelLoop task hp order (recs.set i (some r))

/-- `_parallel_compute` (src/corrct/param_tuning.py:418-505). -/
def parallelCompute {H R : Type} (task : Task H R) (hp : List H) (order : List ℕ) : Except String (List (Option R)) :=
  parallelLoop task hp order (List.replicate hp.length none)

/-- `parallel_eval` (src/corrct/param_tuning.py:648-650, 783-797): an external executor, or a number of threads where 0
means serial. -/
inductive ParallelEval where
  | executor
  | threads (n : ℕ)

/-- `BaseParameterTuning.process_hp_vals` (src/corrct/param_tuning.py:748-802); `order` is the completion order, if run in
parallel. -/
def processHpVals {H R : Type} (pe : ParallelEval) (task : Task H R) (hp : List H) (order : List ℕ) :
    Except String (List (Option R)) :=
  match pe with
  | .executor => parallelCompute task hp order
  | .threads 0 => (serialCompute task hp).map fun l => l.map some
  | .threads (_ + 1) => parallelCompute task hp order

/-- `info.residuals_cv_rel[-1]` (src/corrct/param_tuning.py:1232 with src/corrct/solvers.py:199-201); `none` for an empty history
(`IndexError`) or if the initial test residual is 0 (NaN or inf). If no initial test residual was recorded it is `np.inf`, and the quotient 0. -/
noncomputable def cvLoss (info : Info) : Option ℝ :=
  match info.residual0Cv with
  | none => info.residualsCv.getLast?.map fun _ => 0
  | some r0 => if r0 = 0 then none else info.residualsCv.getLast?.map fun r => r / r0

/-- `np.mean(f_vals, axis=0)` for one hyper-parameter, over the test masks (src/corrct/param_tuning.py:1239). -/
noncomputable def cvAverage (losses : List ℝ) : ℝ := losses.sum / losses.length

/-- `np.std(f_vals, axis=0)` for one hyper-parameter (src/corrct/param_tuning.py:1240). -/
noncomputable def cvStd (losses : List ℝ) : ℝ := Real.sqrt (cvAverage (losses.map fun f => (f - cvAverage losses) ^ 2))

/-- One round of `CrossValidation.compute_loss_values` (src/corrct/param_tuning.py:1227-1232): the losses of all
hyper-parameter values with one test mask. `task` returns the reconstruction and its `SolutionInfo`. -/
noncomputable def cvRound {H R : Type} (pe : ParallelEval) (task : Task H (R × Info)) (hp : List H) (order : List ℕ) :
    Except String (List ℝ) :=
  match processHpVals pe task hp order with
  | .error e => .error e
  | .ok recs =>
    match recs.mapM fun r => r.bind fun r => cvLoss r.2 with
    | none => .error "IndexError or division by zero"
    | some f => .ok f

/-- The loop `for ii_avg in range(self.num_averages)` (src/corrct/param_tuning.py:1221-1237). `task m` is the task execution
with test mask `m`; `orders i` the completion order of the tasks in round `i`. -/
noncomputable def cvRounds {M H R : Type} (pe : ParallelEval) (task : M → Task H (R × Info)) (masks : List M) (hp : List H)
    (orders : ℕ → List ℕ) : ℕ → Except String (List (List ℝ))
  | 0 => .ok []
  | n + 1 =>
    match cvRounds pe task masks hp orders n with
    | .error e => .error e
    | .ok fs =>
      match masks[n]? with
      | none => .error "IndexError"
      | some m =>
        match cvRound pe (task m) hp (orders n) with
        | .error e => .error e
        | .ok f => .ok (fs ++ [f])

/-- `CrossValidation.compute_loss_values` (src/corrct/param_tuning.py:1133-1266), without `return_all`: averages, standard
deviations and the losses of each round. `numAverages` and `masks` are the attributes set by the constructor. The checks
that a task function is set and accepts the mask parameter are left out; the average of no round (NaN) is an error. -/
noncomputable def cvCompute {M H R : Type} (pe : ParallelEval) (task : M → Task H (R × Info)) (numAverages : ℕ)
    (masks : List M) (hp : List H) (orders : ℕ → List ℕ) : Except String (List ℝ × List ℝ × List (List ℝ)) :=
  match cvRounds pe task masks hp orders numAverages with
  | .error e => .error e
  | .ok fs =>
    if numAverages = 0 then .error "mean of empty list" else
    let column := fun k => fs.map fun f => f.getD k 0
    .ok ((List.range hp.length).map fun k => cvAverage (column k), (List.range hp.length).map fun k => cvStd (column k), fs)

end Verif
