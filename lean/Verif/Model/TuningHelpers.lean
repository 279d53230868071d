import Verif.Model.ParamTuning
import Mathlib.Data.Nat.Digits.Defs

/-!
# Model of the helpers of `src/corrct/param_tuning.py`: durations, performance meters, task functions, errors
-/

namespace Verif
open Classical

/-! ## Durations -/

/-- The numbers of `format_time`: hours, minutes, seconds, milliseconds (src/corrct/param_tuning.py:49-52), for a non-negative number of
seconds; Python's `x % m` is `x - m * floor(x / m)`. -/
noncomputable def timeParts (t : ℝ) : ℕ × ℕ × ℕ × ℕ :=
  let pyMod := fun x m : ℝ => x - m * ⌊x / m⌋
  let sec := pyMod t 60
  (⌊t / 3600⌋.toNat, ⌊pyMod t 3600 / 60⌋.toNat, ⌊sec⌋.toNat, ⌊(sec - ⌊sec⌋) * 1000⌋.toNat)

/-- `f"{n:0wd}"` for a natural number and `w ≥ 1`: its decimal digits, with zeros in front up to `w` characters. -/
def formatInt (w n : ℕ) : List Char :=
  let d := (Nat.digits 10 n).reverse.map Nat.digitChar
  List.replicate (w - d.length) '0' ++ d

/-- The string of `format_time` (src/corrct/param_tuning.py:53). -/
noncomputable def formatTime (t : ℝ) : List Char :=
  let p := timeParts t
  formatInt 2 p.1 ++ [':'] ++ formatInt 2 p.2.1 ++ [':'] ++ formatInt 2 p.2.2.1 ++ ['.'] ++ formatInt 3 p.2.2.2

/-! ## Performance meters -/

/-- `PerfMeterTask` (src/corrct/param_tuning.py:56-62). -/
structure PerfTask where
  init : ℝ
  exec : ℝ
  total : ℝ

/-- `PerfMeterBatch` (src/corrct/param_tuning.py:65-72). -/
structure PerfBatch where
  init : ℝ := 0
  proc : ℝ := 0
  total : ℝ := 0
  tasks : List PerfTask := []

/-- `PerfMeterBatch.append` (src/corrct/param_tuning.py:74-84). -/
noncomputable def PerfBatch.append (b : PerfBatch) (t : PerfTask) : PerfBatch :=
  { b with proc := b.proc + t.total, total := b.total + t.total, tasks := b.tasks ++ [t] }

/-- `PerfMeterBatch.__add__` (src/corrct/param_tuning.py:86-106). -/
noncomputable def PerfBatch.add (a b : PerfBatch) : PerfBatch :=
  ⟨a.init + b.init, a.proc + b.proc, a.total + b.total, a.tasks ++ b.tasks⟩

/-- The ratio printed by `PerfMeterBatch.__str__` (src/corrct/param_tuning.py:121-129); `none` if it is not printed. -/
noncomputable def PerfBatch.ratio (b : PerfBatch) : Option ℝ :=
  if b.tasks = [] then none
  else if 0 < b.proc then some ((b.tasks.map PerfTask.total).sum / b.tasks.length * b.tasks.length / b.proc) else none

/-- The meter of a task whose clock readings are `c0`, `c1`, `c2` (src/corrct/param_tuning.py:402-413). -/
noncomputable def perfTask (c0 c1 c2 : ℝ) : PerfTask := ⟨c1 - c0, c2 - c1, c2 - c0⟩

/-- The meter of a serial batch of `n` tasks (src/corrct/param_tuning.py:542-566): `clock k` is the `k`-th reading of the clock: two
before the loop, three for each task, one after the loop. -/
noncomputable def serialPerf (clock : ℕ → ℝ) (n : ℕ) : PerfBatch :=
  ⟨clock 1 - clock 0, clock (2 + 3 * n) - clock 1, clock (2 + 3 * n) - clock 0,
   (List.range n).map fun i => perfTask (clock (2 + 3 * i)) (clock (3 + 3 * i)) (clock (4 + 3 * i))⟩

/-- The meter of a parallel batch (src/corrct/param_tuning.py:458-505): the readings of the batch, and those of the tasks, stored by the
position of the hyper-parameter. -/
noncomputable def parallelPerf (c0 c1 c2 : ℝ) (readings : List (ℝ × ℝ × ℝ)) : PerfBatch :=
  ⟨c1 - c0, c2 - c1, c2 - c0, readings.map fun r => perfTask r.1 r.2.1 r.2.2⟩

/-! ## Task functions -/

/-- Kinds of parameters of a Python function. -/
inductive ParamKind where
  | positionalOnly
  | positionalOrKeyword
  | varPositional
  | keywordOnly
  | varKeyword
  deriving DecidableEq

/-- A parameter of a Python function: its name, its kind, and whether it has a default value. -/
structure PyParam where
  name : String
  kind : ParamKind
  default : Bool

/-- Whether a function with the given parameters (in order) accepts a call with `npos` positional arguments and the keyword arguments `kws`;
otherwise the call raises a `TypeError`. These are the rules of Python's calls. -/
def accepts (sig : List PyParam) (npos : ℕ) (kws : List String) : Prop :=
  let positional := sig.filter fun p => p.kind = .positionalOnly ∨ p.kind = .positionalOrKeyword
  let filled := positional.take npos
  let byKeyword := (positional.drop npos).filter (fun p => p.kind = .positionalOrKeyword) ++ sig.filter fun p => p.kind = .keywordOnly
  (npos ≤ positional.length ∨ ∃ p ∈ sig, p.kind = .varPositional) ∧
  (∀ k ∈ kws, ((∃ p ∈ byKeyword, p.name = k) ∨ ∃ p ∈ sig, p.kind = .varKeyword) ∧
    ∀ p ∈ filled, p.kind = .positionalOrKeyword → p.name ≠ k) ∧
  (∀ p ∈ positional.drop npos ++ sig.filter fun p => p.kind = .keywordOnly, p.default = false → p.name ∈ kws ∧ p.kind ≠ .positionalOnly)

/-- The check of the setter of `task_init_function` (src/corrct/param_tuning.py:670-687): exactly one parameter. -/
def initFunctionOk (sig : List PyParam) : Prop := sig.length = 1

/-- The check of the setter of `task_exec_function` (src/corrct/param_tuning.py:689-703): at least one parameter. -/
def execFunctionOk (sig : List PyParam) : Prop := 1 ≤ sig.length

/-- Whether the two calls of `_compute_reconstruction` go through (src/corrct/param_tuning.py:403-410), for the signatures of the
functions and the names of the additional keyword arguments. -/
def reconstructionCalls (init : Option (List PyParam)) (exec : List PyParam) (initKws execKws : List String) : Prop :=
  match init with
  | some sig => accepts sig 1 initKws ∧ accepts exec 1 execKws
  | none => accepts exec 1 execKws

/-! ## Errors and loss values -/

/-- The two errors of one reconstruction (src/corrct/param_tuning.py:848-850). -/
noncomputable def recErrors {V : Type} [Fintype V] (truth rec' : Arr V) : ℝ × ℝ :=
  (∑ j, |truth j - rec' j|, Real.sqrt (∑ j, |truth j - rec' j| ^ 2) ^ 2)

/-- `BaseParameterTuning.compute_reconstruction_error` (src/corrct/param_tuning.py:803-872). With `plot_result`, the axes are an array
of two plots, which has no method `get_xticklabels`: an `AttributeError` (:853-862). -/
noncomputable def reconstructionError {V H : Type} [Fintype V] (pe : ParallelEval) (task : Task H (Arr V)) (hp : List H) (order : List ℕ)
    (truth : Arr V) (plot : Bool) : Except String (List ℝ × List ℝ) :=
  match processHpVals pe task hp order with
  | .error e => .error e
  | .ok recs =>
    if plot then .error "AttributeError"
    else .ok (recs.map fun r => (r.elim 0 fun r => (recErrors truth r).1), recs.map fun r => (r.elim 0 fun r => (recErrors truth r).2))

/-- `LCurve.compute_loss_values` (src/corrct/param_tuning.py:997-1065): loss values and reconstructions. -/
noncomputable def lcurveLosses {R H : Type} (pe : ParallelEval) (task : Task H R) (hp : List H) (order : List ℕ) (loss : R → ℝ) :
    Except String (List ℝ × List (Option R)) :=
  match processHpVals pe task hp order with
  | .error e => .error e
  | .ok recs => .ok (recs.map fun r => r.elim 0 loss, recs)

/-! ## External executors -/

/-- An executor supplied by the caller: whether it still accepts tasks. -/
structure Executor where
  alive : Bool

/-- `_parallel_compute` with an external executor (src/corrct/param_tuning.py:458-499): submitting a task to an executor that is shut
down is a `RuntimeError`; an exception of a task shuts the executor down. -/
def executorCompute {H R : Type} (task : Task H R) (hp : List H) (order : List ℕ) (ex : Executor) :
    Except String (List (Option R)) × Executor :=
  if ex.alive = false ∧ hp ≠ [] then (.error "RuntimeError", ex)
  else
    match parallelCompute task hp order with
    | .error e => (.error e, ⟨false⟩)
    | .ok r => (.ok r, ex)

end Verif
