import Mathlib.Analysis.Real.Sqrt
import Mathlib.Data.Fintype.Card
import Mathlib.Tactic

/-!
# Common vocabulary of the model

NumPy arrays of shape `S` are functions from a finite index type `ι` (the set of multi-indices of `S`)
to `ℝ`.  Floating point rounding, dtypes, NaN and infinities are not modelled (see DESIGN.md).
-/

namespace Verif

/-- A NumPy array of real numbers, indexed by the (multi-)indices `ι` of its shape.
Models `NDArrayFloat` (src/corrct/data_terms.py:22, src/corrct/solvers.py:23).
Simplification: exact reals instead of float32/float64. -/
abbrev Arr (ι : Type) := ι → ℝ

/-- `np.finfo(np.float32).eps`, i.e. `2⁻²³` (src/corrct/solvers.py:20, src/corrct/data_terms.py:19). -/
noncomputable def eps : ℝ := (1 : ℝ) / 8388608

/-- `np.sign` (used by src/corrct/data_terms.py:27). -/
noncomputable def npSign (x : ℝ) : ℝ := if 0 < x then 1 else if x < 0 then -1 else 0

/-- `_soft_threshold`, element-wise (src/corrct/data_terms.py:25-28):
`sign(v) * fmax(abs(v) - threshold, 0)`. -/
noncomputable def softThreshold (v threshold : ℝ) : ℝ := npSign v * max (|v| - threshold) 0

/-- `x.clip(lower_limit, upper_limit)`, element-wise, where either limit may be `None`
(src/corrct/solvers.py:465-466, 800-801, 979-980, 1184-1185, 1480-1481): `minimum(maximum(x, lo), hi)`.
SART's `np.fmax`/`np.fmin` pair (src/corrct/solvers.py:617-620) is the same function. -/
noncomputable def clip1 (lo hi : Option ℝ) (x : ℝ) : ℝ :=
  let y := match lo with | some l => max x l | none => x
  match hi with | some h => min y h | none => y

/-- A `for ii in range(n): … break …` loop (src/corrct/solvers.py:607, 777, 951, 1165, 1465):
`step ii s` returns the new state and whether `break` was executed.
`loopFrom step fuel ii s` runs at most `fuel` iterations starting with index `ii`. -/
def loopFrom {S : Type} (step : ℕ → S → S × Bool) : ℕ → ℕ → S → S
  | 0, _, s => s
  | n + 1, ii, s =>
    match step ii s with
    | (s', true) => s'
    | (s', false) => loopFrom step n (ii + 1) s'

/-- `for ii in range(n)` from index 0. -/
def forRange {S : Type} (step : ℕ → S → S × Bool) (n : ℕ) (s : S) : S := loopFrom step n 0 s

end Verif
