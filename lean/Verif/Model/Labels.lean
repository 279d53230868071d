import Verif.Model.Solvers

/-!
# Model of the labels of solvers, data terms and regularizers

`SolutionInfo.method` is the string `solver.info()`, computed at the start of every call. Number formatting (`%g`, `%.3e`) is left abstract: `Fmt`.
Formatting an array of more than one element with `%g` or `:g` raises `TypeError` (`Err.formatError`).
-/

namespace Verif.Labels
open Verif

variable {ν ι Q : Type}

/-- Number formatting: `"%g" % x`, `f"{x:.3e}"`. -/
structure Fmt where
  g : ℝ → String
  e3 : ℝ → String

/-- `__data_fidelity_name__` (src/corrct/data_terms.py:286, 337, 401, 470, 538, 601, 631, 680). -/
def kindName : Kind ι → String
  | .l2 => "l2"
  | .wl2 _ => "wl2"
  | .l2b _ => "l2b"
  | .huber _ _ _ => "Hub"
  | .l1 => "l1"
  | .l12 _ => "l12"
  | .l1b _ => "l1b"
  | .kl => "KL"

/-- `DataFidelityBase.info` (src/corrct/data_terms.py:80-96). -/
def termInfo (fm : Fmt) (t : DataTerm ι) : String :=
  kindName t.kind ++ match t.background with
    | none => ""
    | some (.scalar v) => "(B:" ++ fm.g v ++ ")"
    | some (.array _) => "(B:<array>)"

/-- What the `info` functions of the regularizers use: class name and largest weight; for wavelets also their name and level, for the median the filter size,
for the limit constraints the limit. -/
inductive RegLabel (ν : Type) where
  | base (name : String) (weightMax : ℝ)
  | wavelet (name wavelet : String) (level : ℕ) (weightMax : ℝ)
  | median (name size : String) (weightMax : ℝ)
  | limit (name : String) (limit : Attr ν)

/-- `info` of the regularizers: `BaseRegularizer` (src/corrct/regularizers.py:71-80), wavelets (:592-601, 870-879), median (:1141-1150), limit constraints
(:1655-1664, 1722-1731). -/
def regInfo (fm : Fmt) : RegLabel ν → Except Err String
  | .base n w => .ok (n ++ "(w:" ++ fm.e3 w ++ ")")
  | .wavelet n wl l w => .ok (n ++ "(t:" ++ wl ++ "-l:" ++ toString l ++ "-w:" ++ fm.g w ++ ")")
  | .median n s w => .ok (n ++ "(s:" ++ s ++ "-w:" ++ fm.g w ++ ")")
  | .limit n (.scalar v) => .ok (n ++ "(l:" ++ fm.g v ++ ")")
  | .limit _ (.array _) => .error .formatError

/-- `"".join(["-" + r.info().upper() for r in self.regularizer])` (src/corrct/solvers.py:774, 864, 948, 1043, 1162, 1333, 1462). -/
def regsInfo (fm : Fmt) : List (RegLabel ν) → Except Err String
  | [] => .ok ""
  | r :: l => do
    let s ← regInfo fm r
    let t ← regsInfo fm l
    .ok ("-" ++ s.toUpper ++ t)

/-- `info` of SIRT, PDHG and FISTA (src/corrct/solvers.py:855-865, 1034-1044, 1331-1334); `Solver.info` (:246-255) is the class name. -/
def iterativeInfo (fm : Fmt) (name : String) (t : DataTerm ι) (regs : List (RegLabel ν)) : Except Err String := do
  let r ← regsInfo fm regs
  .ok (name ++ "-" ++ termInfo fm t ++ r)

/-- `MLEM.info` (src/corrct/solvers.py:677-686): the conditional expression covers the sum, so without background the label is the empty string. -/
def mlemInfo (fm : Fmt) (t : DataTerm ι) : Except Err String :=
  match t.background with
  | some (.scalar v) => .ok ("MLEM" ++ "(B:" ++ fm.g v ++ ")")
  | some (.array _) => .error .formatError
  | none => .ok ""

/-- The filter argument of FBP (src/corrct/solvers.py:354, 376-378): the name of a filter, an array, or a filter object of a class. -/
inductive FilterArg where
  | name (s : String)
  | array
  | obj (className : String)

/-- `FBP.info` (src/corrct/solvers.py:381-395) after `FBP.__init__` (:349-379). -/
def fbpInfo : FilterArg → String
  | .name s => "FBP" ++ "(F:" ++ s.toLower.toUpper ++ ")"
  | .array => "FBP" ++ "(F:" ++ "FilterCustom".toUpper ++ ")"
  | .obj c => "FBP" ++ "(F:" ++ c.toUpper ++ ")"

/-- A call of SIRT with its label (src/corrct/solvers.py:931): the label is computed before the iterations. -/
noncomputable def sirtCall [Fintype ν] [Fintype ι] (fm : Fmt) (labels : List (RegLabel ν)) (S : Solver ν ι Q) (A : Operator ν ι) (b : Arr ι) (a : Args ν ι) :
    Except Err (Arr ν × String) := do
  let s ← iterativeInfo fm "SIRT" S.term labels
  let r ← sirt S A b a
  .ok (r.1, s)

/-- A call of PDHG with its label (src/corrct/solvers.py:1145). -/
noncomputable def pdhgCall [Fintype ν] [Fintype ι] (fm : Fmt) (labels : List (RegLabel ν)) (S : Solver ν ι Q) (A : Operator ν ι) (b : Arr ι) (a : Args ν ι)
    (precondition : Bool) (rnd : Arr ι) : Except Err (Arr ν × String) := do
  let s ← iterativeInfo fm "PDHG" S.term labels
  let r ← pdhg S A b a precondition rnd
  .ok (r.1, s)

/-- A call of FISTA with its label (src/corrct/solvers.py:1450). -/
noncomputable def fistaCall [Fintype ν] [Fintype ι] (fm : Fmt) (labels : List (RegLabel ν)) (S : Solver ν ι Q) (A : Operator ν ι) (b : Arr ι) (a : Args ν ι)
    (precondition : Bool) (rnd : Arr ι) : Except Err (Arr ν × String) := do
  let s ← iterativeInfo fm "FISTA" S.term labels
  let r ← fista S A b a precondition rnd
  .ok (r.1, s)

/-- A call of MLEM with its label (src/corrct/solvers.py:756). -/
noncomputable def mlemCall [Fintype ν] [Fintype ι] (fm : Fmt) (S : Solver ν ι Q) (A : Operator ν ι) (b : Arr ι) (a : Args ν ι) : Except Err (Arr ν × String) := do
  let s ← mlemInfo fm S.term
  let r ← mlem S A b a
  .ok (r.1, s)

end Verif.Labels
