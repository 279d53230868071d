import Verif.Model.Solvers
import Verif.Model.Geometry
import Verif.Model.Denoise

/-!
# The types of the numbers of the arrays

The rest of the model calculates with real numbers. NumPy arrays have a type, which decides on what an assignment to their entries stores and on whether an
in-place operation is allowed at all. This file adds the types to the places of `src/corrct/solvers.py` and `src/corrct/data_terms.py` where integers behave
differently from floating point numbers. Rounding of floating point numbers and overflow of signed integers are left out.
-/

namespace Verif
open Classical

/-- The kinds of NumPy types in the order of their promotion; `uint m`: unsigned integers below `m`. -/
inductive NumType where
  | bool
  | uint (m : ℕ)
  | int
  | float

namespace NumType

/-- The position in the order of promotion. -/
def rank : NumType → ℕ
  | bool => 0
  | uint _ => 1
  | int => 2
  | float => 3

/-- The type of the product of arrays (for the widest integers NumPy goes on to floating point numbers if one is signed and the other is not; both are not
allowed in place of the unsigned one). -/
def promote (s t : NumType) : NumType := if t.rank ≤ s.rank then s else t

/-- What an array of the type holds after `astype`, or after an assignment of the number: integers drop the fractional part.
Simplification: numbers out of the range of unsigned integers are not treated. -/
noncomputable def store : NumType → ℝ → ℝ
  | bool, v => if v = 0 then 0 else 1
  | uint _, v => ConeBeam.trunc v
  | int, v => ConeBeam.trunc v
  | float, v => v

/-- `a - b` of two arrays of the type: unsigned integers wrap around. -/
noncomputable def sub : NumType → ℝ → ℝ → ℝ
  | uint m, v, w => if v < w then v - w + (m : ℝ) else v - w
  | _, v, w => v - w

/-- `a *= b`, `a += b` and `a -= b` are allowed for `a` of the first and `b` of the second type (NumPy's casting rule "same_kind"). -/
def inPlaceOk (s t : NumType) : Prop := (promote s t).rank ≤ s.rank

/-- The type of `1 - a` for an array of the type. -/
def oneMinus : NumType → NumType
  | bool => int
  | t => t

/-- `a /= b` is allowed for `a` of the type: the result of the true division is a floating point number. -/
def inPlaceDivOk (s : NumType) : Prop := inPlaceOk s float

end NumType

/-- The types of the arrays of a call. -/
structure CallTypes where
  b : NumType := .float
  x0 : NumType := .float
  bMask : NumType := .float
  bTestMask : NumType := .float

/-- Ways a typed call can end without result: `TypeError` of an in-place operation, or one of the others. -/
inductive TErr where
  | typeError
  | other (e : Err)
  deriving DecidableEq

/-- A call of the untyped model as one of the typed. -/
def untyped {α : Type} (r : Except Err α) : Except TErr α := match r with
  | .ok v => .ok v
  | .error e => .error (.other e)

variable {ν ι Q : Type}

/-- `assign_data` with data of a type (src/corrct/data_terms.py:129-134): the background, which `__init__` turned into an array
(src/corrct/data_terms.py:42-44), becomes an array of the type of the data, for good. -/
noncomputable def assignDataTyped (t : NumType) (term : DataTerm ι) (data : Option (Attr ι)) (sigma : Attr ι) : DataTerm ι :=
  let u := term.assignData data sigma
  if data.isSome then { u with background := u.background.map (Attr.map t.store) } else u

/-- The type of the data mask after `_initialize_b_masks` (src/corrct/solvers.py:333-343), if there is one: `b_mask * (1 - b_test_mask)`, where a mask of ones
has the type of the data and `1 - b_test_mask` is at least a signed integer for truth values. -/
def maskType (T : CallTypes) (bMask bTestMask : Option (Arr ι)) : Option NumType :=
  match bTestMask with
  | none => bMask.map fun _ => T.bMask
  | some _ =>
    let one : NumType := if bMask.isSome then T.bMask else T.b
    some (one.promote T.bTestMask.oneMinus)

/-- `b_ones = np.ones_like(b); b_ones *= b_mask` is allowed (src/corrct/solvers.py:99-101, 574-576, 734-736). -/
def onesOk (T : CallTypes) (bMask bTestMask : Option (Arr ι)) : Prop :=
  match maskType T bMask bTestMask with
  | none => True
  | some t => T.b.inPlaceOk t

/-- The object with the background as `assign_data` leaves it (src/corrct/data_terms.py:133-134). -/
noncomputable def castTerm (t : NumType) (term : DataTerm ι) : DataTerm ι := { term with background := term.background.map (Attr.map t.store) }

/-- The solver with the background as it is after `assign_data`. That of the test term is set to the same one if it is used (src/corrct/solvers.py:939-943). -/
noncomputable def castSolver (t : NumType) (S : Solver ν ι Q) : Solver ν ι Q := { S with term := castTerm t S.term }

variable [Fintype ν] [Fintype ι]

/-- `SIRT.__call__` for arrays of types (src/corrct/solvers.py:867-984), for operators that return floating point numbers: `b_ones *= b_mask` (:100-101) and
`x += upd * tau` (:977) may not be allowed. Simplification: this exception is the first (another one of the same call may come before it). -/
noncomputable def sirtTyped (T : CallTypes) (S : Solver ν ι Q) (A : Operator ν ι) (b : Arr ι) (a : Args ν ι) :
    Except TErr (Arr ν × Info × Solver ν ι Q) :=
  if ¬ onesOk T a.bMask a.bTestMask then .error .typeError
  else if a.x0.isSome ∧ a.iterations ≠ 0 ∧ ¬ T.x0.inPlaceOk .float then .error .typeError
  else untyped (sirt (castSolver T.b S) A b a)

/-- `MLEM.__call__` for arrays of types (src/corrct/solvers.py:688-805): `b_ones *= b_mask` (:735-736) and `x *= upd / tau` (:798). Simplifications as above; a
solution mask is assumed not to be of a higher type than the initial volume (:751-752). -/
noncomputable def mlemTyped (T : CallTypes) (S : Solver ν ι Q) (A : Operator ν ι) (b : Arr ι) (a : Args ν ι) :
    Except TErr (Arr ν × Info × Solver ν ι Q) :=
  if ¬ onesOk T a.bMask a.bTestMask then .error .typeError
  else if a.x0.isSome ∧ a.iterations ≠ 0 ∧ ¬ T.x0.inPlaceOk .float then .error .typeError
  else untyped (mlem (castSolver T.b S) A b a)

/-- The step sizes of PDHG and FISTA are computed with the diagonal scaling (src/corrct/solvers.py:1106-1117, 1398-1408). -/
def diagonal (A : Operator ν ι) (precondition : Bool) : Prop := precondition = true ∧ A.abs.isSome

/-- The step sizes can be computed: `b_ones *= b_mask` (src/corrct/solvers.py:100-101), or `x /= np.linalg.norm(x)` for a start of the type of the data
(src/corrct/solvers.py:44-45). -/
def stepsOk (T : CallTypes) (A : Operator ν ι) (a : Args ν ι) (precondition : Bool) : Prop :=
  if diagonal A precondition then onesOk T a.bMask a.bTestMask else T.b.inPlaceDivOk

/-- `PDHG.__call__` for arrays of types (src/corrct/solvers.py:1060-1206): the dual is an array of the type of the data (src/corrct/data_terms.py:215), to which
`update_dual` adds floating point numbers (src/corrct/data_terms.py:227-230). The volume is never changed in place. Simplifications as above. -/
noncomputable def pdhgTyped (T : CallTypes) (S : Solver ν ι Q) (A : Operator ν ι) (b : Arr ι) (a : Args ν ι) (precondition : Bool) (rnd : Arr ι) :
    Except TErr (Arr ν × Info × Solver ν ι Q) :=
  if ¬ stepsOk T A a precondition then .error .typeError
  else if a.iterations ≠ 0 ∧ ¬ T.b.inPlaceOk .float then .error .typeError
  else untyped (pdhg (castSolver T.b S) A b a precondition rnd)

/-- `FISTA.__call__` for arrays of types (src/corrct/solvers.py:1349-1513): only the step sizes need a type; the initial volume is converted (:1442).
Simplifications as above. -/
noncomputable def fistaTyped (T : CallTypes) (S : Solver ν ι Q) (A : Operator ν ι) (b : Arr ι) (a : Args ν ι) (precondition : Bool) (rnd : Arr ι) :
    Except TErr (Arr ν × Info × Solver ν ι Q) :=
  if ¬ stepsOk T A a precondition then .error .typeError
  else untyped (fista (castSolver T.b S) A b a precondition rnd)

/-- `np.linalg.norm(SART.compute_residual(…))` for data of a type (src/corrct/solvers.py:503-508): the projections are converted to the type of the data, and the
difference is one of arrays of that type. -/
noncomputable def sartResidualNormTyped {na nu : ℕ} (t : NumType) (A : AngleOp ν na nu) (b : Fin na × Fin nu → ℝ)
    (bMask : Option (Arr (Fin na × Fin nu))) (x : Arr ν) : ℝ :=
  let m : Arr (Fin na × Fin nu) := bMask.getD fun _ => 1
  if h : na = nu then
    Real.sqrt (∑ k : Fin na, ∑ l : Fin nu, (t.sub (t.store (A.fwd (Fin.cast h.symm l) x (Fin.cast h k))) (b (k, l)) * m (k, l)) ^ 2)
  else if h1 : na = 1 then
    Real.sqrt (∑ k : Fin nu, ∑ l : Fin nu,
      (t.sub (t.store (A.fwd (Fin.cast h1.symm 0) x k)) (b (Fin.cast h1.symm 0, l)) * m (Fin.cast h1.symm 0, l)) ^ 2)
  else if h2 : nu = 1 then
    Real.sqrt (∑ k : Fin na, ∑ l : Fin na,
      (t.sub (t.store (A.fwd l x (Fin.cast h2.symm 0))) (b (k, Fin.cast h2.symm 0)) * m (k, Fin.cast h2.symm 0)) ^ 2)
  else 0

/-- One SART iteration for data of a type (src/corrct/solvers.py:608-632); `x -= …` (:618) is checked by `sartTyped`. -/
noncomputable def sartStepTyped {na nu : ℕ} (t : NumType) (A : AngleOp ν na nu) (b : Fin na × Fin nu → ℝ) (a : Args ν (Fin na × Fin nu))
    (sigma : Arr (Fin na × Fin nu)) (tau : Arr (Fin na × ν)) (rows : List (Fin na)) (tol : Option ℝ) (ii : ℕ)
    (s : XState ν) : XState ν × Bool :=
  let info := { s.info with iterations := s.info.iterations + 1 }
  let x := rows.foldl (sartRow A b a sigma tau) s.x
  match tol with
  | some tol =>
    let r := sartResidualNormTyped t A b a.bMask x
    (⟨x, { info with residuals := info.residuals.set ii r }⟩, decide (tol > r))
  | none => (⟨x, info⟩, false)

/-- `SART.__call__` for arrays of types (src/corrct/solvers.py:507-634), for operators that return floating point numbers. With truth values as data the
difference of the residual is not allowed. -/
noncomputable def sartTyped {na nu : ℕ} (T : CallTypes) (S : Solver ν (Fin na × Fin nu) Q) (A : AngleOp ν na nu) (b : Fin na × Fin nu → ℝ)
    (a : Args ν (Fin na × Fin nu)) (rows : List (Fin na)) : Except TErr (Arr ν × Info) :=
  if ¬ onesOk T a.bMask none then .error .typeError
  else if a.x0.isSome ∧ a.iterations ≠ 0 ∧ rows ≠ [] ∧ ¬ T.x0.inPlaceOk .float then .error .typeError
  else if S.tolerance.isSome ∧ T.b.rank = 0 then .error .typeError
  else untyped do
    let (sigma, tau) ← sartScaling A S.relaxation a
    let x : Arr ν := a.x0.getD fun _ => 0
    let info := Info.new a.iterations S.tolerance
    if S.tolerance.isSome ∧ ¬ sartShapesOk na nu then .error .valueError else
    let info := if S.tolerance.isSome then { info with residual0 := some (sartResidualNormTyped T.b A b a.bMask x) } else info
    let r := forRange (sartStepTyped T.b A b a sigma tau rows S.tolerance) a.iterations ⟨x, info⟩
    .ok (r.x, r.info)

/-- `denoise_image` with one weight for an image of a type (src/corrct/denoisers.py:113-121, 134-140): the image is both the data and, copied, the initial volume
of PDHG. Simplification: with an integer image the identity (src/corrct/operators.py:365-384) returns integers, to which the step sizes of the regularizer cannot be
added in place either (src/corrct/solvers.py:104); the exception is the same. -/
noncomputable def denoiseTyped (t : NumType) (d : Denoise ν Q) (rnd : Arr ν) (lam : ℝ) : Except TErr (Arr ν) :=
  (pdhgTyped { b := t, x0 := t } (d.solverInit lam) d.op d.img (d.args none) true rnd).map (·.1)

end Verif
