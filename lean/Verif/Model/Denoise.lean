import Verif.Model.ParamTuning
import Verif.Model.Alignment
import Verif.Model.Operators

/-!
# Model of `src/corrct/denoisers.py`

Plots and printing are left out. The random masks of the cross-validation and the random start of the power method are
parameters.
-/

namespace Verif
open Classical

/-- `TransformConvolution(img.shape, psf)` (src/corrct/operators.py:424-496) as the solvers see it. `absolute` of the operator
and of its transpose are both a new direct operator (:462-471); the adjoint returns a fresh array. -/
def psfOp {κ : Type} [Fintype κ] [DecidableEq κ] {n w : κ → ℕ} (psf : Arr (Idx w)) : Operator (Idx n) (Idx n) :=
  let c : Convolution w := { kernel := psf }
  ⟨c.direct, c.adjoint, some (c.absolute.direct, c.absolute.direct), none⟩

/-- `scipy.signal.medfilt2d(img, k)` for odd `k` (src/corrct/denoisers.py:113): the middle of the `k * k` values around the
pixel, where pixels outside the image count as 0. -/
noncomputable def medfilt2d {h w : ℕ} (k : ℕ) (img : Arr (Fin h × Fin w)) : Arr (Fin h × Fin w) := fun p =>
  let value : Fin k × Fin k → ℝ := fun d =>
    let r : ℤ := p.1 + (d.1 : ℤ) - (k / 2 : ℕ)
    let c : ℤ := p.2 + (d.2 : ℤ) - (k / 2 : ℕ)
    if hr : 0 ≤ r ∧ r < h ∧ 0 ≤ c ∧ c < w then img (⟨r.toNat, by omega⟩, ⟨c.toNat, by omega⟩) else 0
  sInf {t : ℝ | k * k / 2 + 1 ≤ (Finset.univ.filter fun d => value d ≤ t).card}

/-- The arguments of `denoise_image` (src/corrct/denoisers.py:53-62), after the choice of operator and data term (:96-104);
`med` is the median filter. -/
structure Denoise (ν Q : Type) where
  img : Arr ν
  op : Operator ν ν
  term : DataTerm ν
  iterations : ℕ
  regularizer : ℝ → Reg ν Q
  lower : Option ℝ
  med : Arr ν → Arr ν

variable {ν Q : Type} [Fintype ν]

/-- The data term of `denoise_image` (src/corrct/denoisers.py:101-104). -/
noncomputable def denoiseTerm (pixWeights : Option (Arr ν)) : DataTerm ν :=
  match pixWeights with
  | none => .new .l2 none
  | some w => .new (.wl2 (.array w)) none

/-- `solver_init` (src/corrct/denoisers.py:106-111); the default relaxation of `PDHG` is 0.95
(src/corrct/solvers.py:1014-1024). -/
noncomputable def Denoise.solverInit (d : Denoise ν Q) (lam : ℝ) : Solver ν ν Q :=
  ⟨95 / 100, none, [d.regularizer lam], d.term, d.term, none⟩

/-- The start image in `solver_exec` (src/corrct/denoisers.py:114-119). -/
noncomputable def Denoise.start (d : Denoise ν Q) (mask : Option (Arr ν)) : Arr ν :=
  match mask with
  | none => d.img
  | some m => fun i => if m i > 1 / 2 then d.med d.img i else d.img i

/-- The arguments of the solver call in `solver_exec` (src/corrct/denoisers.py:121). -/
noncomputable def Denoise.args (d : Denoise ν Q) (mask : Option (Arr ν)) : Args ν ν where
  iterations := d.iterations
  x0 := some (d.start mask)
  lower := d.lower.map .scalar
  bTestMask := mask

/-- `solver_exec` (src/corrct/denoisers.py:113-121). -/
noncomputable def Denoise.solverExec (d : Denoise ν Q) (rnd : Arr ν) (S : Solver ν ν Q) (mask : Option (Arr ν)) :
    Except Err (Arr ν × Info) :=
  (pdhg S d.op d.img (d.args mask) true rnd).map fun r => (r.1, r.2.1)

/-- The cross-validation task: `solver_exec(solver_init(lam), b_test_mask=m)` (src/corrct/param_tuning.py:368-415 with
src/corrct/denoisers.py:123-128). -/
noncomputable def Denoise.task (d : Denoise ν Q) (rnd : Arr ν) (m : Arr ν) : Task ℝ (Arr ν × Info) := fun lam =>
  match d.solverExec rnd (d.solverInit lam) (some m) with
  | .error _ => .error "solver"
  | .ok r => .ok r

/-- The choice among several weights (src/corrct/denoisers.py:125-132): cross-validation with three averages, then the
logarithmic parabola fit. -/
noncomputable def Denoise.choose (d : Denoise ν Q) (rnd : Arr ν) (weights : List ℝ) (pe : ParallelEval) (masks : List (Arr ν))
    (orders : ℕ → List ℕ) : Except String ℝ :=
  match cvCompute pe (d.task rnd) 3 masks weights orders with
  | .error e => .error e
  | .ok r =>
    match fitFuncMin .log (fun k => weights.getD k 0) weights.length (fun k => r.1.getD k 0) r.1.length with
    | none => .error "ValueError"
    | some m => .ok m.1

/-- The last steps (src/corrct/denoisers.py:136-142): the run with the chosen weight; the weight is only returned if there
were several. -/
noncomputable def Denoise.final (d : Denoise ν Q) (rnd : Arr ν) (lam : ℝ) (several : Bool) : Except String (Arr ν × Option ℝ) :=
  match d.solverExec rnd (d.solverInit lam) none with
  | .error _ => .error "solver"
  | .ok r => .ok (r.1, if several then some lam else none)

/-- `denoise_image` (src/corrct/denoisers.py:53-142). `weights` are the entries of `np.array(reg_weight)`; an empty array, for
which the conversion to `float` raises, is an error. -/
noncomputable def denoiseImage (d : Denoise ν Q) (rnd : Arr ν) (weights : List ℝ) (pe : ParallelEval) (masks : List (Arr ν))
    (orders : ℕ → List ℕ) : Except String (Arr ν × Option ℝ) :=
  match weights with
  | [] => .error "TypeError"
  | [lam] => d.final rnd lam false
  | weights =>
    match d.choose rnd weights pe masks orders with
    | .error e => .error e
    | .ok lam => d.final rnd lam true

end Verif
