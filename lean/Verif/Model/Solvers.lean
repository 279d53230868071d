import Verif.Model.DataTerms

/-!
# Model of `src/corrct/solvers.py`

Each `__call__` is a total function returning `Except Err (volume × info × solver object afterwards)`.
-/

namespace Verif
open Classical DataTerm

/-- Ways a solver call can end without a finite result.
* `nonFinite`: NumPy continues with NaN/inf (division by zero); real arithmetic stops here.
* `ambiguousTruth`: `if array != array` raises `ValueError` (src/corrct/solvers.py:762, 940, 1154, 1434).
* `formatError`: `f"{array:g}"` raises `TypeError` (src/corrct/solvers.py:686).
* `valueError`: an explicit `raise ValueError` or a shape mismatch. -/
inductive Err where
  | nonFinite
  | ambiguousTruth
  | formatError
  | valueError
  deriving DecidableEq

/-- A projection operator as used by the solvers (src/corrct/operators.py `BaseTransform`).
* `fwd`, `adj`: `A(x)` and `A.T(y)`.
* `abs`: `A.absolute()` and `A.T.absolute()`, or `none` if that raises `AttributeError`
  (src/corrct/solvers.py:912-918, 1106-1113, 1398-1404).
* `aliasBack`: `some f` if `A.T(p)` returns the very array object `p` (e.g. `TransformIdentity`,
  src/corrct/operators.py), `f` being the view of an image as data; `none` if a fresh array is returned. -/
structure Operator (ν ι : Type) where
  fwd : Arr ν → Arr ι
  adj : Arr ι → Arr ν
  abs : Option ((Arr ν → Arr ι) × (Arr ι → Arr ν))
  aliasBack : Option (Arr ν → Arr ι)

/-- A regularizer as used by the solvers (src/corrct/regularizers.py `BaseRegularizer`), after
`initialize_sigma_tau`; `Q` is the type of dual variables.
`updatePrimal` returns the update and the dual as it is after the call (some operators alias it).
Simplification: whatever `initialize_sigma_tau` stores depends only on the shape of its argument. -/
structure Reg (ν Q : Type) where
  sigmaTau : Arr ν → Arr ν
  initDual : Q
  updateDual : Q → Arr ν → Q
  proxDual : Q → Q
  updatePrimal : Q → Arr ν × Q
  proxPrimal : Arr ν → Arr ν → Arr ν

/-- Reconstruction info (`SolutionInfo`, src/corrct/solvers.py:161-201). `residual0 = none` stands for `np.inf`. -/
structure Info where
  maxIterations : ℕ
  tolerance : Option ℝ
  residual0 : Option ℝ
  residual0Cv : Option ℝ
  residuals : List ℝ
  residualsCv : List ℝ
  iterations : ℕ

/-- `SolutionInfo.__init__` (src/corrct/solvers.py:175-193). -/
def Info.new (maxIterations : ℕ) (tolerance : Option ℝ) : Info where
  maxIterations := maxIterations
  tolerance := tolerance
  residual0 := none
  residual0Cv := none
  residuals := List.replicate maxIterations 0
  residualsCv := List.replicate maxIterations 0
  iterations := 0

/-- The arguments common to the `__call__` methods (src/corrct/solvers.py:688-699, 867-878, 1060-1072, 1349-1361). -/
structure Args (ν ι : Type) where
  iterations : ℕ
  x0 : Option (Arr ν) := none
  lower : Option (Attr ν) := none
  upper : Option (Attr ν) := none
  xMask : Option (Arr ν) := none
  bMask : Option (Arr ι) := none
  bTestMask : Option (Arr ι) := none

/-- The configuration and state of a solver object (src/corrct/solvers.py:225-244, 835-853, 1014-1032, 1280-1329).
`restartPeriod` is only used by FISTA. -/
structure Solver (ν ι Q : Type) where
  relaxation : ℝ
  tolerance : Option ℝ
  regs : List (Reg ν Q)
  term : DataTerm ι
  termTest : DataTerm ι
  restartPeriod : Option ℕ := none

variable {ν ι Q : Type} [Fintype ν] [Fintype ι]

/-- `Solver._initialize_b_masks` (src/corrct/solvers.py:332-343). -/
def initBMasks (bMask bTestMask : Option (Arr ι)) : Option (Arr ι) × Option (Arr ι) :=
  match bTestMask with
  | none => (bMask, none)
  | some test =>
    let m : Arr ι := match bMask with | none => fun _ => 1 | some m => m
    (some fun i => m i * (1 - test i), some fun i => test i * m i)

/-- `np.max` of a (non-empty) array (src/corrct/solvers.py:105, 114). -/
noncomputable def npMax {α : Type} (f : Arr α) : ℝ := ⨆ i, f i

/-- `a[(a / np.max(a)) < 1e-5] = 1` (src/corrct/solvers.py:105, 114, 579, 588, 744). -/
noncomputable def fixSmall {α : Type} (f : Arr α) : Arr α := fun i => if f i / npMax f < 1 / 100000 then 1 else f i

/-- `compute_diagonal_scaling` (src/corrct/solvers.py:60-117), returning `(sigma, tau)`.
If a maximum is 0 the code divides 0 by 0 (NaN): modelled as `nonFinite`. -/
noncomputable def diagonalScaling (absFwd : Arr ν → Arr ι) (absAdj : Arr ι → Arr ν) (regs : List (Reg ν Q))
    (relaxSigma relaxTau : ℝ) (xMask : Option (Arr ν)) (bMask : Option (Arr ι)) : Except Err (Arr ι × Arr ν) :=
  let bOnes : Arr ι := applyMask bMask fun _ => 1
  let tau0 : Arr ν := fun j => |absAdj bOnes j|
  let tau1 : Arr ν := regs.foldl (fun t r => fun j => t j + r.sigmaTau t j) tau0
  if npMax tau1 = 0 then .error .nonFinite else
  let tau : Arr ν := fun j => relaxTau / fixSmall tau1 j
  let xOnes : Arr ν := applyMask xMask fun _ => 1
  let sigma0 : Arr ι := fun i => |absFwd xOnes i|
  if npMax sigma0 = 0 then .error .nonFinite else
  .ok (fun i => relaxSigma / fixSmall sigma0 i, tau)

/-- `np.linalg.norm` (2-norm) of an array. -/
noncomputable def l2norm {α : Type} [Fintype α] (x : Arr α) : ℝ := Real.sqrt (∑ i, x i ^ 2)

/-- Loop of `power_method` (src/corrct/solvers.py:51-55): state is `(x, x_norm, L)`. -/
noncomputable def powerLoop (fwd : Arr ν → Arr ι) (adj : Arr ι → Arr ν) : ℕ → Arr ν → ℝ → ℝ → Except Err ℝ
  | 0, _, _, L => .ok L
  | n + 1, x, xNorm, _ =>
    if xNorm = 0 then .error .nonFinite else
    let x' := adj (fwd fun j => x j / xNorm)
    powerLoop fwd adj n x' (l2norm x') (Real.sqrt (l2norm x'))

/-- `power_method` (src/corrct/solvers.py:26-57); `rnd` is the random start `np.random.rand(*b.shape)`.
The returned shape and dtype are not modelled. -/
noncomputable def powerMethod (fwd : Arr ν → Arr ι) (adj : Arr ι → Arr ν) (rnd : Arr ι) (iterations : ℕ := 5) :
    Except Err ℝ :=
  if l2norm rnd = 0 then .error .nonFinite else
  let x := adj fun i => rnd i / l2norm rnd
  powerLoop fwd adj iterations x (l2norm x) (l2norm x)

/-- `compute_Lipschitz_scaling` (src/corrct/solvers.py:120-158). Scalars are returned as constant arrays. -/
noncomputable def lipschitzScaling (A : Operator ν ι) (rnd : Arr ι) (regs : List (Reg ν Q)) (relaxSigma relaxTau : ℝ) :
    Except Err (Arr ι × Arr ν) := do
  let L ← powerMethod A.fwd A.adj rnd
  let tau1 : Arr ν := regs.foldl (fun t r => fun j => t j + r.sigmaTau t j) fun _ => L
  if L = 0 ∨ ∃ j, tau1 j = 0 then .error .nonFinite else
  .ok (fun _ => relaxSigma / L, fun j => relaxTau / tau1 j)

/-- The clipping and masking at the end of every iteration (src/corrct/solvers.py:465-468, 617-622, 800-803, 979-982,
1184-1187, 1480-1483). -/
noncomputable def clipMask (a : Args ν ι) (x : Arr ν) : Arr ν :=
  applyMask a.xMask fun j => clip1 (a.lower.map (·.get j)) (a.upper.map (·.get j)) (x j)

/-- Is a background a (multi-element) array? -/
def isArrayBg (o : Option (Attr ι)) : Prop := match o with | some (.array _) => True | _ => False

/-- Test data-term preparation (src/corrct/solvers.py:761-765, 939-943, 1153-1157, 1433-1437): the comparison
`data_term_test.background != data_term.background` raises for array backgrounds; otherwise the backgrounds are
made equal and the data assigned. -/
noncomputable def prepareTest (term termTest : DataTerm ι) (b : Arr ι) (sigma : Attr ι) : Except Err (DataTerm ι) :=
  if isArrayBg term.background ∨ isArrayBg termTest.background then .error .ambiguousTruth else
  .ok (({ termTest with background := term.background } : DataTerm ι).assignData (some (.array b)) sigma)

/-- The test data term is only prepared if there is a test mask (src/corrct/solvers.py:761-765, 937-943, 1151-1157,
1432-1437). -/
noncomputable def testTerm (bTestMask : Option (Arr ι)) (term termTest : DataTerm ι) (b : Arr ι) (sigma : Attr ι) :
    Except Err (DataTerm ι) :=
  if bTestMask.isSome then prepareTest term termTest b sigma else .ok termTest

/-- Residual bookkeeping of one iteration (src/corrct/solvers.py:957-967, 1192-1204, 1499-1511):
store the residual norms, return the new info and whether to `break`. -/
noncomputable def recordResiduals (term termTest : DataTerm ι) (bMask bTestMask : Option (Arr ι)) (tol : Option ℝ)
    (ii : ℕ) (Ax : Arr ι) (info : Info) : Info × Bool :=
  if bTestMask.isSome ∨ tol.isSome then
    let r := term.residualNorm (term.residual Ax bMask)
    let info := { info with residuals := info.residuals.set ii r }
    let info := match bTestMask with
      | some m => { info with residualsCv := info.residualsCv.set ii (termTest.residualNorm (termTest.residual Ax (some m))) }
      | none => info
    (info, match tol with | some t => decide (t > r) | none => false)
  else (info, false)

/-- Initial residuals (src/corrct/solvers.py:933-946, 1147-1160, 1452-1460). -/
noncomputable def initialResiduals (term termTest : DataTerm ι) (bMask bTestMask : Option (Arr ι)) (tol : Option ℝ)
    (Ax : Arr ι) (info : Info) : Info :=
  if bTestMask.isSome ∨ tol.isSome then
    let info := { info with residual0 := some (term.residualNorm (term.residual Ax bMask)) }
    match bTestMask with
    | some m => { info with residual0Cv := some (termTest.residualNorm (termTest.residual Ax (some m))) }
    | none => info
  else info

/-- State of the SIRT and MLEM loops. -/
structure XState (ν : Type) where
  x : Arr ν
  info : Info

/-- One SIRT iteration (src/corrct/solvers.py:951-982). The residual is recorded *before* the update. -/
noncomputable def sirtStep (A : Operator ν ι) (a : Args ν ι) (regs : List (Reg ν Q)) (term termTest : DataTerm ι)
    (bMask bTestMask : Option (Arr ι)) (sigma : Arr ι) (tau : Arr ν) (tol : Option ℝ) (ii : ℕ) (s : XState ν) :
    XState ν × Bool :=
  let info := { s.info with iterations := s.info.iterations + 1 }
  let Ax := A.fwd s.x
  let res := term.residual Ax bMask
  match recordResiduals term termTest bMask bTestMask tol ii Ax info with
  | (info, true) => (⟨s.x, info⟩, true)
  | (info, false) =>
    let upd := A.adj fun i => res i * sigma i
    let upd := regs.foldl (fun u r => fun j =>
      u j - (r.updatePrimal (r.proxDual (r.updateDual r.initDual s.x))).1 j) upd
    (⟨clipMask a fun j => s.x j + upd j * tau j, info⟩, false)

/-- The operators used for the scaling: `A.absolute()` or the operator itself (src/corrct/solvers.py:912-918). -/
def absOrSelf (A : Operator ν ι) : (Arr ν → Arr ι) × (Arr ι → Arr ν) :=
  match A.abs with | some p => p | none => (A.fwd, A.adj)

/-- `SIRT.__call__` (src/corrct/solvers.py:867-984). -/
noncomputable def sirt (S : Solver ν ι Q) (A : Operator ν ι) (b : Arr ι) (a : Args ν ι) :
    Except Err (Arr ν × Info × Solver ν ι Q) := do
  let (bMask, bTestMask) := initBMasks a.bMask a.bTestMask
  let (sigma, tau) ← diagonalScaling (absOrSelf A).1 (absOrSelf A).2 S.regs 1 S.relaxation a.xMask bMask
  let x : Arr ν := a.x0.getD fun _ => 0
  let term := S.term.assignData (some (.array b)) (.array sigma)
  let termTest ← testTerm bTestMask term S.termTest b (.array sigma)
  let info := initialResiduals term termTest bMask bTestMask S.tolerance (A.fwd x) (Info.new a.iterations S.tolerance)
  let r := forRange (sirtStep A a S.regs term termTest bMask bTestMask sigma tau S.tolerance) a.iterations ⟨x, info⟩
  .ok (r.x, r.info, { S with term := term, termTest := termTest })

/-- One MLEM iteration (src/corrct/solvers.py:777-803). -/
noncomputable def mlemStep (A : Operator ν ι) (a : Args ν ι) (term termTest : DataTerm ι) (b : Arr ι)
    (bMask bTestMask : Option (Arr ι)) (tau : Arr ν) (tol : Option ℝ) (ii : ℕ) (s : XState ν) : XState ν × Bool :=
  let info := { s.info with iterations := s.info.iterations + 1 }
  let Ax := A.fwd s.x
  let info := match bTestMask with
    | some m => { info with residualsCv := info.residualsCv.set ii (termTest.residualNorm (termTest.residual Ax (some m))) }
    | none => info
  let upd : Arr ν :=
    A.adj fun i => b i / max (term.addBackground Ax i) eps
  let x' : Arr ν := clipMask a fun j => s.x j * (upd j / tau j)
  match tol with
  | some t =>
    let r := term.residualNorm (term.residual Ax bMask)
    let info := { info with residuals := info.residuals.set ii r }
    if t > r then (⟨s.x, info⟩, true) else (⟨x', info⟩, false)
  | none => (⟨x', info⟩, false)

/-- `MLEM.__call__` (src/corrct/solvers.py:688-805).
The unused `sigma` of the code (:739-745) is left out except that it must not be all zero; if an entry of
`tau = A.T(ones)` is zero, `upd / tau` is NaN/inf: modelled as `nonFinite`.
`info()` formats the background with `:g`, which raises for arrays (:686, 756). -/
noncomputable def mlem (S : Solver ν ι Q) (A : Operator ν ι) (b : Arr ι) (a : Args ν ι) :
    Except Err (Arr ν × Info × Solver ν ι Q) := do
  let (bMask, bTestMask) := initBMasks a.bMask a.bTestMask
  let tau : Arr ν := A.adj (applyMask bMask fun _ => 1)
  if ∃ j, tau j = 0 then .error .nonFinite else
  let x : Arr ν := a.x0.getD fun _ => 1
  let x : Arr ν := applyMask a.xMask x
  let term := S.term.assignData (some (.array b)) (.scalar 1)
  if isArrayBg term.background then .error .formatError else
  let info := Info.new a.iterations S.tolerance
  let termTest ← testTerm bTestMask term S.termTest b (.scalar 1)
  let info := match bTestMask with
    | some m => { info with residual0Cv := some (termTest.residualNorm (termTest.residual (A.fwd x) (some m))) }
    | none => info
  let info := if S.tolerance.isSome then
      { info with residual0 := some (term.residualNorm (term.residual (A.fwd x) bMask)) }
    else info
  let r := forRange (mlemStep A a term termTest b bMask bTestMask tau S.tolerance) a.iterations ⟨x, info⟩
  .ok (r.x, r.info, { S with term := term, termTest := termTest })

/-- State of the PDHG loop. -/
structure PDState (ν ι Q : Type) where
  x : Arr ν
  xRelax : Arr ν
  p : Arr ι
  q : List Q
  info : Info

/-- The accumulation `upd += reg.compute_update_primal(q_r)` over the regularizers
(src/corrct/solvers.py:1180-1181), threading the duals as they are after each call. -/
def addRegUpdates : List (Reg ν Q) → List Q → Arr ν → Arr ν × List Q
  | r :: rs, q :: qs, u =>
    let (v, q') := r.updatePrimal q
    let (u', qs') := addRegUpdates rs qs fun j => u j + v j
    (u', q' :: qs')
  | _, qs, u => (u, qs)

/-- Dual updates of the regularizers (src/corrct/solvers.py:1175-1177). -/
def updateRegDuals : List (Reg ν Q) → List Q → Arr ν → List Q
  | r :: rs, q :: qs, x => r.proxDual (r.updateDual q x) :: updateRegDuals rs qs x
  | _, qs, _ => qs

/-- One PDHG iteration (src/corrct/solvers.py:1165-1204). If `A.T(p)` returns `p` itself (`aliasBack`), the in-place
`upd += …` also changes `p`. -/
noncomputable def pdhgStep (A : Operator ν ι) (a : Args ν ι) (regs : List (Reg ν Q)) (term termTest : DataTerm ι)
    (bMask bTestMask : Option (Arr ι)) (tau : Arr ν) (tol : Option ℝ) (ii : ℕ) (s : PDState ν ι Q) :
    PDState ν ι Q × Bool :=
  let info := { s.info with iterations := s.info.iterations + 1 }
  let p := applyMask bMask (term.proxDual (term.updateDual s.p (A.fwd s.xRelax)))
  let q := updateRegDuals regs s.q s.xRelax
  let (upd, q) := addRegUpdates regs q (A.adj p)
  let p := match A.aliasBack with | some f => if regs = [] then p else f upd | none => p
  let xNew := clipMask a fun j => s.x j - upd j * tau j
  let xRelax : Arr ν := fun j => xNew j + (xNew j - s.x j)
  match recordResiduals term termTest bMask bTestMask tol ii (A.fwd xNew) info with
  | (info, brk) => (⟨xNew, xRelax, p, q, info⟩, brk)

/-- The step sizes of `PDHG` (src/corrct/solvers.py:1104-1125): the preconditioner if requested and if `A.absolute()`
does not raise, otherwise the power method. -/
noncomputable def pdhgScaling (S : Solver ν ι Q) (A : Operator ν ι) (a : Args ν ι) (precondition : Bool) (rnd : Arr ι) :
    Except Err (Arr ι × Arr ν) :=
  match A.abs with
    | some ab =>
      if precondition then
        diagonalScaling ab.1 ab.2 S.regs S.relaxation S.relaxation a.xMask (initBMasks a.bMask a.bTestMask).1
      else lipschitzScaling A rnd S.regs S.relaxation S.relaxation
    | none => lipschitzScaling A rnd S.regs S.relaxation S.relaxation

/-- `PDHG.__call__` (src/corrct/solvers.py:1060-1206); `rnd` is the random start of the power method, used when
preconditioning is off or not supported. -/
noncomputable def pdhg (S : Solver ν ι Q) (A : Operator ν ι) (b : Arr ι) (a : Args ν ι) (precondition : Bool)
    (rnd : Arr ι) : Except Err (Arr ν × Info × Solver ν ι Q) := do
  let (bMask, bTestMask) := initBMasks a.bMask a.bTestMask
  let (sigma, tau) ← pdhgScaling S A a precondition rnd
  let x : Arr ν := a.x0.getD fun _ => 0
  let term := S.term.assignData (some (.array b)) (.array sigma)
  let p := term.initializeDual
  let q := S.regs.map (·.initDual)
  let termTest ← testTerm bTestMask term S.termTest b (.array sigma)
  let info := initialResiduals term termTest bMask bTestMask S.tolerance (A.fwd x) (Info.new a.iterations S.tolerance)
  let r := forRange (pdhgStep A a S.regs term termTest bMask bTestMask tau S.tolerance) a.iterations ⟨x, x, p, q, info⟩
  .ok (r.x, r.info, { S with term := term, termTest := termTest })

/-- State of the FISTA loop. -/
structure FState (ν : Type) where
  x : Arr ν
  y : Arr ν
  t : ℝ
  info : Info

/-- Momentum parameter update (src/corrct/solvers.py:1486-1490). -/
noncomputable def fistaTNew (restartPeriod : Option ℕ) (ii : ℕ) (t : ℝ) : ℝ :=
  match restartPeriod with
  | some k => if (ii + 1) % k = 0 then 1 else (1 + Real.sqrt (1 + 4 * t * t)) / 2
  | none => (1 + Real.sqrt (1 + 4 * t * t)) / 2

/-- Momentum factor (src/corrct/solvers.py:1492). -/
noncomputable def fistaMomentum (restartPeriod : Option ℕ) (ii : ℕ) (t : ℝ) : ℝ :=
  (t - 1) / fistaTNew restartPeriod ii t

/-- One FISTA iteration (src/corrct/solvers.py:1465-1511). -/
noncomputable def fistaStep (A : Operator ν ι) (a : Args ν ι) (regs : List (Reg ν Q)) (restartPeriod : Option ℕ)
    (term termTest : DataTerm ι) (bMask bTestMask : Option (Arr ι)) (sigma : Arr ι) (tau : Arr ν) (tol : Option ℝ)
    (ii : ℕ) (s : FState ν) : FState ν × Bool :=
  let info := { s.info with iterations := s.info.iterations + 1 }
  let res := term.residual (A.fwd s.y) bMask
  let grad := A.adj fun i => res i * sigma i
  let xNew : Arr ν := fun j => s.y j + tau j * grad j
  let xNew : Arr ν := match regs with | r :: _ => r.proxPrimal xNew tau | [] => xNew
  let xNew := clipMask a xNew
  let tNew := fistaTNew restartPeriod ii s.t
  let y : Arr ν := fun j => xNew j + fistaMomentum restartPeriod ii s.t * (xNew j - s.x j)
  match recordResiduals term termTest bMask bTestMask tol ii (A.fwd xNew) info with
  | (info, brk) => (⟨xNew, y, tNew, info⟩, brk)

/-- The step sizes of `FISTA` (src/corrct/solvers.py:1396-1417), without regularizers. -/
noncomputable def fistaScaling (S : Solver ν ι Q) (A : Operator ν ι) (a : Args ν ι) (precondition : Bool) (rnd : Arr ι) :
    Except Err (Arr ι × Arr ν) :=
  match A.abs with
    | some ab =>
      if precondition then
        diagonalScaling (Q := Q) ab.1 ab.2 [] 1 S.relaxation a.xMask (initBMasks a.bMask a.bTestMask).1
      else lipschitzScaling (Q := Q) A rnd [] 1 S.relaxation
    | none => lipschitzScaling (Q := Q) A rnd [] 1 S.relaxation

/-- `FISTA.__call__` (src/corrct/solvers.py:1349-1513). `% 0` (restart period 0) raises in Python; it is modelled by
Lean's `n % 0 = n` and excluded by the theorems that mention the restart period. -/
noncomputable def fista (S : Solver ν ι Q) (A : Operator ν ι) (b : Arr ι) (a : Args ν ι) (precondition : Bool)
    (rnd : Arr ι) : Except Err (Arr ν × Info × Solver ν ι Q) := do
  let (bMask, bTestMask) := initBMasks a.bMask a.bTestMask
  let (sigma, tau) ← fistaScaling S A a precondition rnd
  let term := S.term.assignData (some (.array b)) (.scalar 1)
  let termTest ← testTerm bTestMask term S.termTest b (.scalar 1)
  let x : Arr ν := a.x0.getD fun _ => 0
  let x : Arr ν := applyMask a.xMask x
  let info := initialResiduals term termTest bMask bTestMask S.tolerance (A.fwd x) (Info.new a.iterations S.tolerance)
  let r := forRange (fistaStep A a S.regs S.restartPeriod term termTest bMask bTestMask sigma tau S.tolerance)
    a.iterations ⟨x, x, 1, info⟩
  .ok (r.x, r.info, { S with term := term, termTest := termTest })

/-- `FBP.__call__` (src/corrct/solvers.py:397-470); `filt` is the filter, `preWeights` the optional geometry weights. -/
noncomputable def fbp (A : Operator ν ι) (filt : Arr ι → Arr ι) (preWeights : Option (Arr ι)) (b : Arr ι) (a : Args ν ι) :
    Arr ν :=
  clipMask a (A.adj (filt (applyMask preWeights b)))

/-- The per-angle projection and back-projection given to `SART` (`A(x, ii)`, `At(y, ii)`,
src/corrct/solvers.py:551-566). Data of shape `(angles, pixels)`; leading detector axes (`...`) are left out. -/
structure AngleOp (ν : Type) (na nu : ℕ) where
  fwd : Fin na → Arr ν → Arr (Fin nu)
  adj : Fin na → Arr (Fin nu) → Arr ν

/-- Can `fp - b` be computed in `SART.compute_residual` (src/corrct/solvers.py:500-505)? `fp` has shape
`(pixels, angles)` (`np.stack(…, axis=-1)`) while `b` has shape `(angles, pixels)`. -/
def sartShapesOk (na nu : ℕ) : Prop := na = nu ∨ na = 1 ∨ nu = 1

/-- `np.linalg.norm(SART.compute_residual(…))` (src/corrct/solvers.py:475-505, 604, 626), with NumPy's broadcasting of
shape `(pixels, angles)` against `(angles, pixels)`. -/
noncomputable def sartResidualNorm {na nu : ℕ} (A : AngleOp ν na nu) (b : Fin na × Fin nu → ℝ)
    (bMask : Option (Arr (Fin na × Fin nu))) (x : Arr ν) : ℝ :=
  let m : Arr (Fin na × Fin nu) := bMask.getD fun _ => 1
  if h : na = nu then
    Real.sqrt (∑ k : Fin na, ∑ l : Fin nu, ((A.fwd (Fin.cast h.symm l) x (Fin.cast h k) - b (k, l)) * m (k, l)) ^ 2)
  else if h1 : na = 1 then
    Real.sqrt (∑ k : Fin nu, ∑ l : Fin nu,
      ((A.fwd (Fin.cast h1.symm 0) x k - b (Fin.cast h1.symm 0, l)) * m (Fin.cast h1.symm 0, l)) ^ 2)
  else if h2 : nu = 1 then
    Real.sqrt (∑ k : Fin na, ∑ l : Fin na,
      ((A.fwd l x (Fin.cast h2.symm 0) - b (k, Fin.cast h2.symm 0)) * m (k, Fin.cast h2.symm 0)) ^ 2)
  else 0

/-- The update of one SART sub-iteration (src/corrct/solvers.py:612-622). -/
noncomputable def sartRow {na nu : ℕ} (A : AngleOp ν na nu) (b : Fin na × Fin nu → ℝ) (a : Args ν (Fin na × Fin nu))
    (sigma : Arr (Fin na × Fin nu)) (tau : Arr (Fin na × ν)) (x : Arr ν) (k : Fin na) : Arr ν :=
  let res : Arr (Fin nu) := fun u => match a.bMask with
    | some m => (A.fwd k x u - b (k, u)) * m (k, u)
    | none => A.fwd k x u - b (k, u)
  let upd := A.adj k fun u => res u * sigma (k, u)
  clipMask a fun j => x j - upd j * tau (k, j)

/-- One SART iteration (src/corrct/solvers.py:608-632). -/
noncomputable def sartStep {na nu : ℕ} (A : AngleOp ν na nu) (b : Fin na × Fin nu → ℝ) (a : Args ν (Fin na × Fin nu))
    (sigma : Arr (Fin na × Fin nu)) (tau : Arr (Fin na × ν)) (rows : List (Fin na)) (tol : Option ℝ) (ii : ℕ)
    (s : XState ν) : XState ν × Bool :=
  let info := { s.info with iterations := s.info.iterations + 1 }
  let x := rows.foldl (sartRow A b a sigma tau) s.x
  match tol with
  | some t =>
    let r := sartResidualNorm A b a.bMask x
    (⟨x, { info with residuals := info.residuals.set ii r }⟩, decide (t > r))
  | none => (⟨x, info⟩, false)

/-- The step sizes of SART (src/corrct/solvers.py:574-589). -/
noncomputable def sartScaling {na nu : ℕ} (A : AngleOp ν na nu) (relaxation : ℝ) (a : Args ν (Fin na × Fin nu)) :
    Except Err (Arr (Fin na × Fin nu) × Arr (Fin na × ν)) :=
  let tau0 : Arr (Fin na × ν) := fun p => |A.adj p.1 (fun u => applyMask a.bMask (fun _ => 1) (p.1, u)) p.2|
  let sigma0 : Arr (Fin na × Fin nu) := fun p => |A.fwd p.1 (applyMask a.xMask fun _ => 1) p.2|
  if npMax tau0 = 0 ∨ npMax sigma0 = 0 then .error .nonFinite else
  .ok (fun p => 1 / fixSmall sigma0 p, fun p => relaxation / fixSmall tau0 p)

/-- `SART.__call__` (src/corrct/solvers.py:507-634). `rows` is `np.random.permutation(A_num_rows)`; SART has no
`b_test_mask`, so that field of the arguments is ignored. With a tolerance, incompatible shapes raise before the first
iteration. -/
noncomputable def sart {na nu : ℕ} (S : Solver ν (Fin na × Fin nu) Q) (A : AngleOp ν na nu) (b : Fin na × Fin nu → ℝ)
    (a : Args ν (Fin na × Fin nu)) (rows : List (Fin na)) : Except Err (Arr ν × Info) := do
  let (sigma, tau) ← sartScaling A S.relaxation a
  let x : Arr ν := a.x0.getD fun _ => 0
  let info := Info.new a.iterations S.tolerance
  if S.tolerance.isSome ∧ ¬ sartShapesOk na nu then .error .valueError else
  let info := if S.tolerance.isSome then { info with residual0 := some (sartResidualNorm A b a.bMask x) } else info
  let r := forRange (sartStep A b a sigma tau rows S.tolerance) a.iterations ⟨x, info⟩
  .ok (r.x, r.info)

/-- `TransformIdentity` (src/corrct/operators.py:365-384) as the solvers see it: both maps return their argument (the same
array object), and `absolute` is that of the base class, which returns the operator (src/corrct/operators.py:125-133). -/
def identityOp {ν : Type} : Operator ν ν := ⟨id, id, some (id, id), some id⟩

/-- The matrix projector (`ProjectorMatrix`, src/corrct/projectors.py:24-100; `absolute` :59-68): products with the matrix, its transpose, and
`absolute()` the entry-wise absolute value. -/
noncomputable def matrixOp (M : ι → ν → ℝ) : Operator ν ι where
  fwd := fun x i => ∑ j, M i j * x j
  adj := fun y j => ∑ i, M i j * y i
  abs := some (fun x i => ∑ j, |M i j| * x j, fun y j => ∑ i, |M i j| * y i)
  aliasBack := none

end Verif
