import Mathlib.Data.List.Basic
import Mathlib.Tactic

/-!
# Constructors of the iterative solvers (`src/corrct/solvers.py`) and the primal proximal of the regularizers
-/

namespace Verif

/-- The data-fidelity classes (src/corrct/data_terms.py:283, 334, 398, 467, 535, 598, 628, 677, 760). -/
inductive TermClass where
  | l2 | wl2 | l2b | huber | l1 | l12 | l1b | kl | ln
  deriving DecidableEq

/-- `isinstance(term, DataFidelity_l2)` (class statements at src/corrct/data_terms.py:283, 334, 398). -/
def TermClass.isL2 : TermClass → Bool
  | .l2 | .wl2 | .l2b => true
  | _ => false

/-- `isinstance(term, DataFidelity_KL)` (src/corrct/data_terms.py:677). -/
def TermClass.isKL : TermClass → Bool
  | .kl => true
  | _ => false

/-- Does `apply_proximal_primal` of the norm raise `NotImplementedError` (src/corrct/data_terms.py:503-521, 610-625,
813-829)? -/
def TermClass.noPrimal : TermClass → Bool
  | .huber | .l12 | .ln => true
  | _ => false

/-- The `data_term` argument: a string (after `.lower()`) or an object of a class. -/
inductive TermArg where
  | str (lowered : String)
  | obj (c : TermClass)

/-- The regularizer class hierarchy (src/corrct/regularizers.py), by the class that defines `apply_proximal_primal`:
`grad` includes TV, HubTV, smooth, TNV and VTV (:218, 292-432, 1324, 1361); `lap` :434-530; `l1` :531;
`swl` includes l1swl, l12swl, Hub_swl, lnswl, vl1wl (:587, 771-863, 1443, 1493); `dwl` :865-1134; `med` :1136-1211;
`fft` :1213; `vSVD` :1586; limits :1650, 1717. -/
inductive RegClass where
  | grad | lap | l1 | swl (normalized : Bool) | dwl | med | fft | vSVD | lowerLimit | upperLimit
  deriving DecidableEq

/-- A regularizer object: its class, its norm, whether it was already initialised (its `op` is set), and if so whether
the operator accepts the one-element dummy array. -/
structure RegObj where
  cls : RegClass
  norm : TermClass
  initialized : Bool := false
  dummyFits : Bool := false

/-- How a call ends. -/
inductive Outcome where
  | returns | notImplemented | otherException
  deriving DecidableEq

/-- `reg.apply_proximal_primal(x, tau)`; `fits` tells if the shape of `x` fits the operator of the regularizer.
grad/lap/med/vSVD raise (src/corrct/regularizers.py:275-289, 471-483, 1179-1192, 1630-1647); l1 (:559-584) calls the
norm; swl (:706-768): `ValueError` if not initialised, `NotImplementedError` if not normalised, otherwise
`coeffs_list[lvl].keys()` on an array raises `AttributeError`; dwl (:995-1047) and fft (:1273-1319): `ValueError` if not
initialised, otherwise the norm is called on the coefficients; limits (:1697-1714, 1764-1781) always return. -/
def RegObj.primalProx (r : RegObj) (fits : Bool) : Outcome :=
  let byNorm : Outcome := if r.norm.noPrimal then .notImplemented else .returns
  match r.cls with
  | .grad | .lap | .med | .vSVD => .notImplemented
  | .l1 => byNorm
  | .swl normalized =>
    if !r.initialized then .otherException else
    if !normalized then .notImplemented else .otherException
  | .dwl | .fft =>
    if !r.initialized then .otherException else
    if !fits then .otherException else byNorm
  | .lowerLimit | .upperLimit => .returns

/-- The `regularizer` argument: `None`, a regularizer, a list or tuple (a `none` element is an object that is not a
regularizer), or anything else. -/
inductive RegArg where
  | none
  | one (r : RegObj)
  | seq (l : List (Option RegObj))
  | other

/-- `Solver._initialize_regularizer` (src/corrct/solvers.py:313-331); `none` is `ValueError`. -/
def initRegularizer : RegArg → Option (List RegObj)
  | .none => some []
  | .one r => some [r]
  | .seq l => if l.all Option.isSome then some (l.filterMap id) else none
  | .other => none

/-- `Solver._initialize_data_fidelity_function` (src/corrct/solvers.py:300-311), used by SIRT, SART, FBP. -/
def baseTerm : TermArg → Option TermClass
  | .str s => if s = "l2" then some .l2 else if s = "kl" then some .kl else none
  | .obj c => if c.isL2 || c.isKL then some c else none

/-- `PDHG._initialize_data_fidelity_function` (src/corrct/solvers.py:1046-1057). -/
def pdhgTerm : TermArg → Option TermClass
  | .str s => if s = "l2" then some .l2 else if s = "l1" then some .l1 else if s = "kl" then some .kl else none
  | .obj c => some c

/-- `FISTA._initialize_data_fidelity_function` (src/corrct/solvers.py:1337-1347). -/
def fistaTerm : TermArg → Option TermClass
  | .str s => if s = "l2" then some .l2 else none
  | .obj c => if c.isL2 then some c else none

/-- `Solver.__init__` (src/corrct/solvers.py:225-244): the data term and the test data term (defaulting to a copy). -/
def initTerms (conv : TermArg → Option TermClass) (term : TermArg) (test : Option TermArg) :
    Option (TermClass × TermClass) := do
  let t ← conv term
  let u ← match test with | none => some t | some u => conv u
  return (t, u)

/-- `SIRT.__init__` (src/corrct/solvers.py:835-853). -/
def sirtInit (term : TermArg) (test : Option TermArg) (reg : RegArg) : Option (TermClass × TermClass × List RegObj) := do
  let (t, u) ← initTerms baseTerm term test
  let regs ← initRegularizer reg
  return (t, u, regs)

/-- `PDHG.__init__` (src/corrct/solvers.py:1014-1032). -/
def pdhgInit (term : TermArg) (test : Option TermArg) (reg : RegArg) : Option (TermClass × TermClass × List RegObj) := do
  let (t, u) ← initTerms pdhgTerm term test
  let regs ← initRegularizer reg
  return (t, u, regs)

/-- `FISTA.__init__` (src/corrct/solvers.py:1280-1329); `none` is `ValueError`. The dry run of the primal proximal on a
one-element array only rejects on `NotImplementedError`; every other exception is swallowed. -/
def fistaInit (term : TermArg) (test : Option TermArg) (reg : RegArg) : Option (TermClass × TermClass × List RegObj) := do
  let (t, u) ← initTerms fistaTerm term test
  let regs ← initRegularizer reg
  match regs with
  | [] => return (t, u, [])
  | [r] => if r.primalProx r.dummyFits = .notImplemented then none else return (t, u, [r])
  | _ :: _ :: _ => none

/-- The regularizer inside `FISTA.__call__`: `initialize_sigma_tau` sets the operator for the volume
(src/corrct/solvers.py:1423-1425), then `apply_proximal_primal` is called in every iteration (:1476-1477). -/
def fistaRunProx (r : RegObj) : Outcome := ({ r with initialized := true } : RegObj).primalProx true

end Verif
