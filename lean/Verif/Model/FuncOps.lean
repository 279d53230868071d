import Verif.Model.Solvers

/-!
# Model of operators given by functions

`TransformFunctions` (src/corrct/operators.py:208-280) as the solvers use it. Simplification: the functions return fresh arrays.
-/

namespace Verif

variable {ν ι : Type}

/-- `TransformFunctions(…, A, At)` (src/corrct/operators.py:211-280): `A` and `At` are called as they are, and `absolute()` raises `AttributeError` (:272-280), so the
solvers do without it (src/corrct/solvers.py:912-918, 1106-1113, 1398-1404). -/
def functionsOp (A : Arr ν → Arr ι) (At : Arr ι → Arr ν) : Operator ν ι where
  fwd := A
  adj := At
  abs := none
  aliasBack := none

/-- `TransformFunctions(…, A)` without the adjoint (src/corrct/operators.py:254-270): the function itself is used. -/
def functionsOpSym (A : Arr ν → Arr ν) : Operator ν ν where
  fwd := A
  adj := A
  abs := none
  aliasBack := none

end Verif
