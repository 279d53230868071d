import Verif.Model.Nuclear
import Verif.Model.Solvers

/-!
# Model of `regularizers.Regularizer_vSVD` (src/corrct/regularizers.py:1586-1650)

For `r` channels of `k` pixels (no other axes). `np.linalg.svd` is a parameter.
-/

namespace Verif
open DataTerm

/-- `Regularizer_vSVD` with the default norm (l1), as the solvers use it. The dual of the model is the array of duals of the singular values together with the state
of the `TransformSVD` object (its stored pair `U`, `Vt`), because `update_dual` changes both.
* `initialize_sigma_tau`: `sigma = 1`, `tau = 1` times the update mask (src/corrct/regularizers.py:1614-1628);
* `initialize_dual`: zeros (:120-132), `U = Vt = None` (src/corrct/operators.py:1043-1044);
* `update_dual`: `dual += op(primal)` (src/corrct/regularizers.py:134-148), which stores the singular vectors of `primal`;
* `apply_proximal_dual`: that of the l1 norm with the weight (:150-162);
* `compute_update_primal`: `op.T(dual)` times the mask (:189-210), with the stored singular vectors. Simplification: before the first update the code raises
  `ValueError` (src/corrct/operators.py:1100-1101), the model returns 0; no solver does that.
* `apply_proximal_primal` raises (src/corrct/regularizers.py:1630-1650): not modelled here (the identity stands for it). -/
noncomputable def vsvdReg {r k q : ℕ} (svd : (Fin r → Fin k → ℝ) → Svd r k q) (weight : ℝ) (updMask : Option (Arr (Fin r × Fin k))) :
    Reg (Fin r × Fin k) (SvdObj r k q × Arr (Fin q)) where
  sigmaTau := fun _ => applyMask updMask fun _ => 1
  initDual := (none, fun _ => 0)
  updateDual := fun d x =>
    let c := SvdObj.call true svd d.1 fun i j => x (i, j)
    (c.1, fun a => d.2 a + 1 * c.2 a)
  proxDual := fun d => (d.1, ((DataTerm.new .l1 none).assignData none (.scalar 1)).proxDual d.2 (.scalar weight))
  updatePrimal := fun d => (applyMask updMask fun p => (d.1.adjoint d.2).elim 0 fun M => M p.1 p.2, d)
  proxPrimal := fun x _ => x

end Verif
