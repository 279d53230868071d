import Verif.Model.StationaryWavelets
import Verif.Model.Nuclear

/-!
# Model of the stationary wavelet regularizers for several channels, and of the one with the Huber norm

`regularizers.Regularizer_lnswl` (src/corrct/regularizers.py:1443-1490), `regularizers.Regularizer_vl1wl` (src/corrct/regularizers.py:1493-1583),
`regularizers.Regularizer_Hub_swl` (src/corrct/regularizers.py:833-863). They inherit operator, step sizes and update of the dual from `Regularizer_swl`
(src/corrct/regularizers.py:587-709).
-/

namespace Verif
open DataTerm

variable {κ : Type} [Fintype κ] [DecidableEq κ] {n : κ → ℕ} {m L : ℕ}

/-- `TransformStationaryWavelet._op_direct` of a volume with channels on its first axis, which is not one of the transformed axes
(src/corrct/operators.py:703-731, 752-755): every channel is transformed, the bands are stacked on a new first axis. -/
noncomputable def channelSwt (w : FilterBank L) (normalized edge : Bool) (level : ℕ) (axes : Fin m → κ) {r : ℕ} (x : Arr (Fin r × Idx n)) :
    Arr (Band m level × Fin r × Idx (paddedShape level axes n)) :=
  fun k => swtOp w normalized edge level axes (fun p => x (k.2.1, p)) (k.1, k.2.2)

/-- `TransformStationaryWavelet._op_adjoint` for the same volume (src/corrct/operators.py:733-750, 757-765). -/
noncomputable def channelSwtT (w : FilterBank L) (normalized : Bool) (level : ℕ) (axes : Fin m → κ) {r : ℕ}
    (y : Arr (Band m level × Fin r × Idx (paddedShape level axes n))) : Arr (Fin r × Idx n) :=
  fun j => swtOpT w normalized level axes (fun q => y (q.1, j.1, q.2)) j.2

/-- `Regularizer_swl.update_dual` (src/corrct/regularizers.py:683-694): with `min_approx=False` the approximation of the dual is set to zero. -/
noncomputable def swlUpdateDual (w : FilterBank L) (normalized minApprox : Bool) {level : ℕ} {X : Type} (dual coeffs : Arr (Band m level × X)) :
    Arr (Band m level × X) := fun k =>
  if minApprox = false ∧ k.1 = none then 0 else dual k + swlSigma w normalized m level k.1 * coeffs k

/-- `Regularizer_vl1wl` without reference and update mask, after `initialize_sigma_tau` (src/corrct/regularizers.py:1498-1583): the dual step is that of the vectorial
total variation with the bands instead of the derivatives. The norm stays the l1 norm of the parent class, so the weight is in the dual step only. -/
noncomputable def vl1wlReg (w : FilterBank L) (normalized edge minApprox : Bool) (level : ℕ) (axes : Fin m → κ) {r : ℕ} (weight : ℝ) (lvl chan : PNorm) :
    Reg (Fin r × Idx n) (Arr (Band m level × Fin r × Idx (paddedShape level axes n))) where
  sigmaTau := fun _ _ => swlTau w normalized m level
  initDual := 0
  updateDual := fun dual x => swlUpdateDual w normalized minApprox dual (channelSwt w normalized edge level axes x)
  proxDual := vtvProxDual lvl chan fun _ => weight
  updatePrimal := fun dual => (channelSwtT w normalized level axes dual, dual)
  proxPrimal := fun x _ => x

/-- `DataFidelity_ln.apply_proximal_dual` of the wavelet coefficients with `ln_axes=(1, 0)` (src/corrct/data_terms.py:778-811; src/corrct/regularizers.py:1475): of every pixel the
matrix with a row per channel and a column per band. `e` is the order in which the bands are stacked. -/
noncomputable def bandNuclear {level r K q : ℕ} {P : Type} [Fintype P] (e : Fin K ≃ Band m level) (svd : (Fin r → Fin K → ℝ) → Svd r K q)
    (spectral : DataTerm (P × Fin q)) (dual : Arr (Band m level × Fin r × P)) : Arr (Band m level × Fin r × P) :=
  fun k => lnProxDual svd spectral (fun x : Fin K × Fin r × P => dual (e x.1, x.2)) (e.symm k.1, k.2)

/-- `Regularizer_lnswl` without update mask, after `initialize_sigma_tau` (src/corrct/regularizers.py:1451-1490). The nuclear norm is no l1 norm, so `tau` and the update of the
primal carry the weight (src/corrct/regularizers.py:679-680, 188-210). With a reference `q_ref` is computed, which nothing reads. -/
noncomputable def lnswlReg (w : FilterBank L) (normalized edge minApprox : Bool) (level : ℕ) (axes : Fin m → κ) {r K q : ℕ} (weight : ℝ) (e : Fin K ≃ Band m level)
    (svd : (Fin r → Fin K → ℝ) → Svd r K q) (spectral : DataTerm (Idx (paddedShape level axes n) × Fin q)) (_xRef : Option (Arr (Idx n))) :
    Reg (Fin r × Idx n) (Arr (Band m level × Fin r × Idx (paddedShape level axes n))) where
  sigmaTau := fun _ _ => swlTau w normalized m level * weight
  initDual := 0
  updateDual := fun dual x => swlUpdateDual w normalized minApprox dual (channelSwt w normalized edge level axes x)
  proxDual := bandNuclear e svd spectral
  updatePrimal := fun dual => (fun j => channelSwtT w normalized level axes dual j * weight, dual)
  proxPrimal := fun x _ => x

/-- `Regularizer_swl` with a norm that is no l1 norm, such as `Regularizer_Hub_swl`, without update mask, after `initialize_sigma_tau`
(src/corrct/regularizers.py:591-709, 833-863, 188-210). -/
noncomputable def normSwlReg (w : FilterBank L) (normalized edge minApprox : Bool) (level : ℕ) (axes : Fin m → κ) (weight : ℝ)
    (norm : DataTerm (Band m level × Idx (paddedShape level axes n))) : Reg (Idx n) (Arr (Band m level × Idx (paddedShape level axes n))) where
  sigmaTau := fun _ _ => swlTau w normalized m level * weight
  initDual := 0
  updateDual := fun dual x => swlUpdateDual w normalized minApprox dual (swtOp w normalized edge level axes x)
  proxDual := fun dual => (norm.assignData none (.array fun q => swlSigma w normalized m level q.1)).proxDual dual (.scalar 1)
  updatePrimal := fun dual => (fun j => swtOpT w normalized level axes dual j * weight, dual)
  proxPrimal := fun x _ => x

end Verif
