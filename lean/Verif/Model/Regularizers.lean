import Verif.Model.Solvers
import Verif.Model.Operators

/-!
# Model of `src/corrct/regularizers.py`

A regularizer after `initialize_sigma_tau`, as the record `Reg` the solvers use. In-place updates are functions returning
the new array; where NumPy hands out the same array object twice the record says so (`aliasBack`).
-/

namespace Verif
open Classical DataTerm

/-- `isinstance(norm, DataFidelity_l1)`: l1 and the classes derived from it (src/corrct/data_terms.py:535, 598, 628). -/
def Kind.isL1 {ι : Type} : Kind ι → Bool
  | .l1 | .l12 _ | .l1b _ => true
  | _ => false

/-- A regularizer object after `initialize_sigma_tau` (src/corrct/regularizers.py:36-70): transform `op` (`fwd`, `adj`;
`aliasBack` as for `Operator.aliasBack`), `sigma`, the returned `tau`, `weight`, `upd_mask` and `norm`. `pix` tells which
volume pixel a dual element belongs to (NumPy broadcasting of the weight against the dual). -/
structure RegState (ν δ : Type) where
  fwd : Arr ν → Arr δ
  adj : Arr δ → Arr ν
  aliasBack : Option (Arr ν → Arr δ)
  sigma : ℝ
  tau : Arr ν
  weight : Attr ν
  updMask : Option (Arr ν)
  norm : DataTerm δ
  pix : δ → ν

variable {ν δ : Type} [Fintype ν] [Fintype δ]

/-- `BaseRegularizer.update_dual` (src/corrct/regularizers.py:134-148). -/
def RegState.updateDual (r : RegState ν δ) (dual : Arr δ) (primal : Arr ν) : Arr δ := fun i =>
  dual i + r.sigma * r.fwd primal i

/-- `BaseRegularizer.apply_proximal_dual` (src/corrct/regularizers.py:150-162). -/
noncomputable def RegState.proxDual (r : RegState ν δ) (dual : Arr δ) : Arr δ :=
  if r.norm.kind.isL1 then r.norm.proxDual dual (.array fun i => r.weight.get (r.pix i)) else r.norm.proxDual dual

/-- Are the values of `apply_proximal_dual` numbers? The l1 family divides by `np.fmax(dual_inner_norm, weight)`
(src/corrct/data_terms.py:549-555): if both are zero the result is `0 / 0 = nan`, which the following `dual *= weight` keeps. (`proxDual`
has the value 0 there.) -/
def RegState.proxDualFinite (r : RegState ν δ) (dual : Arr δ) : Prop :=
  r.norm.kind.isL1 = true → ∀ i, max (r.norm.innerNorm (r.norm.applyThreshold (r.norm.subSigmaData dual)) i) (r.weight.get (r.pix i)) ≠ 0

/-- `BaseRegularizer.compute_update_primal` (src/corrct/regularizers.py:188-210): the update, and the dual as it is after
the call (`upd *= …` works on the array that `op.T(dual)` returned). -/
noncomputable def RegState.updatePrimal (r : RegState ν δ) (dual : Arr δ) : Arr ν × Arr δ :=
  let upd := applyMask r.updMask (r.adj dual)
  let upd : Arr ν := if r.norm.kind.isL1 then upd else fun j => upd j * r.weight.get j
  (upd, match r.aliasBack with | some f => f upd | none => dual)

/-- The record used by the solvers; `proxPrimal` is the identity for the classes without one (they are refused by FISTA,
the only solver using it; src/corrct/regularizers.py:164-186). -/
noncomputable def RegState.toReg (r : RegState ν δ) (proxPrimal : Arr ν → Arr ν → Arr ν := fun x _ => x) :
    Reg ν (Arr δ) where
  sigmaTau := fun _ => r.tau
  initDual := fun _ => 0
  updateDual := r.updateDual
  proxDual := r.proxDual
  updatePrimal := r.updatePrimal
  proxPrimal := proxPrimal

/-- `Regularizer_Grad.initialize_sigma_tau` (src/corrct/regularizers.py:240-273, also TV and smooth variants :292-432):
`sigma = 1/2`, `tau = 2 ndims`, times the weight unless the norm is l1-like, times the update mask. `norm` is the norm
object before the call. -/
noncomputable def gradReg {κ : Type} [Fintype κ] [DecidableEq κ] {n : κ → ℕ} {m : ℕ} (mode : PadMode) (axes : Fin m → κ)
    (weight : Attr (Idx n)) (updMask : Option (Arr (Idx n))) (norm : DataTerm (Fin m × Idx n)) :
    RegState (Idx n) (Fin m × Idx n) where
  fwd := gradient mode axes
  adj := gradientAdjoint mode axes
  aliasBack := none
  sigma := 1 / 2
  tau := applyMask updMask fun j => if norm.kind.isL1 then 2 * m else 2 * m * weight.get j
  weight := weight
  updMask := updMask
  norm := norm.assignData none (.scalar (1 / 2))
  pix := Prod.snd

/-- `Regularizer_lap.initialize_sigma_tau` (src/corrct/regularizers.py:434-469): `sigma = 1/4`, `tau = 4 ndims`, l1 norm. -/
noncomputable def lapReg {κ : Type} [Fintype κ] [DecidableEq κ] {n : κ → ℕ} {m : ℕ} (mode : PadMode) (axes : Fin m → κ)
    (weight : Attr (Idx n)) (updMask : Option (Arr (Idx n))) : RegState (Idx n) (Idx n) where
  fwd := laplacian mode axes
  adj := laplacian mode axes
  aliasBack := none
  sigma := 1 / 4
  tau := applyMask updMask fun _ => 4 * m
  weight := weight
  updMask := updMask
  norm := (DataTerm.new .l1 none).assignData none (.scalar (1 / 4))
  pix := id

/-- `Regularizer_l1` (src/corrct/regularizers.py:531-557): identity transform, `sigma = 1` (its `update_dual` adds the
primal, :556-557), `tau = 1`. The identity's transpose returns its argument (src/corrct/operators.py:383-384). -/
noncomputable def l1Reg (weight : Attr ν) (updMask : Option (Arr ν)) (norm : DataTerm ν) : RegState ν ν where
  fwd := id
  adj := id
  aliasBack := some id
  sigma := 1
  tau := applyMask updMask fun _ => 1
  weight := weight
  updMask := updMask
  norm := norm.assignData none (.scalar 1)
  pix := id

/-- `Regularizer_l1.apply_proximal_primal` with an l1 norm (src/corrct/regularizers.py:559-584). -/
noncomputable def l1ProxPrimal (weight : Attr ν) (updMask : Option (Arr ν)) (primal tau : Arr ν) : Arr ν :=
  match updMask with
  | some m => fun j => primal j * (1 - m j) + softThreshold (primal j * m j) (tau j * weight.get j)
  | none => fun j => softThreshold (primal j) (tau j * weight.get j)

/-- The two limit constraints. -/
inductive LimitSide where
  | lower | upper
  deriving DecidableEq

/-- `apply_proximal_primal` of the limit constraints (src/corrct/regularizers.py:1697-1714, 1764-1781). -/
noncomputable def limitProxPrimal (side : LimitSide) (limit : Attr ν) (primal : Arr ν) : Arr ν := fun j =>
  match side with
  | .lower => max (primal j) (limit.get j)
  | .upper => min (primal j) (limit.get j)

/-- `update_dual` of the limit constraints (src/corrct/regularizers.py:1690-1691, 1757-1758). -/
def limitUpdateDual (limit : Attr ν) (dual primal : Arr ν) : Arr ν := fun j => dual j + (primal j - limit.get j)

/-- `apply_proximal_dual` of the limit constraints (src/corrct/regularizers.py:1693-1695, 1760-1762), with the norm object
as it is at the time of the call. -/
noncomputable def limitProxDual (side : LimitSide) (norm : DataTerm ν) (dual : Arr ν) : Arr ν :=
  norm.proxDual fun j => match side with
    | .lower => if dual j > 0 then 0 else dual j
    | .upper => if dual j < 0 then 0 else dual j

/-- The default norm of the limit constraints after their `initialize_sigma_tau`
(src/corrct/regularizers.py:1670, 1680, 1737, 1747): l2 with the limit as data and `sigma = 1`. -/
noncomputable def limitNorm (limit : Attr ν) : DataTerm ν := (DataTerm.new .l2 none).assignData (some limit) (.scalar 1)

/-- The exponents `pwise_der_norm` and `pwise_chan_norm` of `Regularizer_VTV` (src/corrct/regularizers.py:1381-1387). -/
inductive PNorm where
  | one | two | inf
  deriving DecidableEq

/-- `Regularizer_VTV.apply_proximal_dual` without `x_ref` (src/corrct/regularizers.py:1402-1440): dual of shape
`(derivatives, channels, pixels)`. -/
noncomputable def vtvProxDual {D C P : Type} [Fintype D] [Fintype C] (der chan : PNorm) (weight : Arr P)
    (dual : Arr (D × C × P)) : Arr (D × C × P) :=
  let gradNorm : D → C → P → ℝ := fun d c p => match der with
    | .one => |dual (d, c, p)|
    | .two => Real.sqrt (∑ d', dual (d', c, p) ^ 2)
    | .inf => ∑ d', |dual (d', c, p)|
  let dualNorm : D → C → P → ℝ := fun d c p => match chan with
    | .one => gradNorm d c p
    | .two => Real.sqrt (∑ c', gradNorm d c' p ^ 2)
    | .inf => ∑ c', gradNorm d c' p
  fun q => dual q / max (dualNorm q.1 q.2.1 q.2.2) (weight q.2.2) * weight q.2.2

/-- Primal proximal in a transform domain: transform, soft-threshold the penalised coefficients, transform back
(decimated wavelets, src/corrct/regularizers.py:995-1047; `pen` is everything, or everything but the approximation band
if `min_approx` is off). The threshold is the first element of `tau * weight` (:1030). -/
noncomputable def transformProxPrimal (W : Arr ν → Arr δ) (Wt : Arr δ → Arr ν) (pen : δ → Prop) (threshold : ℝ)
    (primal : Arr ν) : Arr ν :=
  Wt fun i => if pen i then softThreshold (W primal i) threshold else W primal i

/-! ## Norm objects held by regularizers -/

/-- How a regularizer or constraint object uses its norm object: the reference it holds (a default argument such as
`norm=dt.DataFidelity_l12()` is evaluated once per class, so every object built without a norm holds the same reference;
src/corrct/regularizers.py:41-50, 231-239, 540-548, 1668-1674, 1735-1741), what `initialize_sigma_tau` assigns to it (:240-251,
550-554, 1680, 1747), what is done to the dual before the norm's proximal (:1693-1694, 1760-1761) and the weight passed along
(:159-162; `none` for norms that are not l1-like). Simplification: all duals have one shape. -/
structure NormUser (δ : Type) where
  ref : ℕ
  data : Option (Attr δ)
  sigma : Attr δ
  pre : Arr δ → Arr δ
  weight : Attr δ

/-- A call on object number `i`: `initialize_sigma_tau` or `apply_proximal_dual`. -/
inductive NormOp (k : ℕ) (δ : Type) where
  | init (i : Fin k)
  | prox (i : Fin k) (dual : Arr δ)

/-- One call: the norm objects after it (`norm.assign_data`, or unchanged), and the dual it produced, if any. -/
noncomputable def NormOp.step {k : ℕ} (objs : Fin k → NormUser δ) (heap : ℕ → DataTerm δ) :
    NormOp k δ → (ℕ → DataTerm δ) × Option (Arr δ)
  | .init i => (Function.update heap (objs i).ref ((heap (objs i).ref).assignData (objs i).data (objs i).sigma), none)
  | .prox i dual => (heap, some ((heap (objs i).ref).proxDual ((objs i).pre dual) (objs i).weight))

/-- A sequence of calls: the duals produced. -/
noncomputable def NormOp.run {k : ℕ} (objs : Fin k → NormUser δ) :
    (ℕ → DataTerm δ) → List (NormOp k δ) → List (Option (Arr δ))
  | _, [] => []
  | heap, c :: cs => (c.step objs heap).2 :: NormOp.run objs (c.step objs heap).1 cs

/-- A limit constraint holding the norm object `ref` (src/corrct/regularizers.py:1668-1695, 1735-1762). -/
noncomputable def limitUser (side : LimitSide) (limit : Attr δ) (ref : ℕ) : NormUser δ where
  ref := ref
  data := some limit
  sigma := .scalar 1
  pre := fun dual j => match side with
    | .lower => if dual j > 0 then 0 else dual j
    | .upper => if dual j < 0 then 0 else dual j
  weight := .scalar 1

/-- A transform regularizer (gradient, l1, wavelet families) holding the norm object `ref`
(src/corrct/regularizers.py:150-162, 246-247, 552-553). -/
def transformUser (sigma : Attr δ) (weight : Attr δ) (ref : ℕ) : NormUser δ where
  ref := ref
  data := none
  sigma := sigma
  pre := id
  weight := weight

end Verif
