import Verif.Model.Regularizers

/-!
# Model of the singular value operator, of the nuclear norm and of the regularizers built on them

`operators.TransformSVD` (src/corrct/operators.py:977-1106), `data_terms.DataFidelity_ln` (src/corrct/data_terms.py:760-842),
`regularizers.Regularizer_TNV` (src/corrct/regularizers.py:1325-1358). `np.linalg.svd` is a parameter.
-/

namespace Verif
open DataTerm

/-- The three arrays `np.linalg.svd(x, full_matrices=False)` returns for an `r × k` matrix; `q = min(r, k)`
(src/corrct/operators.py:1050-1064). -/
structure Svd (r k q : ℕ) where
  U : Fin r → Fin q → ℝ
  s : Fin q → ℝ
  Vt : Fin q → Fin k → ℝ

/-- The contract of `np.linalg.svd`: orthonormal columns of `U`, orthonormal rows of `Vt`, non-negative singular values, and the
product is the matrix (src/corrct/operators.py:1064). -/
def Svd.Valid {r k q : ℕ} (S : Svd r k q) (M : Fin r → Fin k → ℝ) : Prop :=
  (∀ a b, ∑ i, S.U i a * S.U i b = if a = b then 1 else 0) ∧ (∀ a b, ∑ j, S.Vt a j * S.Vt b j = if a = b then 1 else 0) ∧
    (∀ a, 0 ≤ S.s a) ∧ ∀ i j, M i j = ∑ a, S.U i a * (S.s a * S.Vt a j)

/-- `TransformSVD.inverse_svd`: `np.matmul(U, s[..., None] * Vt)` (src/corrct/operators.py:1066-1084). -/
def inverseSvd {r k q : ℕ} (U : Fin r → Fin q → ℝ) (s : Fin q → ℝ) (Vt : Fin q → Fin k → ℝ) : Fin r → Fin k → ℝ :=
  fun i j => ∑ a, U i a * (s a * Vt a j)

/-- `TransformSVD._op_direct` of one matrix (src/corrct/operators.py:1090-1097): the singular values it returns, with the arrays
`U` and `Vt` it stores in the object; with `rescale` the three are multiplied by powers of the sizes. -/
noncomputable def svdDirect {r k q : ℕ} (rescale : Bool) (S : Svd r k q) : Svd r k q :=
  if rescale then
    ⟨fun i a => S.U i a * Real.sqrt r, fun a => S.s a / Real.sqrt (k * r), fun a j => S.Vt a j * Real.sqrt k⟩
  else S

/-- A `TransformSVD` object: the stored pair `(U, Vt)`, `None` before the first direct call
(src/corrct/operators.py:1043-1044). `op.T` is a shallow copy, with the pair stored at that time (:107-118). -/
abbrev SvdObj (r k q : ℕ) := Option (Svd r k q)

/-- `op(x)` (src/corrct/operators.py:1086-1097): the object afterwards and the result. -/
noncomputable def SvdObj.call {r k q : ℕ} (rescale : Bool) (svd : (Fin r → Fin k → ℝ) → Svd r k q) (_op : SvdObj r k q)
    (x : Fin r → Fin k → ℝ) : SvdObj r k q × (Fin q → ℝ) :=
  (some (svdDirect rescale (svd x)), (svdDirect rescale (svd x)).s)

/-- `op.T(s)` (src/corrct/operators.py:1099-1106): `none` is the `ValueError` of an object without stored arrays. -/
def SvdObj.adjoint {r k q : ℕ} (op : SvdObj r k q) (s : Fin q → ℝ) : Option (Fin r → Fin k → ℝ) :=
  op.map fun S => inverseSvd S.U s S.Vt

variable {P : Type} [Fintype P]

/-- `DataFidelity_ln.apply_proximal_dual` without data, with `ln_axes = (1, 0)` (src/corrct/data_terms.py:778-811): the dual has
shape `(k, r, pixels…)`, rows are axis 1, columns axis 0; the singular values have shape `(pixels…, q)`. Simplification: the code
branch with `use_fallback`, which is never set, is left out. -/
noncomputable def lnProxDual {r k q : ℕ} (svd : (Fin r → Fin k → ℝ) → Svd r k q) (spectral : DataTerm (P × Fin q))
    (dual : Arr (Fin k × Fin r × P)) : Arr (Fin k × Fin r × P) :=
  let S : P → Svd r k q := fun p => svdDirect false (svd fun c d => dual (d, c, p))
  let s := spectral.proxDual fun x => (S x.1).s x.2
  fun x => inverseSvd (S x.2.2).U (fun a => s (x.2.2, a)) (S x.2.2).Vt x.2.1 x.1

/-- `DataFidelity_ln.apply_proximal_dual` with data (src/corrct/data_terms.py:781-784, 806-811): `sigma_data`, of shape
`(k, b, pixels…)`, is appended to the rows, and the last row is dropped afterwards. `none` is the `ValueError` of the assignment
`dual[:] = …` when the numbers of rows do not match. -/
noncomputable def lnProxDualData {r b k q : ℕ} (svd : (Fin (r + b) → Fin k → ℝ) → Svd (r + b) k q)
    (spectral : DataTerm (P × Fin q)) (sigmaData : Arr (Fin k × Fin b × P)) (dual : Arr (Fin k × Fin r × P)) :
    Option (Arr (Fin k × Fin r × P)) :=
  let ext : Arr (Fin k × Fin (r + b) × P) := fun x =>
    Fin.addCases (fun c => dual (x.1, c, x.2.2)) (fun c => sigmaData (x.1, c, x.2.2)) x.2.1
  if r + b - 1 = r then some fun x => lnProxDual svd spectral ext (x.1, Fin.castAdd b x.2.1, x.2.2) else none

/-- `DataFidelity_ln.compute_residual_norm` (src/corrct/data_terms.py:831-834): `np.linalg.norm(s, ord=1)` of the singular values,
of shape `(pixels…, q)` with `inv` pixel axes: a vector, a matrix (maximum of the sums of the columns), or `ValueError`. -/
noncomputable def lnResidualNorm {r k q : ℕ} (inv : ℕ) (svd : (Fin r → Fin k → ℝ) → Svd r k q)
    (dual : Arr (Fin k × Fin r × P)) : Option ℝ :=
  let s : P → Fin q → ℝ := fun p a => (svdDirect false (svd fun c d => dual (d, c, p))).s a
  match inv with
  | 0 => some (∑ p, ∑ a, |s p a|)
  | 1 => some (⨆ a, ∑ p, |s p a|)
  | _ => none

/-- `Regularizer_TNV` after `initialize_sigma_tau` (src/corrct/regularizers.py:1325-1358, 240-251, 134-162, 188-210): a gradient
regularizer of a volume with `r` channels on the first axis, whose norm is the nuclear norm; the norm is not l1-like, so `tau` and
the update of the primal carry the weight. `xRef` is used to compute `self.q_ref`, which nothing reads. -/
noncomputable def tnvReg {κ : Type} [Fintype κ] [DecidableEq κ] {n : κ → ℕ} {m r q : ℕ} (mode : PadMode) (axes : Fin m → κ)
    (weight : Attr (Idx n)) (updMask : Option (Arr (Idx n))) (svd : (Fin r → Fin m → ℝ) → Svd r m q)
    (spectral : DataTerm (Idx n × Fin q)) (_xRef : Option (Arr (Idx n))) :
    Reg (Fin r × Idx n) (Arr (Fin m × Fin r × Idx n)) where
  sigmaTau := fun _ j => applyMask updMask (fun p => 2 * m * weight.get p) j.2
  initDual := fun _ => 0
  updateDual := fun dual primal x => dual x + 1 / 2 * gradient mode axes (fun p => primal (x.2.1, p)) (x.1, x.2.2)
  proxDual := lnProxDual svd spectral
  updatePrimal := fun dual =>
    (fun j => applyMask updMask (gradientAdjoint mode axes fun x => dual (x.1, j.1, x.2)) j.2 * weight.get j.2, dual)
  proxPrimal := fun x _ => x

/-- `Regularizer_VTV.__init__` with `x_ref` and its `apply_proximal_dual` (src/corrct/regularizers.py:1389-1395, 1402-1440):
`q_ref` is the dual step of the reference from zero (`sigma = 1/2` times its gradient); it takes part in the norms as one more
channel, and is dropped from the result. -/
noncomputable def vtvProxDualRef {D C P : Type} [Fintype D] [Fintype C] (der chan : PNorm) (weight : Arr P)
    (qRef : Option (Arr (D × P))) (dual : Arr (D × C × P)) : Arr (D × C × P) :=
  match qRef with
  | none => vtvProxDual der chan weight dual
  | some q => fun x => vtvProxDual (C := Option C) der chan weight
      (fun y => match y.2.1 with | some c => dual (y.1, c, y.2.2) | none => q (y.1, y.2.2)) (x.1, some x.2.1, x.2.2)

/-- The `q_ref` of `Regularizer_VTV` (src/corrct/regularizers.py:1389-1393). -/
noncomputable def vtvRef {κ : Type} [Fintype κ] [DecidableEq κ] {n : κ → ℕ} {m : ℕ} (mode : PadMode) (axes : Fin m → κ)
    (xRef : Arr (Idx n)) : Arr (Fin m × Idx n) := fun x => 0 + 1 / 2 * gradient mode axes xRef x

/-- `Regularizer_VTV` after `initialize_sigma_tau` (src/corrct/regularizers.py:1369-1395, 240-251, 134-162, 188-210): a gradient regularizer of a volume with `r` channels on
the first axis, whose dual step is that of `vtvProxDualRef`; its norm is the default of the gradient regularizers (l12, a kind of l1), so that neither `tau` nor the update
of the primal carry the weight. The constructor has no argument for the padding: `mode` is "edge", unless the attribute `pad_mode` is changed afterwards. -/
noncomputable def vtvReg {κ : Type} [Fintype κ] [DecidableEq κ] {n : κ → ℕ} {m r : ℕ} (mode : PadMode) (axes : Fin m → κ)
    (weight : Attr (Idx n)) (updMask : Option (Arr (Idx n))) (der chan : PNorm) (qRef : Option (Arr (Fin m × Idx n))) :
    Reg (Fin r × Idx n) (Arr (Fin m × Fin r × Idx n)) where
  sigmaTau := fun _ j => applyMask updMask (fun _ => 2 * m) j.2
  initDual := fun _ => 0
  updateDual := fun dual primal x => dual x + 1 / 2 * gradient mode axes (fun p => primal (x.2.1, p)) (x.1, x.2.2)
  proxDual := vtvProxDualRef der chan weight.get qRef
  updatePrimal := fun dual => (fun j => applyMask updMask (gradientAdjoint mode axes fun x => dual (x.1, j.1, x.2)) j.2, dual)
  proxPrimal := fun x _ => x

end Verif
