import Verif.Model.Basic

/-!
# Model of the stationary wavelet operator (src/corrct/operators.py:499-521, 637-765)

An n-d array is a shape and a value for every multi-index (only the values inside the shape count). The transforms of
PyWavelets (`swtn`, `iswtn`) are parameters.
-/

namespace Verif

/-- A numpy array with axes `κ`: shape and values. -/
structure NdArr (κ : Type) where
  shape : κ → ℕ
  val : (κ → ℕ) → ℝ

/-- `q` is a valid multi-index. -/
def NdArr.Valid {κ : Type} (A : NdArr κ) (q : κ → ℕ) : Prop := ∀ k, q k < A.shape k

variable {κ : Type} [DecidableEq κ]

/-- Padding needed to reach a multiple of `2**level` (src/corrct/operators.py:694-696). -/
def swtPad (level size : ℕ) : ℕ := (2 ^ level - size % 2 ^ level) % 2 ^ level

/-- `pad_l`: `np.ceil(pad / 2)`, `pad_h`: `np.floor(pad / 2)` (src/corrct/operators.py:721-722, 745-746). -/
def padLow (pad : ℕ) : ℕ := (pad + 1) / 2
/-- See `padLow`. -/
def padHigh (pad : ℕ) : ℕ := pad / 2

/-- `np.pad(x, …, mode=…)` of one axis (src/corrct/operators.py:723-725): `fill` gives the padding values, which depend on
the mode; the theorems hold for every `fill`. -/
def padAxis (fill : NdArr κ → (κ → ℕ) → ℝ) (A : NdArr κ) (ax : κ) (lo hi : ℕ) : NdArr κ where
  shape := fun k => if k = ax then A.shape k + lo + hi else A.shape k
  val := fun q => if lo ≤ q ax ∧ q ax < lo + A.shape ax then A.val (Function.update q ax (q ax - lo)) else fill A q

/-- `x[…, lo : shape - hi, …]` (src/corrct/operators.py:747-749). -/
def cropAxis (A : NdArr κ) (ax : κ) (lo hi : ℕ) : NdArr κ where
  shape := fun k => if k = ax then A.shape k - hi - lo else A.shape k
  val := fun q => A.val (Function.update q ax (q ax + lo))

/-- The padding amounts per transformed axis, fixed at construction from the shape (src/corrct/operators.py:692-696); the
loops visit those with a non-zero amount (:720, :744). -/
def padPlan (level : ℕ) (axes : List κ) (shape : κ → ℕ) : List (κ × ℕ) :=
  (axes.map fun ax => (ax, swtPad level (shape ax))).filter fun p => p.2 ≠ 0

/-- The padding loop of `direct_swt` (src/corrct/operators.py:719-725). -/
def padAll (fill : NdArr κ → (κ → ℕ) → ℝ) (plan : List (κ × ℕ)) (A : NdArr κ) : NdArr κ :=
  plan.foldl (fun A p => padAxis fill A p.1 (padLow p.2) (padHigh p.2)) A

/-- The cropping loop of `inverse_swt` (src/corrct/operators.py:743-749). -/
def cropAll (plan : List (κ × ℕ)) (A : NdArr κ) : NdArr κ :=
  plan.foldl (fun A p => cropAxis A p.1 (padLow p.2) (padHigh p.2)) A

/-- The label of detail band number `x` (src/corrct/operators.py:511): the `num_axes` binary digits of `x`, most
significant first; `true` stands for "d", `false` for "a". -/
def bandLabel (numAxes x : ℕ) : List Bool := (List.range numAxes).map fun i => x.testBit (numAxes - 1 - i)

/-- `self.labels` (src/corrct/operators.py:511). -/
def bandLabels (numAxes : ℕ) : List (List Bool) := (List.range' 1 (2 ^ numAxes - 1)).map (bandLabel numAxes)

/-- The coefficients of `pywt.swtn(…, trim_approx=True)`: approximation, and the details by level (1…) and label. -/
structure SwtCoeffs (V : Type) where
  approx : V
  detail : ℕ → List Bool → V

/-- The packing of `_op_direct` (src/corrct/operators.py:752-755). -/
def packSwt {V : Type} (numAxes level : ℕ) (c : SwtCoeffs V) : List V :=
  c.approx :: (List.range' 1 level).flatMap fun lvl => (bandLabels numAxes).map fun lab => c.detail lvl lab

/-- The unpacking of `_op_adjoint` (src/corrct/operators.py:757-765): band `ii_lbl` of level `lvl` is at
`ii_lbl + (lvl - 1) * (2**num_axes - 1) + 1`; `default` stands for the IndexError of a too short array. -/
def unpackSwt {V : Type} [Inhabited V] (numAxes : ℕ) (x : List V) : SwtCoeffs V where
  approx := x.getD 0 default
  detail := fun lvl lab => x.getD ((bandLabels numAxes).idxOf lab + ((lvl - 1) * (2 ^ numAxes - 1) + 1)) default

/-- `_op_direct` (src/corrct/operators.py:703-727, 752-755). -/
def swtDirect {V : Type} (fill : NdArr κ → (κ → ℕ) → ℝ) (swtn : NdArr κ → SwtCoeffs V) (level : ℕ) (axes : List κ)
    (dirShape : κ → ℕ) (x : NdArr κ) : List V :=
  packSwt axes.length level (swtn (padAll fill (padPlan level axes dirShape) x))

/-- `_op_adjoint` (src/corrct/operators.py:729-750, 757-765). -/
def swtAdjoint {V : Type} [Inhabited V] (iswtn : SwtCoeffs V → NdArr κ) (level : ℕ) (axes : List κ)
    (dirShape : κ → ℕ) (y : List V) : NdArr κ :=
  cropAll (padPlan level axes dirShape) (iswtn (unpackSwt axes.length y))

end Verif
