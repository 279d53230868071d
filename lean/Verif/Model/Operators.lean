import Verif.Model.Basic
import Mathlib.Analysis.SpecialFunctions.Complex.Log

/-!
# Model of `src/corrct/operators.py`

Multi-dimensional arrays: an axis set `κ`, a shape `n : κ → ℕ`, and multi-indices `Idx n`.
-/

namespace Verif

/-- The multi-indices of an array of shape `n`. -/
abbrev Idx {κ : Type} (n : κ → ℕ) := (k : κ) → Fin (n k)

/-- The modes of `np.pad` that are modelled (`mode="edge" | "constant" | "wrap"`). -/
inductive PadMode where
  | edge | constant | wrap
  deriving DecidableEq

variable {κ : Type} [Fintype κ] [DecidableEq κ] {n : κ → ℕ}

/-- The multi-index at offset `s` from `p`, if it is inside the array. -/
def shiftIdx (p : Idx n) (s : κ → ℤ) : Option (Idx n) :=
  if h : ∀ k, 0 ≤ (p k : ℤ) + s k ∧ (p k : ℤ) + s k < n k then
    some fun k => ⟨((p k : ℤ) + s k).toNat, by have := h k; omega⟩
  else none

/-- The nearest multi-index inside the array (`mode="edge"`). -/
def clampIdx (p : Idx n) (s : κ → ℤ) : Idx n := fun k =>
  ⟨(max 0 (min ((n k : ℤ) - 1) ((p k : ℤ) + s k))).toNat, by have := (p k).isLt; omega⟩

/-- The multi-index modulo the shape (`mode="wrap"`). -/
def wrapIdx (p : Idx n) (s : κ → ℤ) : Idx n := fun k =>
  ⟨(((p k : ℤ) + s k) % (n k : ℤ)).toNat, by
    have h := (p k).isLt
    have h0 : (n k : ℤ) ≠ 0 := by omega
    have h1 := Int.emod_nonneg ((p k : ℤ) + s k) h0
    have h2 := Int.emod_lt_of_pos ((p k : ℤ) + s k) (show (0 : ℤ) < n k by omega)
    omega⟩

/-- The value of `np.pad(x, …, mode)` at offset `s` from the original position `p` (a sufficient padding width being
given; `np.pad` as used in src/corrct/operators.py:475, 814, 836, 967). -/
def padGet (mode : PadMode) (x : Arr (Idx n)) (p : Idx n) (s : κ → ℤ) : ℝ :=
  match mode with
  | .constant => (shiftIdx p s).elim 0 x
  | .edge => x (clampIdx p s)
  | .wrap => x (wrapIdx p s)

/-- The unit offset along an axis. -/
def unitAx (a : κ) : κ → ℤ := fun k => if k = a then 1 else 0

/-- `TransformGradient.gradient` (src/corrct/operators.py:796-816): `np.diff` of the array padded by one element at the
end of the axis; `axes ii` is the axis of the `ii`-th output. -/
def gradient (mode : PadMode) {m : ℕ} (axes : Fin m → κ) (x : Arr (Idx n)) : Arr (Fin m × Idx n) := fun q =>
  padGet mode x q.2 (unitAx (axes q.1)) - x q.2

/-- `TransformGradient.divergence` (src/corrct/operators.py:818-838): `np.diff` of each component padded by one element
at the start of its axis, summed. -/
def divergence (mode : PadMode) {m : ℕ} (axes : Fin m → κ) (y : Arr (Fin m × Idx n)) : Arr (Idx n) := fun p =>
  ∑ i, (y (i, p) - padGet mode (fun q => y (i, q)) p (fun k => -unitAx (axes i) k))

/-- `TransformGradient._op_adjoint` (src/corrct/operators.py:843-844). -/
def gradientAdjoint (mode : PadMode) {m : ℕ} (axes : Fin m → κ) (y : Arr (Fin m × Idx n)) : Arr (Idx n) :=
  fun p => -divergence mode axes y p

/-- `TransformLaplacian.laplacian` (src/corrct/operators.py:949-968), which is also its adjoint (:970-974). -/
def laplacian (mode : PadMode) {m : ℕ} (axes : Fin m → κ) (x : Arr (Idx n)) : Arr (Idx n) := fun p =>
  ∑ i, (padGet mode x p (unitAx (axes i)) - 2 * x p + padGet mode x p (fun k => -unitAx (axes i) k))

/-- Configuration of `TransformConvolution` (src/corrct/operators.py:448-460); the kernel has shape `w`. -/
structure Convolution {κ : Type} (w : κ → ℕ) where
  kernel : Arr (Idx w)
  padMode : PadMode := .edge
  isSymm : Bool := true
  flipAdjoint : Bool := false

/-- Pad by `(w - 1) // 2` on each side, `scipy.signal.convolve(…, mode="same")`, crop
(src/corrct/operators.py:473-484): element `p` is `∑_j kernel[j] x_pad[p + (w-1)//2 - j]`, positions outside the padded
array counting as 0. -/
def convolveSame {w : κ → ℕ} (mode : PadMode) (ker : Arr (Idx w)) (x : Arr (Idx n)) : Arr (Idx n) := fun p =>
  ∑ j : Idx w,
    let s : κ → ℤ := fun k => ((w k - 1) / 2 : ℕ) - (j k : ℤ)
    if ∀ k, -(((w k - 1) / 2 : ℕ) : ℤ) ≤ (p k : ℤ) + s k ∧ (p k : ℤ) + s k < n k + ((w k - 1) / 2 : ℕ)
    then ker j * padGet mode x p s else 0

/-- `np.flip(kernel)` (src/corrct/operators.py:490). -/
def flipKernel {w : κ → ℕ} (ker : Arr (Idx w)) : Arr (Idx w) := fun j => ker fun k => (j k).rev

/-- `TransformConvolution._op_direct` (src/corrct/operators.py:481-484). -/
def Convolution.direct {w : κ → ℕ} (c : Convolution w) (x : Arr (Idx n)) : Arr (Idx n) :=
  convolveSame c.padMode c.kernel x

/-- `TransformConvolution._op_adjoint` (src/corrct/operators.py:486-496). -/
def Convolution.adjoint {w : κ → ℕ} (c : Convolution w) (y : Arr (Idx n)) : Arr (Idx n) :=
  if c.isSymm then convolveSame c.padMode (if c.flipAdjoint then flipKernel c.kernel else c.kernel) y else y

/-- `TransformConvolution.absolute` (src/corrct/operators.py:462-471): a new operator with the absolute kernel and
default options. -/
def Convolution.absolute {w : κ → ℕ} (c : Convolution w) : Convolution w where
  kernel := fun j => |c.kernel j|

/-- A `BaseTransform` object (src/corrct/operators.py:34-65): the two maps of its class and the flag
`is_dir_operator`. -/
structure Xform (V W : Type) where
  direct : V → W
  adjoint : W → V
  isDir : Bool := true

/-- A value of the direct or of the adjoint space. -/
inductive Val (V W : Type) where
  | dir (x : V)
  | adj (y : W)
  deriving DecidableEq

/-- `BaseTransform.__call__` (src/corrct/operators.py:159-175): `none` if the argument has the wrong shape. -/
def Xform.call {V W : Type} (o : Xform V W) : Val V W → Option (Val V W)
  | .dir x => if o.isDir then some (.adj (o.direct x)) else none
  | .adj y => if o.isDir then none else some (.dir (o.adjoint y))

/-- `BaseTransform.rmatvec` (src/corrct/operators.py:87-105); `none` if the argument has the wrong size. -/
def Xform.rmatvec {V W : Type} (o : Xform V W) : Val V W → Option (Val V W)
  | .dir x => if o.isDir then none else some (.adj (o.direct x))
  | .adj y => if o.isDir then some (.dir (o.adjoint y)) else none

/-- `BaseTransform._transpose` (src/corrct/operators.py:107-118): a copy with the flag set to `False`. -/
def Xform.T {V W : Type} (o : Xform V W) : Xform V W := { o with isDir := false }

/-- `ProjectorMatrix` (src/corrct/projectors.py:24-100): a matrix with its row and column index types. -/
structure MatProj (V W : Type) where
  entry : W → V → ℝ

/-- `ProjectorMatrix._transpose` (src/corrct/projectors.py:48-57). -/
def MatProj.T {V W : Type} (A : MatProj V W) : MatProj W V := ⟨fun j i => A.entry i j⟩

/-- `ProjectorMatrix.absolute` (src/corrct/projectors.py:59-68). -/
noncomputable def MatProj.absolute {V W : Type} (A : MatProj V W) : MatProj V W := ⟨fun i j => |A.entry i j|⟩

/-- `ProjectorMatrix.fp` (src/corrct/projectors.py:70-84). -/
noncomputable def MatProj.fp {V W : Type} [Fintype V] (A : MatProj V W) (x : Arr V) : Arr W :=
  fun i => ∑ j, A.entry i j * x j

/-- `ProjectorMatrix.bp` (src/corrct/projectors.py:86-100). -/
noncomputable def MatProj.bp {V W : Type} [Fintype W] (A : MatProj V W) (y : Arr W) : Arr V :=
  fun j => ∑ i, A.entry i j * y i

/-- `TransformDiagonalScaling._op_direct` and `_op_adjoint` (src/corrct/operators.py:417-421). -/
def diagonalOp {α : Type} (scale : Arr α) (x : Arr α) : Arr α := fun i => scale i * x i

/-- `BaseTransform.explicit` (src/corrct/operators.py:140-157): column `j` is the operator applied to the `j`-th unit
vector. -/
def explicitMatrix {V W : Type} [DecidableEq V] (f : Arr V → Arr W) : W → V → ℝ := fun i j =>
  f (fun k => if k = j then 1 else 0) i

/-- The kernel of `np.fft.fftn(x, axes, norm="ortho")` as used in src/corrct/operators.py:886: output frequency `k`, input
position `p`; axes outside `axes` are left alone. -/
noncomputable def fftKernel (axes : Finset κ) (k p : Idx n) : ℂ :=
  ∏ a, if a ∈ axes then Complex.exp (-(2 * Real.pi * Complex.I * (k a : ℕ) * (p a : ℕ) / (n a : ℕ))) / Real.sqrt (n a)
    else if k a = p a then 1 else 0

/-- `TransformFourier.fft` (src/corrct/operators.py:872-890): real and imaginary parts, stacked along a new first axis. -/
noncomputable def fourier (axes : Finset κ) (x : Arr (Idx n)) : Arr (Fin 2 × Idx n) := fun q =>
  if q.1 = 0 then (∑ p, fftKernel axes q.2 p * x p).re else (∑ p, fftKernel axes q.2 p * x p).im

/-- `TransformFourier.ifft` (src/corrct/operators.py:892-911): the real part of `np.fft.ifftn(y[0] + 1j * y[1], norm="ortho")`,
whose kernel is the complex conjugate. -/
noncomputable def fourierAdjoint (axes : Finset κ) (y : Arr (Fin 2 × Idx n)) : Arr (Idx n) := fun p =>
  (∑ k, (starRingEnd ℂ) (fftKernel axes k p) * ((y (0, k) : ℂ) + Complex.I * (y (1, k) : ℂ))).re

end Verif
