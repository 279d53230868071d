import Mathlib.Analysis.SpecialFunctions.Log.Basic
import Verif.Model.CrossCorrelation
import Verif.Model.Processing
import Verif.Model.Nuclear

/-!
# Model of more of `src/corrct/processing/pre.py`

Padding of sinograms, shifts of stacks of projections, flat fields with several dark images, background of projections, eigen-flats and
the removal of stripes. Numbers are exact reals; images are of a floating point type (for data of an integer type, SciPy and NumPy
truncate the results, which is not modelled).
-/

namespace Verif

open Complex

/-! ## Padding -/

/-- `a[axis]` of an array with `d` entries: negative positions count from the end; `none` is an `IndexError`. -/
def pyAxis (d : ℕ) (axis : ℤ) : Option (Fin d) :=
  let k := if axis < 0 then axis + d else axis
  if h : 0 ≤ k ∧ k < d then some ⟨k.toNat, by omega⟩ else none

/-- The pair of widths before and after: `np.array(width, ndmin=1)`, that `np.pad` broadcasts to two values
(src/corrct/processing/pre.py:47-50); `none` is a `ValueError`. -/
def padPair : List ℕ → Option (ℕ × ℕ)
  | [w] => some (w, w)
  | [b, a] => some (b, a)
  | _ => none

/-- `pad_sinogram(sinogram, width, pad_axis)` with `mode="edge"` (src/corrct/processing/pre.py:23-52), for an array with `d` axes of
sizes `shape`, all positive: the new sizes and the new array. -/
def padSinogram {d : ℕ} (shape : Fin d → ℕ) (img : (Fin d → ℤ) → ℝ) (width : List ℕ) (axis : ℤ) :
    Option ((Fin d → ℕ) × ((Fin d → ℤ) → ℝ)) := do
  let a ← pyAxis d axis
  let w ← padPair width
  some (fun k => if k = a then w.1 + shape k + w.2 else shape k,
    fun i => img fun k => if k = a then clampPos (shape k) (i k - w.1) else i k)

/-! ## Shifts -/

/-- The coordinate that `scipy.ndimage.shift` reads for the output position `i`, clamped to the image by `mode="nearest"`. -/
noncomputable def shiftCoord (n : ℕ) (s : ℝ) (i : ℤ) : ℝ := max 0 (min ((i : ℝ) - s) ((n : ℝ) - 1))

/-- `scipy.ndimage.shift(img, s, order=1, mode="nearest")` (src/corrct/processing/pre.py:175): linear interpolation between the `2 ^ d`
neighbours of the coordinate. -/
noncomputable def shiftLinear {d : ℕ} (shape : Fin d → ℕ) (s : Fin d → ℝ) (img : (Fin d → ℤ) → ℝ) (i : Fin d → ℤ) : ℝ :=
  ∑ c : Fin d → Bool,
    (∏ a, if c a then shiftCoord (shape a) (s a) (i a) - ⌊shiftCoord (shape a) (s a) (i a)⌋
      else 1 - (shiftCoord (shape a) (s a) (i a) - ⌊shiftCoord (shape a) (s a) (i a)⌋)) *
      img fun a => clampPos (shape a) (⌊shiftCoord (shape a) (s a) (i a)⌋ + if c a then 1 else 0)

/-- `shift_proj_stack(data, shifts)` with `use_fft = False` (src/corrct/processing/pre.py:150-177): `data w` is the projection at the
position `w` of the axis of the angles and `shifts w` is `shifts[..., w]`. -/
noncomputable def shiftProjStack {d : ℕ} (W : ℕ) (shape : Fin d → ℕ) (data : Fin W → (Fin d → ℤ) → ℝ) (shifts : Fin W → Fin d → ℝ) :
    Fin W → (Fin d → ℤ) → ℝ :=
  fun w => shiftLinear shape (shifts w) (data w)

/-- The factor of `scipy.ndimage.fourier_shift` along an axis of `n` pixels that was fully transformed: signed frequencies. -/
noncomputable def shiftFactor (n : ℕ) (s : ℝ) (k : ℕ) : ℂ := exp (-(2 * Real.pi * I * ((fftfreq n k : ℤ) : ℂ) * s / n))

/-- The factor of `scipy.ndimage.fourier_shift` along the axis of `n` pixels of a real transform (argument `n`). -/
noncomputable def shiftFactorR (n : ℕ) (s : ℝ) (l : ℕ) : ℂ := exp (-(2 * Real.pi * I * (l : ℂ) * s / n))

/-- One projection of `shift_proj_stack(data, shifts, use_fft=True)` (src/corrct/processing/pre.py:170-173), of `m` rows and `n` columns:
`irfftn` without a shape gives `2 * (n / 2)` columns; `none` is the `ValueError` of the assignment if they are not `n` (or of `irfftn`, if
they are 0). A projection of a two-dimensional data set is an image with `m = 1` row. -/
noncomputable def shiftFft {m n : ℕ} [NeZero m] [NeZero n] (img : ZMod m → ZMod n → ℝ) (sv su : ℝ) : Option (ℕ → ℕ → ℝ) :=
  if 2 * (n / 2) = n then
    some fun a b => irfftDefault n
      (fun l => (∑ k : ZMod m, fft2 img k (l : ZMod n) * (shiftFactor m sv k.val * shiftFactorR n su l) *
        ZMod.stdAddChar (k * (a : ZMod m))) / m) b
  else none

/-! ## Flat field with several dark images -/

/-- The length of an axis after broadcasting arrays whose axis has `a` and `b` entries; `none` is a `ValueError`. -/
def bcastLen (a b : ℕ) : Option ℕ := if a = b then some a else if a = 1 then some b else if b = 1 then some a else none

/-- `x[i]` of an axis of `n` entries that was broadcast. -/
def bcastGet {α : Type} (n : ℕ) (x : ℕ → α) (i : ℕ) : α := if n = 1 then x 0 else x i

/-- `apply_flat_field` at one pixel with stacks of `W` projections, `K` flat and `D` dark images, without crop and cap
(src/corrct/processing/pre.py:55-108): the number of images of the result and their values; `none` is a `ValueError`. -/
noncomputable def applyFlatFieldStack (W K D : ℕ) (projs flats darks : ℕ → ℝ) : Option (ℕ × (ℕ → ℝ)) := do
  let nW ← bcastLen W D
  let nK ← bcastLen K D
  let flat := (∑ k ∈ Finset.range nK, (bcastGet K flats k - bcastGet D darks k)) / nK
  some (nW, fun w => (bcastGet W projs w - bcastGet D darks w) / flat)

/-! ## Background of projections -/

/-- `background_from_snip(data, snip_iterations, smooth_std)` for two- or three-dimensional data, i.e. projections with `d = 1` or `2`
axes (src/corrct/processing/pre.py:354-387): `data w` is the projection at the position `w` of the axis of the angles, `smooth` is the
Gaussian filter of SciPy. (For data with four or more axes the algorithm runs on each slice of the first axis; not modelled.) -/
noncomputable def backgroundFromSnip {d : ℕ} (W : ℕ) (shape : Fin d → ℕ) (iterations : ℕ)
    (smooth : Option (((Fin d → ℤ) → ℝ) → (Fin d → ℤ) → ℝ)) (data : Fin W → (Fin d → ℤ) → ℝ) : Fin W → (Fin d → ℤ) → ℝ :=
  fun w => snip 3 shape iterations (smooth.elim (data w) fun g => g (data w))

/-- Position in an axis of `n` pixels, for `mode="reflect"` of SciPy: `d c b a | a b c d | d c b a`. -/
def reflectPos (n : ℕ) (i : ℤ) : ℤ :=
  let k := i % (2 * n)
  if k < n then k else 2 * n - 1 - k

/-- `scipy.ndimage.gaussian_filter(row, sigma)` of a row of `n` pixels, for `sigma > 0`: the Gaussian weights are truncated at
`int(4 * sigma + 0.5)` pixels and normalised (src/corrct/processing/pre.py:377). -/
noncomputable def gaussianRow (n : ℕ) (sigma : ℝ) (row : ℤ → ℝ) (i : ℤ) : ℝ :=
  let r : ℤ := ⌊4 * sigma + 1 / 2⌋
  let w : ℤ → ℝ := fun k => Real.exp (-(k : ℝ) ^ 2 / (2 * sigma ^ 2))
  (∑ k ∈ Finset.Icc (-r) r, w k * row (reflectPos n (i + k))) / ∑ k ∈ Finset.Icc (-r) r, w k

/-! ## Eigen-flats -/

/-- The stack of images before the logarithm (src/corrct/processing/pre.py:480-494): the transmissions followed by the flat images; with
`D ≥ 1` dark images their mean is subtracted and the values are clipped from below. `r` pixels, `K` transmissions, `F` flat images (none
is `F = 0`), two-dimensional images (`ndim = 2`). -/
noncomputable def eigenStack {r K F D : ℕ} (trans : Fin K → Fin r → ℝ) (flats : Fin F → Fin r → ℝ)
    (darks : Option (Fin D → Fin r → ℝ)) (i : Fin r) (j : Fin (K + F)) : ℝ :=
  let x := Fin.addCases (fun k => trans k i) (fun k => flats k i) j
  darks.elim x fun dk => max (x - (∑ l, dk l i) / D) eps

/-- `compute_eigen_flats` (src/corrct/processing/pre.py:453-522), with `np.linalg.svd` of the logarithms as a parameter, of `q + 1`
singular values: the pair `(eigen_projs, eigen_flats)` at the transmission `k` and the pixel `i`. -/
noncomputable def eigenFlats {r K F D q : ℕ} (svd : (Fin r → Fin (K + F) → ℝ) → Svd r (K + F) (q + 1)) (trans : Fin K → Fin r → ℝ)
    (flats : Fin F → Fin r → ℝ) (darks : Option (Fin D → Fin r → ℝ)) : (Fin K → Fin r → ℝ) × (Fin K → Fin r → ℝ) :=
  let S := svd fun i j => Real.log (eigenStack trans flats darks i j)
  (fun k i => Real.exp (∑ a : Fin q, S.U i a.succ * S.s a.succ * S.Vt a.succ (Fin.castAdd F k)),
   fun k i => Real.exp (S.U i 0 * S.s 0 * S.Vt 0 (Fin.castAdd F k)))

end Verif
