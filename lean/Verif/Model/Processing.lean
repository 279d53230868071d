import Mathlib.Analysis.SpecialFunctions.Log.Basic
import Mathlib.Tactic
import Verif.Model.Basic

/-!
# Model of `src/corrct/processing/pre.py` and `src/corrct/processing/noise.py`

Images are functions of natural number positions, together with their sizes.
-/

namespace Verif

/-! ## Binning -/

/-- First pixel kept by the automatic crop of an axis of `n` pixels for a binning factor `b`: `excess_pixels - excess_pixels // 2`,
and no crop if there is no excess (src/corrct/processing/pre.py:201-209). -/
def cropLo (n b : ℕ) : ℕ := if 0 < n % b then n % b - n % b / 2 else 0

/-- End (excluded) of the pixels kept by the automatic crop: `imgs_shape - excess_pixels // 2` (src/corrct/processing/pre.py:201-209). -/
def cropHi (n b : ℕ) : ℕ := if 0 < n % b then n - n % b / 2 else n

/-- `block_reduce(imgs, (..., b, b), np.mean)` at one bin of an image of `nv` by `nu` pixels: skimage first pads the image with zeros
up to a multiple of the block size, then it averages (src/corrct/processing/pre.py:216-221). -/
noncomputable def blockMean (nv nu b : ℕ) (img : ℕ → ℕ → ℝ) (i j : ℕ) : ℝ :=
  (∑ di ∈ Finset.range b, ∑ dj ∈ Finset.range b,
    if b * i + di < nv ∧ b * j + dj < nu then img (b * i + di) (b * j + dj) else 0) / (b * b)

/-- An image with its shape. -/
structure Image2 where
  nv : ℕ
  nu : ℕ
  val : ℕ → ℕ → ℝ

/-- `bin_imgs` with an integer factor on the last two axes (src/corrct/processing/pre.py:180-231). Leading axes of a stack only carry a
parameter. The branch of non-integer factors (`skimage.transform.rescale`) is not modelled. -/
noncomputable def binImgs (x : Image2) (b : ℕ) (autoCrop : Bool) : Image2 :=
  let y : Image2 :=
    if autoCrop then
      { nv := cropHi x.nv b - cropLo x.nv b, nu := cropHi x.nu b - cropLo x.nu b,
        val := fun i j => x.val (cropLo x.nv b + i) (cropLo x.nu b + j) }
    else x
  { nv := (y.nv + b - 1) / b, nu := (y.nu + b - 1) / b, val := blockMean y.nv y.nu b y.val }

/-! ## Background from the margins -/

/-- The positions selected by the slice `-m:` of an axis of `n` pixels: the slice starts at 0 if `m = 0`. -/
def pyTailStart (n m : ℕ) : ℕ := if m = 0 then 0 else n - m

/-- Outcome of `background_from_margin`. -/
inductive MarginResult where
  | valueError
  | background (row : ℝ)

/-- `background_from_margin` of one row of `n` pixels with `poly_order = 0` and the margins `(m0, m1)`: a constant row
(src/corrct/processing/pre.py:260-304). For a stack, the rows at the same angle are then averaged over the first axis. -/
noncomputable def backgroundFromMargin (n : ℕ) (row : ℕ → ℝ) (m0 m1 : ℕ) : MarginResult :=
  if n < m0 + m1 then .valueError
  else .background ((∑ u ∈ Finset.range m0, row u + ∑ u ∈ Finset.Ico (pyTailStart n m1) n, row u) / (m0 + m1 : ℕ))

/-! ## SNIP -/

/-- Entry of the kernel at the offset `k` of the last axes: zero strictly inside the window along all axes, one on its border, before
the normalisation (src/corrct/processing/pre.py:341-345). -/
noncomputable def snipKernel {d : ℕ} (window : ℕ) (k : Fin d → Fin window) : ℝ :=
  if ∀ a, 1 ≤ (k a : ℕ) ∧ (k a : ℕ) < window - 1 then 0 else 1

/-- Position in an axis of `n` pixels, clamped to the borders: `mode="nearest"` of `scipy.ndimage.convolve`. -/
def clampPos (n : ℕ) (i : ℤ) : ℤ := max 0 (min i (n - 1))

/-- `convolve(img, kern, mode="nearest")` for the kernel of `snip`, at position `i` of the last `d` axes, of sizes `shape`. The centre
of the kernel is `window // 2` (SciPy moves the origin of kernels of even size); leading axes only carry a parameter. -/
noncomputable def snipConvolve {d : ℕ} (window : ℕ) (shape : Fin d → ℕ) (img : (Fin d → ℤ) → ℝ) (i : Fin d → ℤ) : ℝ :=
  (∑ k : Fin d → Fin window, snipKernel window k * img (fun a => clampPos (shape a) (i a + (window / 2 : ℕ) - (k a : ℕ)))) /
    ∑ k : Fin d → Fin window, snipKernel window k

/-- `snip` (src/corrct/processing/pre.py:307-351), on the `d = kernel_dims` last axes. -/
noncomputable def snip {d : ℕ} (window : ℕ) (shape : Fin d → ℕ) (iterations : ℕ) (img : (Fin d → ℤ) → ℝ) : (Fin d → ℤ) → ℝ :=
  match iterations with
  | 0 => img
  | n + 1 => fun i => min (snipConvolve window shape (snip window shape n img) i) (snip window shape n img i)

/-! ## Flat field -/

/-- Outcome of `apply_flat_field` at one pixel (src/corrct/processing/pre.py:55-108): the projection minus the dark image, over the mean of
the flat images minus the dark image, capped. `flats` has at least one image; the dark image is a single image. -/
noncomputable def applyFlatField {K : ℕ} (proj : ℝ) (flats : Fin K → ℝ) (dark : Option ℝ) (cap : Option ℝ) : ℝ :=
  let p := proj - dark.getD 0
  let f := (∑ k, (flats k - dark.getD 0)) / K
  let r := p / f
  cap.elim r (fun c => min r c)

/-- `apply_minus_log` (src/corrct/processing/pre.py:111-124); no lower limit is minus infinity. -/
noncomputable def applyMinusLog (lower : Option ℝ) (p : ℝ) : ℝ :=
  lower.elim (-Real.log p) (fun l => max (-Real.log p) l)

/-! ## Noise -/

/-- `compute_variance_poisson` at one pixel, against a reference (src/corrct/processing/noise.py:14-53): `meanI0` is the mean of the
reference over all pixels, after its clipping. -/
noncomputable def variancePoisson (Is I0 : ℝ) (varI0 : Option ℝ) (meanI0 : Option ℝ) : ℝ :=
  let varIs := |Is|
  let v0 := varI0.getD |I0|
  let i := max Is eps
  let o := max I0 eps
  let v := (i ^ 2 / o ^ 2) * (varIs / i ^ 2 + v0 / o ^ 2)
  meanI0.elim v (fun m => v * m)

/-- `compute_variance_transmission` at one pixel (src/corrct/processing/noise.py:56-91). -/
noncomputable def varianceTransmission (Is I0 : ℝ) (varI0 : Option ℝ) (meanI0 : Option ℝ) : ℝ :=
  let varIs := |Is|
  let v0 := varI0.getD |I0|
  let i := max Is eps
  let o := max I0 eps
  let v := (i / o) * (varIs / i ^ 2 + v0 / o ^ 2)
  meanI0.elim v (fun m => v * m)

/-- The options of `compute_variance_weight`. -/
structure WeightOpts where
  percentile : ℝ
  normalized : Bool
  useStd : Bool
  semilog : Bool

/-- `min_val` (src/corrct/processing/noise.py:133-136), from the absolute variances of the valid pixels: sorted in increasing order, the
first whose cumulated share of the total is not below the percentile. `none` is an `IndexError`. -/
noncomputable def weightMinVal (vals : List ℝ) (percentile : ℝ) : Option ℝ :=
  let s := vals.mergeSort (fun a b => decide (a ≤ b))
  let cum : ℕ → ℝ := fun k => (s.take (k + 1)).sum / s.sum
  let ind := min ((List.range s.length).filter (fun k => decide (cum k < percentile))).length s.length
  (s[ind]?).map (fun v => max v eps)

/-- `min_nonzero_variance` (src/corrct/processing/noise.py:138): `none` is the error of the minimum of an empty array. -/
noncomputable def weightFloor (vals : List ℝ) (percentile : ℝ) : Option ℝ :=
  (weightMinVal vals percentile).bind fun m => ((vals.filter (fun v => decide (0 < v))).min?).map fun p => max p m

/-- `inv_weight` (src/corrct/processing/noise.py:139-146). -/
noncomputable def invWeight (o : WeightOpts) (floor v : ℝ) : ℝ :=
  let w := max v floor
  let w := if o.normalized then w / floor else w
  let w := if o.useStd then Real.sqrt w else w
  if o.semilog then Real.log (w + (if o.normalized then 0 else 1)) + 1 else w

/-- `compute_variance_weight` (src/corrct/processing/noise.py:94-153): the weights of the pixels, given as a list, with the mask of the
valid ones. -/
noncomputable def varianceWeight (o : WeightOpts) (variance : List ℝ) (mask : Option (List Bool)) : Option (List ℝ) :=
  let a := variance.map (fun v => |v|)
  let vals := mask.elim a (fun m => ((a.zip m).filter (fun q => q.2)).map Prod.fst)
  (weightFloor vals o.percentile).map fun f =>
    let w := a.map (fun v => 1 / invWeight o f v)
    mask.elim w (fun m => (w.zip m).map (fun q => q.1 * (if q.2 then 1 else 0)))

end Verif
