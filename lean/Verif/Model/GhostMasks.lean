import Verif.Model.StructIllum
import Verif.Model.Spectra

/-!
# Model of `src/corrct/struct_illum.py`: resolution of masks, mask collections, generators, shapes of the projectors
-/

namespace Verif
open Finset

/-! ## Resolution of the masks -/

/-- The second result of `norm_cross_corr(img)` for one image (src/corrct/processing/misc.py:429-436): the profile of the auto-correlation;
`none`: all its values are NaN, since the norm of the image is zero. -/
noncomputable def corrProfile (m n : ℕ) (img : ℕ → ℕ → ℝ) : Option (List ℝ) :=
  let cc : Pixel ![2 * m - 1, 2 * n - 1] → Option ℝ := fun p => normCrossCorr 1 m n (fun _ => img) (fun _ => img) true 0 (p 0) (p 1)
  if stackNorm 1 m n (fun _ => img) = 0 then none
  else some ((List.range (min m n)).map fun k =>
    azimuthal true (fun p => (cc p).getD 0) k / azimuthal true (fun _ : Pixel ![2 * m - 1, 2 * n - 1] => 1) k)

/-- The entry of `resolutions` for one mask (src/corrct/struct_illum.py:112-118): without intersection it is 0, also if the profile is
NaN (no comparison with NaN is true, so there are no crossings). -/
noncomputable def maskResolution (m n : ℕ) (mask : ℕ → ℕ → ℝ) : ℝ :=
  let mean := (∑ a ∈ range m, ∑ b ∈ range n, mask a b) / (m * n : ℕ)
  match corrProfile m n fun a b => mask a b - mean with
  | none => 0
  | some l =>
    match linesIntersection l [1 / 2] .first none with
    | .point x _ => x
    | _ => 0

/-- `estimate_resolution` of `struct_illum` (src/corrct/struct_illum.py:94-135): mean and minimum; `none` is the `ValueError` of the minimum
of an empty array. -/
noncomputable def masksResolution (m n : ℕ) (masks : List (ℕ → ℕ → ℝ)) : Option (ℝ × ℝ) :=
  let res := masks.map (maskResolution m n)
  match res with
  | [] => none
  | r :: rs => some (res.sum / res.length, rs.foldl min r)

/-! ## Mask collections -/

/-- `MaskCollection.__init__` on the shapes (src/corrct/struct_illum.py:180-191): whether the arrays are accepted. For `dims ≥ 1`. -/
def collectionAccepts (dims : ℕ) (enc : List ℕ) (dec : Option (List ℕ)) : Prop :=
  dims + 1 ≤ enc.length ∧
  match dec with
  | none => True
  | some dec => dims + 1 ≤ dec.length ∧ enc.take (enc.length - dims) = dec.take (dec.length - dims) ∧
      enc.drop (enc.length - dims) = dec.drop (dec.length - dims)

/-- `shape_fov` (src/corrct/struct_illum.py:198-207). -/
def shapeFov (dims : ℕ) (enc : List ℕ) : List ℕ := enc.drop (enc.length - dims)

/-- `shape_shifts` (src/corrct/struct_illum.py:209-218). -/
def shapeShifts (dims : ℕ) (enc : List ℕ) : List ℕ := enc.take (enc.length - dims)

/-- `num_buckets` (src/corrct/struct_illum.py:220-229). -/
def numBuckets (dims : ℕ) (enc : List ℕ) : ℕ := (shapeShifts dims enc).prod

/-- `num_pixels` (src/corrct/struct_illum.py:231-240). -/
def numPixels (dims : ℕ) (enc : List ℕ) : ℕ := (shapeFov dims enc).prod

/-- `mask_support` after the constructor (src/corrct/struct_illum.py:192-196). -/
def maskSupport (dims : ℕ) (enc : List ℕ) (given : Option (List ℕ)) : List ℕ := given.getD (shapeFov dims enc)

/-- A collection as far as shapes are concerned. -/
structure CollShape where
  dims : ℕ
  enc : List ℕ
  support : List ℕ

/-- `MaskCollection.bin_masks` for an integer binning, on the shapes (src/corrct/struct_illum.py:331-349): a deep copy whose masks are binned
along the last two axes (src/corrct/processing/pre.py, cropped to a multiple). Nothing else is changed. -/
def CollShape.bin (c : CollShape) (b : ℕ) : CollShape :=
  { c with enc := c.enc.take (c.enc.length - 2) ++ (c.enc.drop (c.enc.length - 2)).map (· / b) }

/-- `decompose_qr_masks` on the shapes (src/corrct/struct_illum.py:79-91), for `k` masks with `p` pixels: `np.linalg.qr` of the `p × k` matrix
gives `Q : p × min` and `R : min × k`; `np.linalg.inv` takes square matrices only (`none` is the `LinAlgError`). The shapes of `Q.T` and of
the matrix for the buckets. -/
def qrShapes (k p : ℕ) : Option ((ℕ × ℕ) × (ℕ × ℕ)) :=
  let r := min p k
  if k = r then some ((r, p), (k, r)) else none

/-! ## Pencil beams -/

/-- `MaskGeneratorPoint.generate_shifted_mask` (src/corrct/struct_illum.py:651-668): one pixel, then the transmission. The transmittance is
that of the base class, 1 by default (:384-420); it can be changed as attribute. -/
def pointMask (t : ℝ) (s x : ℕ × ℕ) : ℝ := applyTransmission t (if x = s then 1 else 0)

/-! ## Random masks -/

/-- `MaskGeneratorBernoulli.generate_shifted_mask` (src/corrct/struct_illum.py:696-712): `coin` are the drawn zeros and ones. -/
def bernoulliMask (t : ℝ) (coin : ℕ × ℕ → Bool) (x : ℕ × ℕ) : ℝ := applyTransmission t (if coin x then 1 else 0)

/-- `MaskGeneratorHalfGaussian.generate_shifted_mask` (src/corrct/struct_illum.py:740-756): `z` are the drawn standard normal numbers. -/
noncomputable def halfGaussianMask (t : ℝ) (z : ℕ × ℕ → ℝ) (x : ℕ × ℕ) : ℝ := applyTransmission t |z x|

/-- `shape_shifts` of the random masks (src/corrct/struct_illum.py:689-694, 733-738). -/
noncomputable def randomMaskShifts (points : List ℕ) (ratio : ℝ) : List ℕ := points.map fun k => ⌈(k : ℝ) * ratio⌉₊

/-! ## Shapes of the projectors as linear operators -/

/-- The shapes that a projector declares: `dir_shape` and `adj_shape`. -/
structure OpShape where
  dir : List ℕ
  adj : List ℕ

/-- `ProjectorGhostImaging.__init__` (src/corrct/struct_illum.py:862-872): the last *two* axes of the masks, and the number of buckets. -/
def ghostOpShape (dims : ℕ) (enc : List ℕ) : OpShape := ⟨enc.drop (enc.length - 2), [numBuckets dims enc]⟩

/-- `ProjectorGhostTomography.__init__` (src/corrct/struct_illum.py:1037-1048): those of the base class; the tomographic projector has no
influence. -/
def ghostTomoOpShape (dims : ℕ) (enc : List ℕ) (_tomo : OpShape) : OpShape := ghostOpShape dims enc

/-- `BaseTransform._matvec` of the direct operator (src/corrct/operators.py:67-85) for a vector of the length `len`: the vector takes the
shape `dir_shape` (`none` is the `ValueError` of `reshape`), which is what the forward projection is called with. -/
def matvecInput (s : OpShape) (len : ℕ) : Option (List ℕ) := if len = s.dir.prod then some s.dir else none

/-! ## Absolute values -/

/-- The projector of `ProjectorGhostImaging.absolute` (src/corrct/struct_illum.py:1017-1029): a deep copy with the absolute values of both
kinds of masks. -/
def ghostAbsolute {M X : Type} (p : (M → X → ℝ) × (M → X → ℝ)) : (M → X → ℝ) × (M → X → ℝ) :=
  (fun m x => |p.1 m x|, fun m x => |p.2 m x|)

/-! ## Direct reconstruction -/

/-- The shape of the image of `ProjectorGhostImaging.fbp` with least squares (src/corrct/struct_illum.py:1006-1010), for `m` masks with
field of view `fov` and buckets of the shape `s`: `scipy.linalg.lstsq` takes `m` values, or `m` rows of `k` values with a result for each
column; the result must fit the field of view. `none` is a `ValueError`. -/
def ghostLstsqShape (m : ℕ) (fov : List ℕ) (s : List ℕ) : Option (List ℕ) :=
  match s with
  | [a] => if a = m then some fov else none
  | [a, k] => if a = m ∧ fov.prod * k = fov.prod then some fov else none
  | _ => none

/-- `ProjectorGhostTomography.fbp` (src/corrct/struct_illum.py:1084-1104) on the values: `lstsq` reconstructs the image of the buckets of each
angle, `solver` is the filtered back-projection of the projections `V × W × U`. `inlined`: the Python version inlines comprehensions
(3.12 or later); before, `super()` in the comprehension is a `TypeError`. For at least two angles. -/
def ghostTomoFbp {V W U M R : Type} (inlined : Bool) (lstsq : (M → ℝ) → V → U → ℝ) (solver : (V → W → U → ℝ) → R) (b : W → M → ℝ) : Option R :=
  if inlined then some (solver fun v w u => lstsq (b w) v u) else none

end Verif
