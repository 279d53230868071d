import Mathlib.Analysis.SpecialFunctions.Trigonometric.Basic
import Mathlib.Tactic
import Verif.Model.CrossCorrelation

/-!
# Model of `src/corrct/processing/misc.py` and `src/corrct/processing/post.py`

A pixel of an image with `d` axes of sizes `dims` is a `∀ a, Fin (dims a)`.
-/

namespace Verif

/-- The pixels of an image of shape `dims`. -/
abbrev Pixel {d : ℕ} (dims : Fin d → ℕ) := ∀ a : Fin d, Fin (dims a)

/-! ## Azimuthal integration -/

/-- Coordinate of the position `i` along an axis of `n` pixels: from the centre for the domain `"direct"`, the signed frequency for
`"fourier"` (src/corrct/processing/misc.py:217-221). -/
noncomputable def azCoord (fourier : Bool) (n i : ℕ) : ℝ := if fourier then fftfreq n i else i - ((n : ℝ) - 1) / 2

/-- Distance of a pixel from the centre (src/corrct/processing/misc.py:222-223). -/
noncomputable def azRadius {d : ℕ} {dims : Fin d → ℕ} (fourier : Bool) (p : Pixel dims) : ℝ :=
  Real.sqrt (∑ a, azCoord fourier (dims a) (p a) ^ 2)

/-- `azimuthal_integration` of one image over all its axes (src/corrct/processing/misc.py:181-252): the bin `k` of
`np.bincount(r_all, weights=w_all)`. Leading axes of a stack only carry a parameter. -/
noncomputable def azimuthal {d : ℕ} {dims : Fin d → ℕ} (fourier : Bool) (img : Pixel dims → ℝ) (k : ℕ) : ℝ :=
  (∑ p, if ⌊azRadius fourier p⌋₊ = k then ((⌊azRadius fourier p⌋₊ + 1 : ℝ) - azRadius fourier p) * img p else 0) +
  ∑ p, if ⌊azRadius fourier p⌋₊ + 1 = k then (azRadius fourier p - ⌊azRadius fourier p⌋₊) * img p else 0

/-- The number of bins: `np.bincount` has one more than the largest index. -/
noncomputable def azLength {d : ℕ} (dims : Fin d → ℕ) (fourier : Bool) : ℕ :=
  (Finset.univ.sup fun p : Pixel dims => ⌊azRadius fourier p⌋₊ + 1) + 1

/-! ## Intersections of lines -/

/-- The argument `position` of `lines_intersection`. -/
inductive CrossPos where
  | first | last | other
  deriving DecidableEq

/-- Outcome of `lines_intersection`. -/
inductive CrossResult where
  | valueError
  | notFound
  | point (x y : ℝ)

/-- Value of a line of one or more values at the position `i`: a single value is a horizontal line. -/
noncomputable def lineAt (l : List ℝ) (i : ℕ) : ℝ := if l.length = 1 then l.getD 0 0 else l.getD i 0

/-- Whether the second line is above the first at `i`: `line_2 > line_1`. -/
def isAbove (l1 l2 : List ℝ) (i : ℕ) : Prop := lineAt l1 i < lineAt l2 i

open Classical in
/-- The positions of the crossings within the limits (src/corrct/processing/misc.py:286-310): `np.diff` of the indicator of
`line_2 > line_1`, sliced by `x_lims`. -/
noncomputable def crossings (l1 l2 : List ℝ) (lo hi : ℕ) : List ℕ :=
  (List.range (l1.length - 1)).filter fun i => decide (lo ≤ i ∧ i < hi ∧ ¬ (isAbove l1 l2 i ↔ isAbove l1 l2 (i + 1)))

/-- The intersection of the segments between the positions `k` and `k + 1` (src/corrct/processing/misc.py:319-342). -/
noncomputable def crossPoint (l1 l2 : List ℝ) (k : ℕ) : ℝ × ℝ :=
  let x1 : ℝ := 0
  let x2 : ℝ := 1
  let y1 := lineAt l1 k
  let y2 := lineAt l1 (k + 1)
  let x3 : ℝ := 0
  let x4 : ℝ := 1
  let y3 := lineAt l2 k
  let y4 := lineAt l2 (k + 1)
  let den := (x1 - x2) * (y3 - y4) - (y1 - y2) * (x3 - x4)
  let xnum := (x1 * y2 - y1 * x2) * (x3 - x4) - (x1 - x2) * (x3 * y4 - y3 * x4)
  let ynum := (x1 * y2 - y1 * x2) * (y3 - y4) - (y1 - y2) * (x3 * y4 - y3 * x4)
  (xnum / den + k, ynum / den)

/-- `lines_intersection` (src/corrct/processing/misc.py:255-342). The second line has the length of the first, or one value; other
lengths raise. The limits are natural numbers or `None` (negative ones, and fractional ones, which raise a `TypeError`, are not
modelled). -/
noncomputable def linesIntersection (l1 l2 : List ℝ) (pos : CrossPos) (lims : Option (Option ℕ × Option ℕ)) : CrossResult :=
  if l2.length ≠ 1 ∧ l2.length ≠ l1.length then .valueError
  else if lims = some (none, none) then .valueError
  else
    let lo := (lims.bind Prod.fst).getD 0
    let hi := (lims.bind Prod.snd).getD (l1.length - 1)
    let c := crossings l1 l2 lo hi
    if c = [] then .notFound
    else match pos with
      | .first => let q := crossPoint l1 l2 (c.headD 0); .point q.1 q.2
      | .last => let q := crossPoint l1 l2 (c.getLastD 0); .point q.1 q.2
      | .other => .valueError

/-! ## Fourier ring correlation -/

/-- `np.fft.fftn` of a real image over all its axes. -/
noncomputable def fftn {d : ℕ} {dims : Fin d → ℕ} (img : Pixel dims → ℝ) (k : Pixel dims) : ℂ :=
  ∑ p : Pixel dims, (img p : ℂ) * Complex.exp (-(2 * Real.pi * Complex.I * ∑ a, ((k a : ℕ) * (p a : ℕ) / (dims a : ℕ) : ℂ)))

/-- The correlation of one pair of images on the ring `k`, before averaging over a stack and smoothing: `taper` is the mask applied to
both (src/corrct/processing/post.py:208-231). -/
noncomputable def frcRing {d : ℕ} {dims : Fin d → ℕ} (taper img1 img2 : Pixel dims → ℝ) (k : ℕ) : ℝ :=
  let f1 := fftn (fun p => img1 p * taper p)
  let f2 := fftn (fun p => img2 p * taper p)
  let fc := fun p => f1 p * starRingEnd ℂ (f2 p)
  let re := azimuthal true (fun p => (fc p).re) k
  let im := azimuthal true (fun p => (fc p).im) k
  let e := azimuthal true (fun p => ‖f1 p‖ ^ 2) k * azimuthal true (fun p => ‖f2 p‖ ^ 2) k
  Real.sqrt (re ^ 2 + im ^ 2) / Real.sqrt (e + if e = 0 then 1 else 0)

/-- `hann(s)` of SciPy: the symmetric window, for `s ≥ 2`. -/
noncomputable def hannWindow (s i : ℕ) : ℝ := 1 / 2 - 1 / 2 * Real.cos (2 * Real.pi * i / (s - 1 : ℕ))

/-- Smoothing of a profile of `n` values by the normalised Hann window of size `s`, `mode="nearest"`
(src/corrct/processing/post.py:248-252). `none`: the sum of the window is zero, and the profile becomes NaN. -/
noncomputable def hannSmooth (s n : ℕ) (f : ℕ → ℝ) : Option (ℕ → ℝ) :=
  let tot := ∑ i ∈ Finset.range s, hannWindow s i
  if tot = 0 then none
  else some fun k => ∑ i ∈ Finset.range s, hannWindow s i / tot * f (max 0 (min ((k : ℤ) + (s / 2 : ℕ) - i) (n - 1))).toNat

/-- `compute_frc` of `K` pairs of images (src/corrct/processing/post.py:123-254) with `supersampling = 1`: the first output, of which
the first `min(dims) / 2` values are returned. -/
noncomputable def computeFrc {d K : ℕ} {dims : Fin d → ℕ} (taper : Pixel dims → ℝ) (img1 img2 : Fin K → Pixel dims → ℝ)
    (smooth : Option ℕ) : Option (ℕ → ℝ) :=
  let frc := fun k => (∑ s, frcRing taper (img1 s) (img2 s) k) / K
  match smooth with
  | none => some frc
  | some s => if 1 < s then hannSmooth s (azLength dims true) frc else some frc

/-! ## Bias and variance -/

/-- `compute_reconstruction_bias_variance_maps` at one pixel, from the values of the `R` realisations
(src/corrct/processing/post.py:366-423): `(mse, bias², variance)`. -/
noncomputable def biasVariance {R : ℕ} (reference : ℝ) (recs : Fin R → ℝ) : ℝ × ℝ × ℝ :=
  let mean := (∑ r, recs r) / R
  let bias := mean - reference
  let var := (∑ r, (recs r - mean) ^ 2) / ((R : ℝ) - 1)
  let mse := (∑ r, (recs r - reference) ^ 2) / R
  (mse, bias ^ 2, var)

/-! ## Scale and bias -/

/-- The objective of `fit_scale_bias` and its two partial derivatives, as the code computes them
(src/corrct/processing/post.py:447-460), for one-dimensional projected data: `prj` is the projector, `x` the image, `y` the projected
data. -/
noncomputable def scaleBiasObj {ι κ : Type} [Fintype κ] (prj : (ι → ℝ) → κ → ℝ) (x : ι → ℝ) (y : κ → ℝ) (a b : ℝ) : ℝ × ℝ × ℝ :=
  let px := prj x
  let p1 := prj (fun _ => 1)
  let res := fun k => prj (fun i => x i * a + b) k - y k
  let ga := -(∑ k, y k * px k) + (∑ k, px k ^ 2) * a + (∑ k, p1 k * px k) * b
  let gb := -(∑ k, y k * p1 k) + (∑ k, p1 k ^ 2) * b + (∑ k, p1 k * px k) * a
  ((∑ k, res k ^ 2) / 2, ga, gb)

/-- `np.linalg.norm(a, ord=2)` of a two-dimensional array: its largest singular value, i.e. the largest length of `a @ u` for a vector
`u` of length at most one. -/
noncomputable def specNorm {α β : Type} [Fintype α] [Fintype β] (M : α × β → ℝ) : ℝ :=
  sSup {r | ∃ u : β → ℝ, ∑ j, u j ^ 2 ≤ 1 ∧ r = Real.sqrt (∑ i, (∑ j, M (i, j) * u j) ^ 2)}

/-- The objective of `fit_scale_bias` and its two partial derivatives, as the code computes them, for two-dimensional projected data:
there is no `flatten` in `np.linalg.norm(residual, ord=2)` (src/corrct/processing/post.py:460). With three or more dimensions NumPy raises
`ValueError`. -/
noncomputable def scaleBiasObjImage {ι α β : Type} [Fintype α] [Fintype β] (prj : (ι → ℝ) → α × β → ℝ) (x : ι → ℝ) (y : α × β → ℝ) (a b : ℝ) :
    ℝ × ℝ × ℝ :=
  (specNorm (fun k => prj (fun i => x i * a + b) k - y k) ^ 2 / 2, (scaleBiasObj prj x y a b).2)

end Verif
