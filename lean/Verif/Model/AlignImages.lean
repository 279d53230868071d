import Mathlib.Analysis.SpecialFunctions.Log.Basic
import Mathlib.Analysis.SpecialFunctions.Trigonometric.Basic
import Verif.Model.AlignVolumes

/-!
# Model of the camera tilt, of the rotation and scale of images and of the tracking of markers

`src/corrct/alignment/fitting.py` (`fit_camera_tilt_angle`, `fit_image_rotation_and_scale`) and `src/corrct/alignment/markers.py` (`track_marker`,
`create_marker_disk`). The plots and the prints of `verbose` are not modelled.
-/

namespace Verif

/-! ## Camera tilt -/

/-- `np.linspace(-(H - 1) / 2, (H - 1) / 2, H)` (src/corrct/alignment/fitting.py:374-375). -/
noncomputable def rowCoord {H : ℕ} (v : Fin H) : ℝ := (v : ℕ) - ((H : ℝ) - 1) / 2

/-- `a * x + b` minimises the sum of the squares of the residuals, as `Polynomial.fit(x, y, deg=1)` does (src/corrct/alignment/fitting.py:376). -/
def IsLsqLine {H : ℕ} (x y : Fin H → ℝ) (b a : ℝ) : Prop := ∀ b' a' : ℝ, ∑ v, (x v * a + b - y v) ^ 2 ≤ ∑ v, (x v * a' + b' - y v) ^ 2

/-- `a * x + b` minimises the sum of the absolute residuals. This is what `scipy.optimize.minimize` of src/corrct/alignment/fitting.py:379-387 is
for: its convergence is not modelled. -/
def IsL1Line {H : ℕ} (x y : Fin H → ℝ) (b a : ℝ) : Prop := ∀ b' a' : ℝ, ∑ v, |x v * a + b - y v| ≤ ∑ v, |x v * a' + b' - y v|

/-- The row of an image that is correlated: with `pad_u` it is followed by as many zeros (src/corrct/alignment/fitting.py:130-133 and 180-183). -/
noncomputable def tiltShift {n : ℕ} [NeZero n] [NeZero (2 * n)] (pad : Bool) (r1 r2 : ℕ → ℝ) : Option ℝ :=
  if pad then fitShiftU true (padRow n r1) (padRow n r2) 2
  else fitShiftU true (fun j : ZMod n => r1 j.val) (fun j : ZMod n => r2 j.val) 2

/-- `fit_camera_tilt_angle` (src/corrct/alignment/fitting.py:347-406) for images of `H ≥ 2` rows of `n` pixels: `r` is what the call can give, `none`
being an exception (that of the refinement of the shifts, or that of the line below). `Polynomial.fit(…).convert().coef` leaves out the trailing
coefficients that are zero, so that for a slope of zero the unpacking `b, a = …` of line 377 raises `ValueError`. `np.rad2deg(x)` is
`x * 180 / π`. -/
def CameraTilt {H n : ℕ} [NeZero n] [NeZero (2 * n)] (pad fitL1 : Bool) (img1 img2 : Fin H → ℕ → ℝ) (r : Option (ℝ × ℝ)) : Prop :=
  if ∀ v, (tiltShift (n := n) pad (img1 v) (img2 v)).isSome then
    let cors : Fin H → ℝ := fun v => (tiltShift (n := n) pad (img1 v) (img2 v)).getD 0 / 2
    ∃ b a, IsLsqLine rowCoord cors b a ∧
      if a = 0 then r = none
      else ∃ b' a', (if fitL1 then IsL1Line rowCoord cors b' a' else b' = b ∧ a' = a) ∧ r = some (b', -a' / 2 * 180 / Real.pi)
  else r = none

/-! ## Markers -/

/-- `track_marker` for the image `img` of the stack (src/corrct/alignment/markers.py:36-55): the position `v, u`; `none` is the `ValueError` of the
refinement. The rounding to 32 bits of the marker is not modelled. -/
noncomputable def trackMarker {m n : ℕ} [NeZero m] [NeZero n] (img marker : ZMod m → ZMod n → ℝ) : Option (ℝ × ℝ) :=
  (fitShiftVU true img marker 2).map fun s => (s.1 + (m : ℝ) / 2, s.2 + (n : ℝ) / 2)

/-- The coordinate at the super-sampled position `i`, which is `np.fft.fftfreq(d, 1 / d)` rolled by `super_sampling // 2`
(src/corrct/alignment/markers.py:79-88). -/
def diskCoord (d ss i : ℕ) : ℤ := fftfreq d ((i + d - ss / 2) % d)

/-- The disk before the convolution (src/corrct/alignment/markers.py:79-95): the share of the sub-samples of the pixel that are within the radius. The
`fftshift` moves pixel `(i - m // 2) mod m` to `i`. -/
noncomputable def diskProbe (m n : ℕ) (radius : ℝ) (ss : ℕ) (i j : ℕ) : ℝ :=
  (∑ a ∈ Finset.range ss, ∑ b ∈ Finset.range ss,
    if Real.sqrt ((diskCoord (m * ss) ss (((i + m - m / 2) % m) * ss + a) : ℝ) ^ 2 + (diskCoord (n * ss) ss (((j + n - n / 2) % n) * ss + b) : ℝ) ^ 2) < radius * ss
    then (1 : ℝ) else 0) / ((ss : ℝ) * ss)

/-- The index in an array of `m` entries extended by `reflect` of SciPy (`d c b a | a b c d | d c b a`). -/
def reflectIdx (m : ℕ) (k : ℤ) : ℕ :=
  let r := (k % (2 * m)).toNat
  if r < m then r else 2 * m - 1 - r

/-- `create_marker_disk` (src/corrct/alignment/markers.py:58-100). `scipy.ndimage.convolve(probe, probe)` puts the entry `size // 2` of the second on
the pixel, and extends the first by reflection. -/
noncomputable def markerDisk (m n : ℕ) (radius : ℝ) (ss : ℕ) (conv : Bool) (i : ZMod m) (j : ZMod n) : ℝ :=
  if conv then
    ∑ a ∈ Finset.range m, ∑ b ∈ Finset.range n, diskProbe m n radius ss a b *
      diskProbe m n radius ss (reflectIdx m ((i.val : ℤ) - a + (m / 2 : ℕ))) (reflectIdx n ((j.val : ℤ) - b + (n / 2 : ℕ)))
  else diskProbe m n radius ss i.val j.val

/-! ## Rotation and scale -/

/-- The end of `fit_image_rotation_and_scale` (src/corrct/alignment/fitting.py:329-344), from the polar images of the spectra, of 360 rows and
`radius` columns (the default shape of `skimage.transform.warp_polar`): half of the rows is used, and the first column is left out. The rotation
in degrees and the scale. -/
noncomputable def rotationScale (radius : ℕ) [NeZero (radius - 1)] (eps : ℝ) (polar1 polar2 : ℕ → ℕ → ℝ) : Option (ℝ × ℝ) :=
  (fitShiftVUN true true eps (fun (i : ZMod 180) (j : ZMod (radius - 1)) => polar1 i.val (j.val + 1))
      (fun (i : ZMod 180) (j : ZMod (radius - 1)) => polar2 i.val (j.val + 1)) 2).map fun s =>
    (180 / 180 * s.1, Real.exp (s.2 / (radius / Real.log radius)))

/-- `fit_image_rotation_and_scale` (src/corrct/alignment/fitting.py:273-344) for images of shapes `shape1` and `shape2`: `none` is the `ValueError` of
different shapes, or that of the refinement. The window, the Fourier transform and `warp_polar` give the polar images. Without padding. -/
noncomputable def fitRotationScale (shape1 shape2 : List ℕ) (radius : ℕ) [NeZero (radius - 1)] (eps : ℝ) (polar1 polar2 : ℕ → ℕ → ℝ) : Option (ℝ × ℝ) :=
  if shape1 ≠ shape2 then none else rotationScale radius eps polar1 polar2

end Verif
