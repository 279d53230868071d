import Verif.Model.CrossCorrelation
import Verif.Model.SvdAxes

/-!
# Model of the peak extraction and of the remaining shift fits

`src/corrct/alignment/fitting.py` (`fit_shifts_u_sad`, `extract_peak_regions_1d`, `extract_peak_region_nd`, `refine_max_position_2d`,
`sinusoid`) and `src/corrct/alignment/shifts.py` (`_filter_shifts`, `DetectorShiftsPRE.fit_u`, `DetectorShiftsXC.fit_vu_accum_drifts`,
`DetectorShiftsXC.fit_u_360`).
-/

namespace Verif
open ZMod

/-- `np.argmax`: the first position of the largest of the first `n` values. -/
noncomputable def argmax (f : ℕ → ℝ) (n : ℕ) : ℕ := argmin (fun i => -f i) n

/-! ## Peaks -/

/-- `extract_peak_regions_1d` (src/corrct/alignment/fitting.py:469-521): `last` tells whether the axis is the last one (`axis = -1`) or
the first one (`axis = -2`) of the array `cc` of shape `(s0, s1)`. The value and, if coordinates are given, the coordinate, of entry
`k` of `2 * radius + 1` for a line. -/
noncomputable def peakRegion1d (s0 s1 : ℕ) (cc : ℕ → ℕ → ℝ) (last : Bool) (radius : ℕ) (coords : ℕ → ℝ) (k line : ℕ) : ℝ × ℝ :=
  let size := if last then s1 else s0
  let pixMax := argmax (fun i => if last then cc line i else cc i line) size
  let p : ℕ := (((pixMax : ℤ) + ((k : ℤ) - radius)) % size).toNat
  (if last then cc line p else cc p line, coords p)

/-- `extract_peak_region_nd` (src/corrct/alignment/fitting.py:605-645): the position of the maximum (`np.argmax` of the flattened array,
`np.unravel_index`). -/
noncomputable def peakPosNd (shape : List ℕ) (cc : List ℕ → ℝ) : List ℕ := unravel shape (argmax (fun i => cc (unravel shape i)) shape.prod)

/-- The position, around the borders, of entry `ks` of the extracted region (src/corrct/alignment/fitting.py:631-643). -/
noncomputable def peakIndexNd (shape : List ℕ) (cc : List ℕ → ℝ) (radius : ℕ) (ks : List ℕ) : List ℕ :=
  List.zipWith (fun (pk : ℤ) (n : ℕ) => (pk % (n : ℤ)).toNat)
    (List.zipWith (fun (p k : ℕ) => (p : ℤ) - radius + k) (peakPosNd shape cc) ks) shape

/-- The values `f_vals` of `extract_peak_region_nd`. -/
noncomputable def peakRegionNd (shape : List ℕ) (cc : List ℕ → ℝ) (radius : ℕ) (ks : List ℕ) : ℝ := cc (peakIndexNd shape cc radius ks)

/-! ## Two-dimensional refinement -/

/-- `np.linspace(-1, 1, n)[i]` for `n ≥ 2`. -/
noncomputable def linspaceUnit (n i : ℕ) : ℝ := -1 + 2 * i / (n - 1)

/-- The polynomial of the fit: coefficients of `1, y, x, y x, y², x²` (src/corrct/alignment/fitting.py:703). -/
def quad2 (c : Fin 6 → ℝ) (y x : ℝ) : ℝ := c 0 + c 1 * y + c 2 * x + c 3 * (y * x) + c 4 * y ^ 2 + c 5 * x ^ 2

/-- The two rows of `A v + b` (src/corrct/alignment/fitting.py:710-712). -/
def vertexRows (c : Fin 6 → ℝ) (v : Fin 2 → ℝ) : Fin 2 → ℝ :=
  ![2 * c 4 * v 0 + c 3 * v 1 + c 1, c 3 * v 0 + 2 * c 5 * v 1 + c 2]

/-- The fit, the vertex and the check of its range in `refine_max_position_2d` (src/corrct/alignment/fitting.py:703-724): the
coordinates `ys`, `xs` of the samples and the factors `sy`, `sx` of the coefficients. The entries of the grid are numbered by pairs. -/
def RefineMax2dCore {m n : ℕ} (f : Fin m → Fin n → ℝ) (ys : Fin m → ℝ) (xs : Fin n → ℝ) (sy sx : ℝ) (r : Option (Fin 2 → ℝ)) : Prop :=
  ∃ c : Fin 6 → ℝ,
    IsLstsq (fun c (q : Fin (m * n)) => quad2 c (ys (finProdFinEquiv.symm q).1) (xs (finProdFinEquiv.symm q).2)
      - f (finProdFinEquiv.symm q).1 (finProdFinEquiv.symm q).2) c ∧
    ∃ v : Fin 2 → ℝ, IsLstsq (vertexRows ![c 0, c 1 * sy, c 2 * sx, c 3 * (sy * sx), c 4 * sy ^ 2, c 5 * sx ^ 2]) v ∧
      ((r = some v ∧ (⨅ i, ys i) ≤ v 0 ∧ v 0 ≤ (⨆ i, ys i) ∧ (⨅ j, xs j) ≤ v 1 ∧ v 1 ≤ (⨆ j, xs j)) ∨
       (r = none ∧ ¬ ((⨅ i, ys i) ≤ v 0 ∧ v 0 ≤ (⨆ i, ys i) ∧ (⨅ j, xs j) ≤ v 1 ∧ v 1 ≤ (⨆ j, xs j))))

/-- The coordinates of the samples of one axis (src/corrct/alignment/fitting.py:673-699): those given, or `np.linspace(-1, 1, n)`. -/
noncomputable def sampleCoords {n : ℕ} (given : Option (Fin n → ℝ)) : Fin n → ℝ :=
  match given with | some y => y | none => fun i => linspaceUnit n i

/-- The factor of the coefficients of one axis (src/corrct/alignment/fitting.py:673-699). -/
noncomputable def sampleFactor {n : ℕ} (given : Option (Fin n → ℝ)) : ℝ :=
  match given with | some _ => 1 | none => ((n : ℝ) - 1) / 2

/-- `refine_max_position_2d` on `m × n` values (src/corrct/alignment/fitting.py:648-724), `m, n ≥ 2`: `r` is a possible result; `none`
stands for the `ValueError`. `fy`, `fx` are the optional coordinates. -/
def RefineMax2d {m n : ℕ} (f : Fin m → Fin n → ℝ) (fy : Option (Fin m → ℝ)) (fx : Option (Fin n → ℝ)) (r : Option (Fin 2 → ℝ)) :
    Prop :=
  RefineMax2dCore f (sampleCoords fy) (sampleCoords fx) (sampleFactor fy) (sampleFactor fx) r

/-! ## Sum of absolute differences -/

/-- `np.fft.ifft2(scipy.ndimage.fourier_shift(np.fft.fft2(x), (0, s))).real` of one row, for a whole number `s`
(src/corrct/alignment/fitting.py:67, 74). The transform along the rows and back is the identity and is left out. -/
noncomputable def fourierShiftRow {N : ℕ} [NeZero N] (x : ZMod N → ℝ) (s : ℤ) (j : ZMod N) : ℝ :=
  ((∑ k : ZMod N, (∑ i : ZMod N, (x i : ℂ) * stdAddChar (-(k * i))) * stdAddChar (-(k * (s : ZMod N))) * stdAddChar (k * j)) / N).re

/-- `np.pad(row, R, mode="edge")` (src/corrct/alignment/fitting.py:64), at position `j` of `n + 2 R`. -/
def padEdgeRow (n R : ℕ) (x : ℕ → ℝ) (j : ℕ) : ℝ := if j < R then x 0 else if j < R + n then x (j - R) else x (n - 1)

/-- `np.pad(row, R, mode="constant")` (src/corrct/alignment/fitting.py:65). -/
def padZeroRow (n R : ℕ) (x : ℕ → ℝ) (j : ℕ) : ℝ := if j < R then 0 else if j < R + n then x (j - R) else 0

/-- `diffs[row, ii]` (src/corrct/alignment/fitting.py:73-75), for the error norm `p`. -/
noncomputable def sadDiff (n R : ℕ) [NeZero (n + 2 * R)] (p : ℕ) (data proj : ℕ → ℝ) (s : ℤ) : ℝ :=
  (∑ j : ZMod (n + 2 * R), |padEdgeRow n R data j.val - fourierShiftRow (fun i => padZeroRow n R proj i.val) s j| ^ p) ^ ((1 : ℝ) / p)

/-- `fit_shifts_u_sad` for one row, with `decimals = d > 0` (src/corrct/alignment/fitting.py:31-82): `none` is an exception,
the `UnboundLocalError` of `pad_proj_wu` without `pad_u`, or the `ValueError` of the refinement. -/
noncomputable def fitShiftSad (n R : ℕ) [NeZero (n + 2 * R)] (padU : Bool) (p : ℕ) (data proj : ℕ → ℝ) (d : ℕ) : Option ℝ :=
  if padU then do
    let num := 2 * R + 1
    let vals : ℕ → ℝ := fun ii => -sadDiff n R p data proj (fftfreq num ii)
    let region := peakRegion1d 1 num (fun _ ii => vals ii) true 1 (fun ii => (fftfreq num ii : ℝ))
    let su ← refineMax3 (region 0 0).1 (region 1 0).1 (region 2 0).1 d
    some ((region 1 0).2 + su)
  else none

/-! ## Pre-alignment -/

/-- `sinusoid` (src/corrct/alignment/fitting.py:409-430). -/
noncomputable def sinusoid (x a p b : ℝ) : ℝ := a * Real.sin (x + p) + b

/-- The reference points of `DetectorShiftsPRE.fit_u` (src/corrct/alignment/shifts.py:265-277) of a row that has been averaged over
detectors and lines, and cleared of the background and of negative values (:256-263): `com = true` is the method "com". -/
noncomputable def preRefPoint {nu : ℕ} (com : Bool) (row : Fin nu → ℝ) : ℝ :=
  if com then -(comLine row)
  else ((nu : ℝ) - 1) / 2 - argmax (fun i => if h : i < nu then row ⟨i, h⟩ else 0) nu

/-- The row after the background (src/corrct/alignment/shifts.py:261-263). -/
noncomputable def preRow {nu : ℕ} (background : Option ℝ) (row : Fin nu → ℝ) : Fin nu → ℝ := fun i =>
  max (match background with | some b => row i - b | none => row i) 0

/-- `_filter_shifts` (src/corrct/alignment/shifts.py:23-31) on one shift. -/
noncomputable def filterShift (maxShift s : ℝ) : ℝ := if maxShift < |s| then 0 else s

/-- `DetectorShiftsPRE.fit_u` after the fit of the sinusoid `(a, p, b)` (src/corrct/alignment/shifts.py:279-310): shifts and centre of
rotation. -/
noncomputable def preFitU {na : ℕ} (angles ref : Fin na → ℝ) (a p b : ℝ) (maxShift : ℝ) (d : ℕ) : (Fin na → ℝ) × ℝ :=
  (fun i => around d (filterShift maxShift (ref i - sinusoid (angles i) a p b)), around d b)

/-- The contract of the non-linear fit (`scipy.optimize.curve_fit`, src/corrct/alignment/fitting.py:451-454): a minimiser of the sum of
the squares. (Whether SciPy finds it is not modelled.) -/
def IsSinusoidFit {na : ℕ} (angles values : Fin na → ℝ) (a p b : ℝ) : Prop :=
  ∀ a' p' b', ∑ i, (sinusoid (angles i) a p b - values i) ^ 2 ≤ ∑ i, (sinusoid (angles i) a' p' b' - values i) ^ 2

/-! ## Centre of rotation of full scans -/

/-- The pairs of projections that `fit_u_360` compares (src/corrct/alignment/shifts.py:450-457). -/
noncomputable def pairs360 (angles : ℕ → ℝ) (na : ℕ) : List (ℕ × ℕ) :=
  let boundary := angles 0 + Real.pi
  let num := ((List.range na).filter fun i => decide (angles i < boundary)).length
  (List.range num).map fun i => (i, argmin (fun j => |angles j - (angles i + Real.pi)|) na)

/-- `fit_u_360` (src/corrct/alignment/shifts.py:440-491): `find i j` is the horizontal shift between projection `i` and the flipped
projection `j`. -/
noncomputable def fitU360 (angles : ℕ → ℝ) (na : ℕ) (find : ℕ → ℕ → ℝ) (d : ℕ) : ℝ :=
  let cors := (pairs360 angles na).map fun q => -find q.1 q.2 / 2
  around d (cors.sum / cors.length)

/-! ## Accumulated drifts -/

/-- `fit_vu_accum_drifts` (src/corrct/alignment/shifts.py:316-355) of one coordinate: `nref` reference images (by default the first image
of the stack is the only one), `find r i` the shift of image `i` from reference `r`; `none` is the `ValueError`. -/
def accumDrifts (nimg nref : ℕ) (find : ℕ → ℕ → ℝ) : Option (List ℝ) :=
  let refInds := if nref = 1 then List.replicate nimg 0 else List.range nref
  if nimg = refInds.length then some ((List.range nimg).map fun i => find (refInds.getD i 0) i) else none

end Verif
