import Mathlib.Analysis.SpecialFunctions.Complex.CircleAddChar
import Verif.Model.Alignment

/-!
# Model of the shifts by cross-correlation of `src/corrct/alignment/fitting.py` (`fit_shifts_vu_xc`)

Images are real functions on `ZMod m × ZMod n`: rows `v` and columns `u`; an index `i < m` of NumPy is its residue. The Fourier
transforms are the exact sums.
-/

namespace Verif

open ZMod Complex

/-- `np.fft.fftn` of an image, over both axes. -/
noncomputable def fft2 {m n : ℕ} [NeZero m] [NeZero n] (x : ZMod m → ZMod n → ℝ) (k : ZMod m) (l : ZMod n) : ℂ :=
  ∑ i, ∑ j, (x i j : ℂ) * (stdAddChar (-(k * i)) * stdAddChar (-(l * j)))

/-- `data_vwu_f * proj_vwu_f.conj()` (src/corrct/alignment/fitting.py:159-162), without the normalisation (`find_shifts_vu` of
src/corrct/alignment/shifts.py:493-540 turns it off by default). -/
noncomputable def xcSpectrum {m n : ℕ} [NeZero m] [NeZero n] (data proj : ZMod m → ZMod n → ℝ) (k : ZMod m) (l : ZMod n) : ℂ :=
  fft2 data k l * starRingEnd ℂ (fft2 proj k l)

/-- `np.fft.irfft` without a length: the length of the output is `2 * (size - 1)`, where `size = n / 2 + 1` is the number of
frequencies that `np.fft.rfft` kept of `n`; `Y l` is the coefficient of frequency `l`. -/
noncomputable def irfftDefault (n : ℕ) (Y : ℕ → ℂ) (j : ℕ) : ℝ :=
  ((Y 0).re + (-1) ^ j * (Y (n / 2)).re +
    2 * ∑ l ∈ Finset.Ico 1 (n / 2), (Y l * exp (2 * Real.pi * I * (l * j : ℕ) / (2 * (n / 2) : ℕ))).re) / (2 * (n / 2) : ℕ)

/-- The width of the correlation image: that of the input with `use_rfft = False`, that of `irfftn` without shape otherwise
(src/corrct/alignment/fitting.py:165 and :189). -/
def xcWidth (rfft : Bool) (n : ℕ) : ℕ := if rfft then 2 * (n / 2) else n

/-- The correlation image `local_ifftn(cc_f).real` at row `a` and column `b` (src/corrct/alignment/fitting.py:165). With `rfft` the
spectrum is restricted to the first `n / 2 + 1` columns, and inverted by `irfftn` without shape. -/
noncomputable def xcImage {m n : ℕ} [NeZero m] [NeZero n] (rfft : Bool) (data proj : ZMod m → ZMod n → ℝ) (a b : ℕ) : ℝ :=
  let Y : ZMod n → ℂ := fun l => (∑ k, xcSpectrum data proj k l * stdAddChar (k * (a : ZMod m))) / m
  if rfft then irfftDefault n (fun l => Y l) b else ((∑ l, Y l * stdAddChar (l * (b : ZMod n))) / n).re

/-- `np.fft.fftfreq(n, 1 / n)[i]`. -/
def fftfreq (n i : ℕ) : ℤ := if 2 * i < n then i else (i : ℤ) - n

/-- `fit_shifts_vu_xc` for one image with `decimals = d > 0`, no padding, no margin, no normalisation
(src/corrct/alignment/fitting.py:85-178): `(v, u)` of the shift; `none` is a `ValueError` of the refinement. -/
noncomputable def fitShiftVU {m n : ℕ} [NeZero m] [NeZero n] (rfft : Bool) (data proj : ZMod m → ZMod n → ℝ) (d : ℕ) :
    Option (ℝ × ℝ) := do
  let w := xcWidth rfft n
  let cc := xcImage rfft data proj
  let pos := argmin (fun i => -cc (i / w) (i % w)) (m * w)
  let a := pos / w
  let b := pos % w
  let sv ← refineMax3 (cc ((a + m - 1) % m) b) (cc a b) (cc ((a + 1) % m) b) d
  let su ← refineMax3 (cc a ((b + w - 1) % w)) (cc a b) (cc a ((b + 1) % w)) d
  some (fftfreq m a + sv, fftfreq n b + su)

/-- `fit_shifts_vu_xc` for one row of a 2-dimensional data set, with the same options (src/corrct/alignment/fitting.py:180-199). A row
is an image with one line. -/
noncomputable def fitShiftU {n : ℕ} [NeZero n] (rfft : Bool) (data proj : ZMod n → ℝ) (d : ℕ) : Option ℝ := do
  let w := xcWidth rfft n
  let cc := xcImage (m := 1) rfft (fun _ => data) (fun _ => proj) 0
  let b := argmin (fun i => -cc i) w
  let su ← refineMax3 (cc ((b + w - 1) % w)) (cc b) (cc ((b + 1) % w)) d
  some (fftfreq n b + su)

/-- The zero padding of `pad_u` (`s = new_fft_shapes` of twice the size, src/corrct/alignment/fitting.py:130-133, 181-182). -/
def padRow (n : ℕ) (f : ℕ → ℝ) (j : ZMod (2 * n)) : ℝ := if j.val < n then f j.val else 0

/-- `fit_u_180` for a 2-dimensional data set (src/corrct/alignment/shifts.py:415-438) with the two opposite projections found, from the
row `p0` at the first angle and `p180` at the opposite one: `np.flip` reverses the row, of residues `-1 - j`. The filter sets shifts above
`maxShift` to zero. -/
noncomputable def fitU180 {n : ℕ} [NeZero n] (rfft : Bool) (p0 p180 : ZMod n → ℝ) (maxShift : ℝ) (d : ℕ) : Option ℝ := do
  let s ← fitShiftU rfft p0 (fun j => p180 (-1 - j)) d
  some (-(if maxShift < |s| then 0 else s) / 2)

end Verif
