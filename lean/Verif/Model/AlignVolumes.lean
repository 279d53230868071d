import Verif.Model.CrossCorrelation

/-!
# Model of the shifts of volumes, of normalised cross-correlations and of what is built on them

`src/corrct/alignment/fitting.py` (`fit_shifts_zyx_xc`, `fit_shifts_vu_xc` with `normalize_fourier`, `fit_image_rotation_and_scale`,
`fit_camera_tilt_angle`), `src/corrct/alignment/centering.py` (`as_reference`), `src/corrct/alignment/markers.py` (`track_marker`).
-/

namespace Verif

open ZMod Complex

/-- The positions of a volume of shape `(p, m, n)`, by residues. -/
abbrev Grid3 (p m n : ℕ) := ZMod p × ZMod m × ZMod n

/-- The factors `exp(2 π i k x / size)` of the three axes. -/
noncomputable def chi3 {p m n : ℕ} [NeZero p] [NeZero m] [NeZero n] (k x : Grid3 p m n) : ℂ :=
  stdAddChar (k.1 * x.1) * stdAddChar (k.2.1 * x.2.1) * stdAddChar (k.2.2 * x.2.2)

/-- `np.fft.fftn` of a volume (src/corrct/alignment/fitting.py:248-249). -/
noncomputable def fft3 {p m n : ℕ} [NeZero p] [NeZero m] [NeZero n] (x : Grid3 p m n → ℝ) (k : Grid3 p m n) : ℂ := ∑ i, (x i : ℂ) * chi3 k (-i)

/-- `cc_f /= np.fmax(np.abs(cc_f), eps)` if `normalize_fourier` (src/corrct/alignment/fitting.py:163-164 and 252-253). -/
noncomputable def normSpectrum (norm : Bool) (eps : ℝ) (z : ℂ) : ℂ := if norm then z / ((max ‖z‖ eps : ℝ) : ℂ) else z

/-- The spectrum of the correlation of two volumes (src/corrct/alignment/fitting.py:248-253). -/
noncomputable def xcSpectrum3 {p m n : ℕ} [NeZero p] [NeZero m] [NeZero n] (norm : Bool) (eps : ℝ) (ref vol : Grid3 p m n → ℝ) (k : Grid3 p m n) : ℂ :=
  normSpectrum norm eps (fft3 ref k * starRingEnd ℂ (fft3 vol k))

/-- `local_ifftn(cc_f).real` (src/corrct/alignment/fitting.py:254) at `(a, b, c)`; with `rfft` the last axis is inverted by `irfft` without
length. -/
noncomputable def xcVolume {p m n : ℕ} [NeZero p] [NeZero m] [NeZero n] (rfft norm : Bool) (eps : ℝ) (ref vol : Grid3 p m n → ℝ) (a b c : ℕ) : ℝ :=
  let Y : ZMod n → ℂ := fun l => (∑ k : ZMod p × ZMod m, xcSpectrum3 norm eps ref vol (k.1, k.2, l) *
    (stdAddChar (k.1 * (a : ZMod p)) * stdAddChar (k.2 * (b : ZMod m)))) / (p * m)
  if rfft then irfftDefault n (fun l => Y l) c else ((∑ l, Y l * stdAddChar (l * (c : ZMod n))) / n).re

/-- The sub-pixel refinement of the fits: `decimals = 0` leaves it out (src/corrct/alignment/fitting.py:259-268). -/
noncomputable def refineIf (d : ℕ) (y0 y1 y2 : ℝ) : Option ℝ := if d = 0 then some 0 else refineMax3 y0 y1 y2 d

/-- `fit_shifts_zyx_xc` of volumes with three axes, without padding (src/corrct/alignment/fitting.py:204-270): the shifts `z, y, x`; `none` is
the `ValueError` of the refinement. -/
noncomputable def fitShiftZYX {p m n : ℕ} [NeZero p] [NeZero m] [NeZero n] (rfft norm : Bool) (eps : ℝ) (ref vol : Grid3 p m n → ℝ) (d : ℕ) :
    Option (ℝ × ℝ × ℝ) := do
  let w := xcWidth rfft n
  let cc := xcVolume rfft norm eps ref vol
  let pos := argmin (fun i => -cc (i / (m * w)) (i / w % m) (i % w)) (p * (m * w))
  let a := pos / (m * w)
  let b := pos / w % m
  let c := pos % w
  let sz ← refineIf d (cc ((a + p - 1) % p) b c) (cc a b c) (cc ((a + 1) % p) b c)
  let sy ← refineIf d (cc a ((b + m - 1) % m) c) (cc a b c) (cc a ((b + 1) % m) c)
  let sx ← refineIf d (cc a b ((c + w - 1) % w)) (cc a b c) (cc a b ((c + 1) % w))
  some (fftfreq p a + sz, fftfreq m b + sy, fftfreq n c + sx)

/-- An image as a volume with one slice. -/
def slice3 {m n : ℕ} (x : ZMod m → ZMod n → ℝ) : Grid3 1 m n → ℝ := fun i => x i.2.1 i.2.2

/-- `fit_shifts_vu_xc` for one image with any `normalize_fourier` and `decimals` (src/corrct/alignment/fitting.py:139-178), without padding and
margin. -/
noncomputable def fitShiftVUN {m n : ℕ} [NeZero m] [NeZero n] (rfft norm : Bool) (eps : ℝ) (data proj : ZMod m → ZMod n → ℝ) (d : ℕ) :
    Option (ℝ × ℝ) := do
  let w := xcWidth rfft n
  let cc := xcVolume rfft norm eps (slice3 data) (slice3 proj) 0
  let pos := argmin (fun i => -cc (i / w) (i % w)) (m * w)
  let a := pos / w
  let b := pos % w
  let sv ← refineIf d (cc ((a + m - 1) % m) b) (cc a b) (cc ((a + 1) % m) b)
  let su ← refineIf d (cc a ((b + w - 1) % w)) (cc a b) (cc a ((b + 1) % w))
  some (fftfreq m a + sv, fftfreq n b + su)

/-! ## Re-centring on a reference -/

/-- A volume as a function of the residues. -/
def toGrid {p m n : ℕ} [NeZero p] [NeZero m] [NeZero n] (vol : Fin p → Fin m → Fin n → ℝ) : Grid3 p m n → ℝ := fun i =>
  vol ⟨i.1.val, ZMod.val_lt _⟩ ⟨i.2.1.val, ZMod.val_lt _⟩ ⟨i.2.2.val, ZMod.val_lt _⟩

/-- The methods of `as_reference`. -/
inductive RecentreMethod where
  | com | xc | other
  deriving DecidableEq

/-- `RecenterVolume.as_reference` for one angle (src/corrct/alignment/centering.py:58-89), with detector axes `u`, `v` of the rotated geometry;
`none` is an exception: that of the refinement, or the `ValueError` of an unknown method. -/
noncomputable def recentreAsReference {p m n : ℕ} [NeZero p] [NeZero m] [NeZero n] (eps : ℝ) (u v : V3) (shifts : ℝ × ℝ)
    (vol ref : Fin p → Fin m → Fin n → ℝ) (method : RecentreMethod) (d : ℕ) : Option (ℝ × ℝ) :=
  match method with
  | .com => some (recentreToCom u v shifts vol (comVolume ref) d)
  | .xc => (fitShiftZYX true true eps (toGrid ref) (toGrid vol) d).map fun t =>
      (around d (shifts.1 + (projectDisplacement u v ⟨t.2.2, t.2.1, t.1⟩).1), around d (shifts.2 + (projectDisplacement u v ⟨t.2.2, t.2.1, t.1⟩).2))
  | .other => none

end Verif
