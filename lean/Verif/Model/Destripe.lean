import Verif.Model.PreProc

/-!
# Model of `destripe_wlf_vwu` (src/corrct/processing/pre.py:390-450)

Arrays have `d = e + 2` axes, of positive sizes; the stationary wavelet transform of PyWavelets is a parameter. Only the default
`other_axes=None` is modelled.
-/

namespace Verif

/-- `target_shape` along an axis of `s` pixels: the next multiple of `2 ** level` (src/corrct/processing/pre.py:428-432). -/
def stripeTarget (level s : ℕ) : ℕ := (s + 2 ^ level - 1) / 2 ^ level * 2 ^ level

/-- The padding before and after along an axis of `s` pixels (src/corrct/processing/pre.py:433-434). -/
def stripePad (level s : ℕ) : ℕ × ℕ :=
  let diff := stripeTarget level s - s
  (diff - diff / 2, diff / 2)

/-- `filt_f` at the frequency `k` of an axis of `n` angles (src/corrct/processing/pre.py:443); frequencies above the middle are the
negative ones. -/
noncomputable def stripeGain (n : ℕ) (sigma : ℝ) (k : ℕ) : ℝ :=
  1 - Real.exp (-((fftfreq n k : ℝ) / n) ^ 2 / (2 * sigma ^ 2))

/-- `np.fft.irfft(np.fft.rfft(row) * filt_f, n=n)` of a row along the angles (src/corrct/processing/pre.py:442-445), at the angle `t`.
Simplification: written with the full transform, that has the same result for real rows, the gains being those of the absolute
frequency. -/
noncomputable def angleFilter (n : ℕ) (sigma : ℝ) (row : ℕ → ℝ) (t : ℕ) : ℝ :=
  ((∑ k ∈ Finset.range n, (stripeGain n sigma k : ℂ) *
    (∑ s ∈ Finset.range n, (row s : ℂ) * Complex.exp (-(2 * Real.pi * Complex.I * k * s / n))) *
      Complex.exp (2 * Real.pi * Complex.I * k * t / n)) / n).re

/-- `pywt.swtn` and `pywt.iswtn` for some wavelet and level (src/corrct/processing/pre.py:437, 447), on arrays of a given shape: the bands
of all levels, and which of them are approximations (label `"aa…a"`). -/
structure SwtPair (d : ℕ) (B : Type) where
  approx : B → Bool
  dec : (Fin d → ℕ) → ((Fin d → ℤ) → ℝ) → B → (Fin d → ℤ) → ℝ
  inv : (Fin d → ℕ) → (B → (Fin d → ℤ) → ℝ) → (Fin d → ℤ) → ℝ

/-- The axis that `filt_f[:, None]` is aligned with by broadcasting: the last but one (src/corrct/processing/pre.py:444). -/
def lastButOne (e : ℕ) : Fin (e + 2) := ⟨e, by omega⟩

/-- The filter on one band `c` of shape `big`, along the axis `a` (src/corrct/processing/pre.py:442-445). The gains are multiplied along the
last but one axis, whatever `a` is; `none` is the `ValueError` if they cannot be broadcast. Along another axis than `a`, a gain is a
factor. -/
noncomputable def stripeBand {e : ℕ} (sigma : ℝ) (a : Fin (e + 2)) (big : Fin (e + 2) → ℕ) (c : (Fin (e + 2) → ℤ) → ℝ) :
    Option ((Fin (e + 2) → ℤ) → ℝ) :=
  if a = lastButOne e then
    some fun i => angleFilter (big a) sigma (fun s => c (Function.update i a (s : ℤ))) (i a).toNat
  else if big a / 2 + 1 = 1 then some fun i => stripeGain (big a) sigma 0 * c i
  else if big (lastButOne e) = big a / 2 + 1 then some fun i => stripeGain (big a) sigma (i (lastButOne e)).toNat * c i
  else none

/-- The axes of the wavelet transform for `other_axes=None` (src/corrct/processing/pre.py:420-426): `angle_axis is other_axes` compares a
number with an array and is never true, so the axis of the angles is not removed. -/
def stripeAxes (d : ℕ) (_angle : Fin d) : List (Fin d) := List.finRange d

/-- The shape of the padded data (src/corrct/processing/pre.py:430-432). -/
def stripeShape {d : ℕ} (level : ℕ) (shape : Fin d → ℕ) (a k : Fin d) : ℕ :=
  if k ∈ stripeAxes d a then stripeTarget level (shape k) else shape k

/-- The padding of each axis (src/corrct/processing/pre.py:433-434). -/
def stripePads {d : ℕ} (level : ℕ) (shape : Fin d → ℕ) (a k : Fin d) : ℕ × ℕ :=
  if k ∈ stripeAxes d a then stripePad level (shape k) else (0, 0)

/-- `np.pad(data, pad_width=padding, mode="edge")` (src/corrct/processing/pre.py:435). -/
def stripePadded {d : ℕ} (level : ℕ) (shape : Fin d → ℕ) (a : Fin d) (img : (Fin d → ℤ) → ℝ) (i : Fin d → ℤ) : ℝ :=
  img fun k => clampPos (shape k) (i k - (stripePads level shape a k).1)

open Classical in
/-- The transform, the filter and the crop, for angles along the axis `a` (src/corrct/processing/pre.py:435-450). -/
noncomputable def destripeAlong {e : ℕ} {B : Type} (swt : SwtPair (e + 2) B) (sigma : ℝ) (level : ℕ) (shape : Fin (e + 2) → ℕ)
    (a : Fin (e + 2)) (img : (Fin (e + 2) → ℤ) → ℝ) : Option ((Fin (e + 2) → ℤ) → ℝ) :=
  let big := stripeShape level shape a
  let c := swt.dec big (stripePadded level shape a img)
  if ∃ b, swt.approx b = false ∧ stripeBand sigma a big (c b) = none then none
  else some fun i => swt.inv big (fun b => if swt.approx b then c b else (stripeBand sigma a big (c b)).getD 0)
    fun k => i k + (stripePads level shape a k).1

/-- `destripe_wlf_vwu(data, sigma, level, wavelet, angle_axis)` (src/corrct/processing/pre.py:390-450), `level ≥ 1`: pad with the border
values, transform, filter the details along the angles, transform back and crop. `none` is an error. -/
noncomputable def destripe {e : ℕ} {B : Type} (swt : SwtPair (e + 2) B) (sigma : ℝ) (level : ℕ) (shape : Fin (e + 2) → ℕ) (axis : ℤ)
    (img : (Fin (e + 2) → ℤ) → ℝ) : Option ((Fin (e + 2) → ℤ) → ℝ) :=
  (pyAxis (e + 2) axis).bind fun a => destripeAlong swt sigma level shape a img

end Verif
