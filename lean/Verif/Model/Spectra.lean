import Mathlib.Analysis.SpecialFunctions.Gamma.Basic
import Verif.Model.Analysis

/-!
# Model of the correlations and of the spectra of `src/corrct/processing/misc.py` and `src/corrct/processing/post.py`

`norm_cross_corr`, `power_spectrum`, the threshold curve of `compute_frc` and `estimate_resolution`. Images of `norm_cross_corr` have `m`
rows and `n` columns; their values are read at natural number positions.
-/

namespace Verif

open Finset

/-! ## Normalised cross-correlation -/

/-- The image after `np.flip` along both axes, and zero outside (src/corrct/processing/misc.py:401-402). -/
noncomputable def flipGet (m n : ℕ) (img : ℕ → ℕ → ℝ) (p q : ℤ) : ℝ :=
  if 0 ≤ p ∧ p < m ∧ 0 ≤ q ∧ q < n then img (m - 1 - p.toNat) (n - 1 - q.toNat) else 0

/-- `fftconvolve(img1, flipped img2, mode="full")` of two images of the same shape, at the position `(i, j)` of its
`2 * m - 1` by `2 * n - 1` values (src/corrct/processing/misc.py:403); the convolution is exact. -/
noncomputable def corrFull (m n : ℕ) (img1 img2 : ℕ → ℕ → ℝ) (i j : ℕ) : ℝ :=
  ∑ a ∈ range m, ∑ b ∈ range n, img1 a b * flipGet m n img2 ((i : ℤ) - a) ((j : ℤ) - b)

/-- Size of an axis of the result (src/corrct/processing/misc.py:405-412). -/
def corrSize (full : Bool) (n : ℕ) : ℕ := if full then 2 * n - 1 else n

/-- First position of an axis that is kept (src/corrct/processing/misc.py:408). -/
def corrStart (full : Bool) (n : ℕ) : ℕ := if full then 0 else (2 * n - 1 - n) / 2

/-- `np.fft.ifftshift` of an axis of `n` values: the position that the output `i` comes from. -/
def ifftshiftPos (n i : ℕ) : ℕ := (i + n / 2) % n

/-- `np.linalg.norm` of a stack of `S` images. -/
noncomputable def stackNorm (S m n : ℕ) (img : ℕ → ℕ → ℕ → ℝ) : ℝ :=
  Real.sqrt (∑ s ∈ range S, ∑ a ∈ range m, ∑ b ∈ range n, img s a b ^ 2)

/-- `norm_cross_corr(img1, img2, t_match=False, mode_full=full)` of stacks of `S` images (src/corrct/processing/misc.py:345-459), before the
profile: the value at `[s, i, j]`. The norms are those of the whole stacks, and `ifftshift` acts on all axes. A single image is a stack of
one; `none` is NaN. -/
noncomputable def normCrossCorr (S m n : ℕ) (img1 img2 : ℕ → ℕ → ℕ → ℝ) (full : Bool) (s i j : ℕ) : Option ℝ :=
  let den := stackNorm S m n img1 * stackNorm S m n img2
  if den = 0 then none
  else
    let s' := ifftshiftPos S s
    let i' := ifftshiftPos (corrSize full m) i + corrStart full m
    let j' := ifftshiftPos (corrSize full n) j + corrStart full n
    some (corrFull m n (img1 s') (img2 s') i' j' / den)

/-- `local_sum` along one axis of `n` values: zero padding by `n` at both sides, `np.cumsum`, and a difference
(src/corrct/processing/misc.py:379-391). -/
noncomputable def localSum1 (n : ℕ) (f : ℕ → ℝ) (t : ℕ) : ℝ :=
  let pad : ℕ → ℝ := fun k => if n ≤ k ∧ k < 2 * n then f (k - n) else 0
  (∑ k ∈ range (n + t + 1), pad k) - ∑ k ∈ range (t + 1), pad k

/-- `local_sum` along both axes of an image. -/
noncomputable def localSum2 (m n : ℕ) (img : ℕ → ℕ → ℝ) (i j : ℕ) : ℝ :=
  localSum1 n (fun b => localSum1 m (fun a => img a b) i) j

/-- `norm_cross_corr(img1, img2, t_match=True, mode_full=full)` of two images of the same shape (src/corrct/processing/misc.py:414-427), at
`[i, j]`; `none` is NaN or infinite. -/
noncomputable def templateCorr (m n : ℕ) (img1 img2 : ℕ → ℕ → ℝ) (full : Bool) (i j : ℕ) : Option ℝ :=
  let N : ℝ := m * n
  let mean := (∑ a ∈ range m, ∑ b ∈ range n, img1 a b) / N
  let std := Real.sqrt ((∑ a ∈ range m, ∑ b ∈ range n, (img1 a b - mean) ^ 2) / N)
  let flip : ℕ → ℕ → ℝ := fun a b => img2 (m - 1 - a) (n - 1 - b)
  let i' := ifftshiftPos (corrSize full m) i + corrStart full m
  let j' := ifftshiftPos (corrSize full n) j + corrStart full n
  let ls := localSum2 m n flip i' j'
  let ls2 := localSum2 m n (fun a b => flip a b ^ 2) i' j'
  let d1 := std * Real.sqrt N
  let d2 := Real.sqrt (max (ls2 - ls ^ 2 / N) 0)
  if d1 = 0 ∨ d2 = 0 then none else some ((corrFull m n img1 img2 i' j' - ls * mean) / d1 / d2)

/-! ## Power spectrum -/

/-- `power_spectrum` over all axes of an image (src/corrct/processing/post.py:63-120) before smoothing: the value on the ring `k`, and
`none` (NaN) on a ring without pixels. `taper` is the mask applied to the image. -/
noncomputable def powerRing {d : ℕ} {dims : Fin d → ℕ} (taper img : Pixel dims → ℝ) (power minDim : ℕ) (k : ℕ) : Option ℝ :=
  let f := azimuthal true (fun p => ‖fftn (fun p => img p * taper p) p‖ ^ power) k
  let rings := azimuthal true (fun _ : Pixel dims => 1) k
  let dc := Real.sqrt ((minDim : ℝ) ^ d) ^ power
  if rings = 0 then none else some (f / rings / dc)

/-- `power_spectrum` at the position `k` (src/corrct/processing/post.py:63-120): with smoothing, the mean of the neighbouring rings weighted
by the Hann window, of which SciPy skips the zeros. -/
noncomputable def powerSpectrum {d : ℕ} {dims : Fin d → ℕ} (taper img : Pixel dims → ℝ) (power minDim : ℕ) (smooth : Option ℕ) (k : ℕ) : Option ℝ :=
  match smooth with
  | none => powerRing taper img power minDim k
  | some s =>
    if s ≤ 1 then powerRing taper img power minDim k
    else
      let pos : ℕ → ℕ := fun i => (max 0 (min ((k : ℤ) + (s / 2 : ℕ) - i) (azLength dims true - 1))).toNat
      let tot := ∑ i ∈ range s, hannWindow s i
      if tot = 0 ∨ ∃ i ∈ range s, hannWindow s i ≠ 0 ∧ powerRing taper img power minDim (pos i) = none then none
      else some (∑ i ∈ range s, hannWindow s i / tot * (powerRing taper img power minDim (pos i)).getD 0)

/-! ## Threshold of the Fourier ring correlation -/

/-- The threshold for a ring of `size` pixels (src/corrct/processing/post.py:244-246). -/
noncomputable def frcThreshold (snrt size : ℝ) : ℝ :=
  (snrt + (2 * Real.sqrt snrt + 1) / Real.sqrt size) / (snrt + 1 + 2 * Real.sqrt snrt / Real.sqrt size)

/-- The theoretical size of the ring `k` of an image with `n` axes: the surface of the sphere of radius `k`, and one at the centre
(src/corrct/processing/post.py:234-240). -/
noncomputable def ringSize (n k : ℕ) : ℝ :=
  if k = 0 then 1 else 2 * Real.pi ^ ((n : ℝ) / 2) / Real.Gamma ((n : ℝ) / 2) * (k : ℝ) ^ (n - 1)

/-! ## Resolution -/

/-- Outcome of `estimate_resolution`. -/
inductive ResolutionResult where
  | indexError
  | lines (r : CrossResult)

/-- `estimate_resolution(frc, t_hb)` (src/corrct/processing/post.py:257-276). The curve has one axis; the thresholds are one curve, or the
`K` curves of a stack (that `compute_frc` returns with `theo_threshold=False`): then `frc.mean(axis=...)` is a single number, compared with
the mean threshold curve, and reading it at the crossing, at or after the position 1, is an `IndexError`. -/
noncomputable def estimateResolution (frc : List ℝ) (thr : List ℝ ⊕ List (List ℝ)) : ResolutionResult :=
  match thr with
  | .inl t => .lines (linesIntersection frc t .first (some (some 1, none)))
  | .inr ts =>
    let f := frc.sum / frc.length
    let len := (ts.map List.length).headD 0
    let t := (List.range len).map fun k => (ts.map fun l => l.getD k 0).sum / ts.length
    if crossings (List.replicate len f) t 1 (len - 1) = [] then .lines .notFound else .indexError

end Verif
