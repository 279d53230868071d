import Verif.Model.Regularizers
import Verif.Model.Analysis

/-!
# Model of the Fourier and wavelet regularizers (src/corrct/regularizers.py:588-704, 864-1047, 1213-1319, 1493-1583)
-/

namespace Verif
open DataTerm

/-- The filters of `Regularizer_fft` (src/corrct/regularizers.py:1248-1255). -/
inductive FftFilter where
  | delta | exp | exp2
  deriving DecidableEq

variable {κ : Type} [Fintype κ] [DecidableEq κ] {n : κ → ℕ}

/-- `Regularizer_fft.initialize_sigma_tau`: `sigma` at a frequency (src/corrct/regularizers.py:1244-1259); it does not depend on the
axes that are not transformed. -/
noncomputable def fftSigma (axes : Finset κ) (f : FftFilter) (k : Idx n) : ℝ :=
  match f with
  | .delta => 1 - (if ∀ a ∈ axes, ((fftfreq (n a) (k a) : ℝ) / n a) = 0 then 1 else 0)
  | .exp => 1 - Real.exp (-Real.sqrt (∑ a ∈ axes, ((fftfreq (n a) (k a) : ℝ) / n a) ^ 2) * 12)
  | .exp2 => 1 - Real.exp (-(∑ a ∈ axes, ((fftfreq (n a) (k a) : ℝ) / n a) ^ 2) * 36)

/-- `Regularizer_fft.apply_proximal_primal` with an l1 norm (src/corrct/regularizers.py:1273-1319; the default norm l12 has no
primal proximal): transform, split the coefficients by `sigma`, soft-threshold one part by `tau * weight`, add, transform back. -/
noncomputable def fftProxPrimal (axes : Finset κ) (f : FftFilter) (weight : Attr (Idx n)) (tau primal : Arr (Idx n)) : Arr (Idx n) :=
  let coeffs := fourier axes primal
  fourierAdjoint axes fun q =>
    softThreshold (coeffs q * fftSigma axes f q.2) (tau q.2 * weight.get q.2) + coeffs q * (1 - fftSigma axes f q.2)

/-- `Regularizer_swl.apply_proximal_dual` with an l12 norm (src/corrct/regularizers.py:696-704) on the detail bands: band `i` of
`level * nb` bands; `dual[1:].reshape([-1, level, …])` makes the bands with the same `i % level` one group, which the norm treats
jointly. Simplification: the weight is given per pixel. -/
noncomputable def swlProxDetails {P : Type} {level nb : ℕ} (weight : Arr P) (dual : Arr (Fin (level * nb) × P)) :
    Arr (Fin (level * nb) × P) := fun x =>
  dual x / max (Real.sqrt (∑ i : Fin (level * nb), if i.val % level = x.1.val % level then dual (i, x.2) ^ 2 else 0)) (weight x.2)
    * weight x.2

/-- The same on the approximation band `dual[0:1]`, a group of one (src/corrct/regularizers.py:701-702). -/
noncomputable def swlProxApprox {P : Type} (weight : Arr P) (approx : Arr P) : Arr P := fun p =>
  approx p / max (Real.sqrt (approx p ^ 2)) (weight p) * weight p

/-- `Regularizer_dwl.apply_proximal_dual` with an l12 norm (src/corrct/regularizers.py:966-993) on the details of one level, stacked
along a new first axis. Simplification: a scalar weight (anything else does not have the shape of the bands). -/
noncomputable def dwlProxDetails {P : Type} {nb : ℕ} (weight : ℝ) (dual : Arr (Fin nb × P)) : Arr (Fin nb × P) := fun x =>
  dual x / max (Real.sqrt (∑ i : Fin nb, dual (i, x.2) ^ 2)) weight * weight

/-- The same on the approximation band `coeffs[0]` (src/corrct/regularizers.py:990): the l12 norm groups along the first axis of
the band itself, `m` rows. -/
noncomputable def dwlProxApprox {P : Type} {m : ℕ} (weight : ℝ) (approx : Arr (Fin m × P)) : Arr (Fin m × P) := fun x =>
  approx x / max (Real.sqrt (∑ i : Fin m, approx (i, x.2) ^ 2)) weight * weight

/-- `dec_func_mult` of the wavelet regularizers (src/corrct/regularizers.py:648-660, 917-929): `lo` is the l1 norm of the low-pass filter
to the power `ndims`, `mult` lists the l1 norms of the detail filters by label. First the approximation, then the details, coarsest
level first. -/
noncomputable def waveletMult (lo : ℝ) (mult : List ℝ) (level : ℕ) : List ℝ :=
  lo ^ level :: (List.range level).flatMap fun i => mult.map fun m => m * lo ^ (level - 1 - i)

/-- `wlet_dec_filter_mult` (src/corrct/operators.py:514-516): by label, the product of the filters' l1 norms; `lo1` and `hi1` are those
of the one-dimensional low-pass and high-pass filters. Label `x` in `1 … 2^ndims - 1` has a "d" for every binary one. -/
noncomputable def filterMult (lo1 hi1 : ℝ) (ndims : ℕ) : List ℝ :=
  (List.range' 1 (2 ^ ndims - 1)).map fun x =>
    let ds := ((List.range ndims).filter fun b => x.testBit b).length
    lo1 ^ (ndims - ds) * hi1 ^ ds

/-- `sigma` of `Regularizer_dwl` (src/corrct/regularizers.py:934-944): approximation band, then band number `count` of the details. -/
noncomputable def dwlSigma (lo : ℝ) (mult : List ℝ) (level : ℕ) : Option ℕ → ℝ
  | none => (waveletMult lo mult level).getD 0 0
  | some count => (waveletMult lo mult level).getD count 0

/-- `tau` of `Regularizer_dwl` and of the stationary variant without `normalized` (src/corrct/regularizers.py:675-677, 946-948), with an l1
norm and no mask; `lo` and `mult` are those of the reconstruction filters. -/
noncomputable def waveletTau (lo : ℝ) (mult : List ℝ) (ndims level : ℕ) : ℝ :=
  ((waveletMult lo mult level).mapIdx fun i r => ((2 ^ ndims - 1 : ℝ) + if i = 0 then 1 else 0) / r).sum

/-- `Regularizer_vl1wl.apply_proximal_dual` with a reference (src/corrct/regularizers.py:1553-1583), shapes only: the dual has `l` bands
and `c` channels, the reference's coefficients have `l` bands and `cr` channels; the reference is appended to the channels, and the
first `l - 1` channels (`dual_tmp.shape[0] - 1`) of the result are assigned to the dual. `none` is the `ValueError` of that assignment;
otherwise the list tells which channel of the computed array each channel of the dual becomes (NumPy repeats a single one). -/
def vl1wlChannels (l c cr : ℕ) : Option (List ℕ) :=
  let kept := min (l - 1) (c + cr)
  if kept = c then some (List.range c) else if kept = 1 then some (List.replicate c 0) else none

end Verif
