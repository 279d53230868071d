import Mathlib.Analysis.SpecialFunctions.Log.Base
import Mathlib.Analysis.SpecialFunctions.Pow.Real
import Mathlib.Tactic
import Verif.Model.Geometry

/-!
# Model of the fits of `src/corrct/alignment/fitting.py`, `src/corrct/alignment/shifts.py`, `src/corrct/alignment/centering.py`
and of `fit_func_min` and `get_lambda_range` of `src/corrct/param_tuning.py`
-/

namespace Verif

/-! ## Parabolas through three points -/

/-- Coefficients of a polynomial of degree two, `c + b x + a x²` (`poly.convert().coef`). -/
structure Parab where
  c : ℝ
  b : ℝ
  a : ℝ

/-- Value of the polynomial. -/
def Parab.eval (p : Parab) (x : ℝ) : ℝ := p.c + p.b * x + p.a * x ^ 2

/-- `Polynomial.fit(x, y, deg=2)` on three points: the least-squares polynomial of degree two through three points with different
abscissae is the interpolating one, here by divided differences (used at src/corrct/alignment/fitting.py:576, 793 and
src/corrct/param_tuning.py:320). -/
noncomputable def parab3 (x0 x1 x2 y0 y1 y2 : ℝ) : Parab :=
  let d01 := (y1 - y0) / (x1 - x0)
  let d12 := (y2 - y1) / (x2 - x1)
  let a := (d12 - d01) / (x2 - x0)
  let b := d01 - a * (x0 + x1)
  { a := a, b := b, c := y0 - b * x0 - a * x0 ^ 2 }

/-- `-b / 2a`. -/
noncomputable def Parab.vertex (p : Parab) : ℝ := -p.b / (2 * p.a)

/-- `np.around(x, decimals)`: rounding to the nearest multiple of `10^-d`, ties to even. -/
noncomputable def around (d : ℕ) (x : ℝ) : ℝ :=
  let y := x * 10 ^ d
  let f := ⌊y⌋
  let r : ℤ := if y - f < 1 / 2 then f else if 1 / 2 < y - f then f + 1 else if Even f then f else f + 1
  r / 10 ^ d

/-- `np.argmin`: the first position of the smallest of the first `n` values. -/
noncomputable def argmin (f : ℕ → ℝ) (n : ℕ) : ℕ :=
  (List.range n).foldl (fun m i => if f i < f m then i else m) 0

/-- The scale of a fit: `"linear"` or `"log"`. -/
inductive FitScale where
  | linear | log
  deriving DecidableEq

/-- `to_fit` (src/corrct/param_tuning.py:287-292). -/
noncomputable def FitScale.toFit : FitScale → ℝ → ℝ
  | .linear, x => x
  | .log, x => Real.logb 10 x

/-- `from_fit` (src/corrct/param_tuning.py:287-292). -/
noncomputable def FitScale.fromFit : FitScale → ℝ → ℝ
  | .linear, x => x
  | .log, x => (10 : ℝ) ^ x

/-- The first of the three indices used for the fit, around the sampled minimum (src/corrct/param_tuning.py:296-305,
src/corrct/alignment/fitting.py:778-789). -/
noncomputable def fitStart (f : ℕ → ℝ) (n : ℕ) : ℕ :=
  let m := argmin f n
  if m = 0 then 0 else if m = n - 1 then n - 3 else m - 1

/-- The parabola fitted by `fit_func_min` and `fit_parabola_min`. -/
noncomputable def fittedParab (sc : FitScale) (x f : ℕ → ℝ) (n : ℕ) : Parab :=
  let i := fitStart f n
  parab3 (sc.toFit (x i)) (sc.toFit (x (i + 1))) (sc.toFit (x (i + 2))) (f i) (f (i + 1)) (f (i + 2))

/-- `fit_func_min` (src/corrct/param_tuning.py:247-362) without its plots: `none` is the `ValueError`. The two sequences are given
by their lengths and functions. -/
noncomputable def fitFuncMin (sc : FitScale) (x : ℕ → ℝ) (nx : ℕ) (f : ℕ → ℝ) (nf : ℕ) : Option (ℝ × ℝ) :=
  if nx < 3 ∨ nf < 3 ∨ nx ≠ nf then none
  else
    let m := argmin f nf
    let p := fittedParab sc x f nf
    if p.a ≤ 0 then some (x m, f m)
    else
      let v := p.vertex
      let val := p.c + v * p.b / 2
      let xm := sc.fromFit v
      if xm < x 0 ∨ x (nx - 1) < xm then some (x m, f m) else some (xm, val)

/-- `fit_parabola_min` (src/corrct/alignment/fitting.py:727-814): as `fit_func_min`, with rounding of position and value. -/
noncomputable def fitParabolaMin (sc : FitScale) (x : ℕ → ℝ) (nx : ℕ) (f : ℕ → ℝ) (nf d : ℕ) : Option (ℝ × ℝ) :=
  if nx < 3 ∨ nf < 3 ∨ nx ≠ nf then none
  else
    let m := argmin f nf
    let p := fittedParab sc x f nf
    if p.a ≤ 0 then some (x m, f m)
    else
      let v := around d p.vertex
      let val := around d (p.c + p.vertex * p.b / 2)
      let xm := sc.fromFit v
      if xm < x 0 ∨ x (nx - 1) < xm then some (x m, f m) else some (xm, val)

/-- `refine_max_position_1d` on three values at -1, 0, 1 (as called by all the shift fits: src/corrct/alignment/fitting.py:524-602
with `f_x = None`); `none` is the `ValueError`, also raised when the division by `2a = 0` gives `nan` or infinity. -/
noncomputable def refineMax3 (y0 y1 y2 : ℝ) (d : ℕ) : Option ℝ :=
  let p := parab3 (-1) 0 1 y0 y1 y2
  let v := around d p.vertex
  if p.a ≠ 0 ∧ -1 < v ∧ v < 1 then some v else none

/-! ## Ranges of hyper-parameters -/

/-- `get_lambda_range` (src/corrct/param_tuning.py:214-244); the `1e-3` are tolerances of the code. -/
noncomputable def lambdaRange (start stop : ℝ) (numPerOrder : ℕ) (aligned : Bool) : List ℝ :=
  let step : ℝ := (10 : ℝ) ^ (1 / (numPerOrder : ℝ))
  if aligned then
    let orderStart : ℝ := (10 : ℝ) ^ ((⌊Real.logb 10 start⌋ : ℤ) : ℝ)
    let orderEnd : ℝ := (10 : ℝ) ^ ((⌈Real.logb 10 stop⌉ : ℤ) : ℝ)
    let num := ⌈numPerOrder * Real.logb 10 (orderEnd / orderStart) - 1 / 1000⌉
    ((List.range (num + 1).toNat).map fun i : ℕ => orderStart * step ^ (i : ℝ)).filter fun x =>
      decide (start ≤ x) && decide (x * (1 - 1 / 1000) ≤ stop)
  else
    let num := ⌈numPerOrder * Real.logb 10 (stop / start) - 1 / 1000⌉
    (List.range (num + 1).toNat).map fun i : ℕ => start * step ^ (i : ℝ)

/-! ## Ellipses -/

/-- `Ellipse.__call__` at one `u` (src/corrct/alignment/fitting.py:1060-1087): the two `v`. -/
noncomputable def EllPars.call (e : EllPars) (uu : ℝ) : ℝ × ℝ :=
  let w := uu - e.u
  let bt := 2 * (-e.b * e.v + e.c * w)
  let ct := -(1 - e.a * w ^ 2 - e.b * e.v ^ 2 + 2 * e.c * e.v * w)
  let δ := Real.sqrt (bt ^ 2 - 4 * e.b * ct)
  ((-bt + δ) / (2 * e.b), (-bt - δ) / (2 * e.b))

/-- `Ellipse.extremes_u` (src/corrct/alignment/fitting.py:1022-1036). -/
noncomputable def EllPars.extremesU (e : EllPars) : ℝ × ℝ := (e.u - Real.sqrt (1 / e.a), e.u + Real.sqrt (1 / e.a))

/-- From the five coefficients of `fit_ellipse_parameters`, without rescaling, to the parameters
(src/corrct/alignment/fitting.py:947-953). -/
noncomputable def ellFromCoeffs (k0 k1 k2 k3 k4 : ℝ) : EllPars :=
  let u := (k1 - k2 * k3) / (k0 - k3 ^ 2)
  let v := (k0 * k2 - k1 * k3) / (k0 - k2 * k3)
  let a := k0 / (k0 * u ^ 2 + v ^ 2 + 2 * k3 * u * v - k4)
  let b := a / k0
  { a := a, b := b, c := k3 * b, u := u, v := v }

/-- One row of the linear system of `fit_ellipse_parameters`: `vandermonde · k - values` at the (rescaled) point `(v, u)`
(src/corrct/alignment/fitting.py:925-926). -/
def ellRow (k : Fin 5 → ℝ) (v u : ℝ) : ℝ :=
  k 0 * u ^ 2 + k 1 * (-2 * u) + k 2 * (-2 * v) + k 3 * (2 * u * v) + k 4 * 1 - -v ^ 2

/-- The mean of the coordinates (`np.mean`). -/
noncomputable def meanOf {n : ℕ} (x : Fin n → ℝ) : ℝ := (∑ i, x i) / n

/-- `np.abs(p - c).max()`. -/
noncomputable def absMaxOf {n : ℕ} (x : Fin n → ℝ) (c : ℝ) : ℝ := ⨆ i, |x i - c|

/-- `np.linalg.lstsq`: a minimiser of the sum of the squares of the rows. (Which one, if there are many, is not modelled.) -/
def IsLstsq {n m : ℕ} (rows : (Fin m → ℝ) → Fin n → ℝ) (k : Fin m → ℝ) : Prop :=
  ∀ k', ∑ i, (rows k i) ^ 2 ≤ ∑ i, (rows k' i) ^ 2

/-- `fit_ellipse_parameters` with the default norm (src/corrct/alignment/fitting.py:883-958): `e` is a possible result. The centre and
the scales are `0` and `1` without `rescale`. -/
def FitEllipse {n : ℕ} (rescale : Bool) (v u : Fin n → ℝ) (e : EllPars) : Prop :=
  let cu := if rescale then meanOf u else 0
  let cv := if rescale then meanOf v else 0
  let su := if rescale then absMaxOf u cu else 1
  let sv := if rescale then absMaxOf v cv else 1
  ∃ k : Fin 5 → ℝ, IsLstsq (fun k (i : Fin n) => ellRow k ((v i - cv) / sv) ((u i - cu) / su)) k ∧
    let f := ellFromCoeffs (k 0 * (sv ^ 2 / su ^ 2)) (k 1 * (sv ^ 2 / su)) (k 2 * sv) (k 3 * (sv / su)) (k 4 * sv ^ 2)
    e = { f with u := f.u + cu, v := f.v + cv }

/-- One row of the linear system of `fit_ellipse_center` for the pair of points `(v1, u1)`, `(v2, u2)` and centre `(k 0, k 1)`
(src/corrct/alignment/fitting.py:856-865): `vandermonde · p - values`. -/
def centerRow (v1 u1 v2 u2 : ℝ) (k : Fin 2 → ℝ) : ℝ := (u2 - u1) * k 0 + -(v2 - v1) * k 1 - (v1 * u2 - u1 * v2)

/-- `np.max(p) - np.min(p)`. -/
noncomputable def rangeOf {n : ℕ} (x : Fin n → ℝ) : ℝ := (⨆ i, x i) - ⨅ i, x i

/-- `fit_ellipse_center` for an even number `2 n` of points, given as the first and the second half, before the rounding
(src/corrct/alignment/fitting.py:817-880, default norm): `(cv, cu)` is a possible result. The ranges are those of all the points. -/
def FitCenter {n : ℕ} (rescale : Bool) (v1 u1 v2 u2 : Fin n → ℝ) (cv cu : ℝ) : Prop :=
  let mv := ((∑ i, v1 i) + ∑ i, v2 i) / (2 * n)
  let mu := ((∑ i, u1 i) + ∑ i, u2 i) / (2 * n)
  let sv := if rescale then rangeOf (Fin.append v1 v2) else 1
  let su := if rescale then rangeOf (Fin.append u1 u2) else 1
  ∃ k : Fin 2 → ℝ, IsLstsq (fun k (i : Fin n) =>
      centerRow ((v1 i - mv) / sv) ((u1 i - mu) / su) ((v2 i - mv) / sv) ((u2 i - mu) / su) k) k ∧
    cv = k 0 * sv + mv ∧ cu = k 1 * su + mu

/-! ## Order of the shifts -/

/-- `np.cumsum` of the shifts between adjacent projections in order of angle (src/corrct/alignment/shifts.py:374-382):
`order` is `angles_order`, `find i j` is the result of `find_shifts_vu` on projections `i` and `j`. -/
def accumShift {n : ℕ} (order : Equiv.Perm (Fin n)) (find : Fin n → Fin n → ℝ) : (i : ℕ) → i < n → ℝ
  | 0, _ => 0
  | i + 1, h => accumShift order find i (Nat.lt_of_succ_lt h) + find (order ⟨i, Nat.lt_of_succ_lt h⟩) (order ⟨i + 1, h⟩)

/-- The vertical shifts of `DetectorShiftsXC.fit_vu` (src/corrct/alignment/shifts.py:357-413), before the indexing of the last line:
the `i`-th is that of the `i`-th projection in order of angle. -/
noncomputable def fitVSorted {n : ℕ} (order : Equiv.Perm (Fin n)) (find : Fin n → Fin n → ℝ) (d : ℕ) (i : Fin n) : ℝ :=
  around d (accumShift order find i i.2 - meanOf fun k : Fin n => accumShift order find k k.2)

/-- The horizontal shifts, before the indexing of the last line; `motion` is the sinusoid that `fit_sinusoid` fitted (not modelled,
it is a non-linear fit of SciPy), `maxShift` the limits. -/
noncomputable def fitUSorted {n : ℕ} (order : Equiv.Perm (Fin n)) (find : Fin n → Fin n → ℝ) (motion : Fin n → ℝ) (maxShift : ℝ)
    (d : ℕ) (i : Fin n) : ℝ :=
  around d (let s := accumShift order find i i.2 - motion i; if maxShift < |s| then 0 else s)

/-- The last line of `DetectorShiftsXC.fit_vu`: `shifts_vu[:, list(angles_order)]` (src/corrct/alignment/shifts.py:413). -/
def shiftsReturned {n : ℕ} (order : Equiv.Perm (Fin n)) (sorted : Fin n → ℝ) : Fin n → ℝ := fun j => sorted (order j)

/-! ## Re-centring -/

/-- One coordinate of `com` (src/corrct/processing/post.py:30-60): `line` is the sum of the absolute values over the other axes, the
coordinates are `linspace(-(s - 1) / 2, (s - 1) / 2, s)`. -/
noncomputable def comLine {s : ℕ} (line : Fin s → ℝ) : ℝ :=
  (∑ i, line i * ((i : ℕ) - ((s : ℝ) - 1) / 2)) / ∑ i, line i

/-- `com` of a volume in `z, y, x` order (src/corrct/processing/post.py:30-60), as a vector with named coordinates. -/
noncomputable def comVolume {a b c : ℕ} (vol : Fin a → Fin b → Fin c → ℝ) : V3 where
  z := comLine fun i => ∑ j, ∑ k, |vol i j k|
  y := comLine fun j => ∑ i, ∑ k, |vol i j k|
  x := comLine fun k => ∑ i, ∑ j, |vol i j k|

/-- `RecenterVolume.to_com` for one angle, with detector axes `u`, `v` of the rotated geometry, and precision `d`
(src/corrct/alignment/centering.py:33-56): the new `(v, u)` shifts. -/
noncomputable def recentreToCom {a b c : ℕ} (u v : V3) (shifts : ℝ × ℝ) (vol : Fin a → Fin b → Fin c → ℝ) (ref : V3) (d : ℕ) : ℝ × ℝ :=
  let disp := ref - comVolume vol
  (around d (shifts.1 + (projectDisplacement u v disp).1), around d (shifts.2 + (projectDisplacement u v disp).2))

end Verif
