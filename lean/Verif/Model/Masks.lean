import Mathlib.Analysis.SpecialFunctions.Trigonometric.Basic
import Mathlib.Analysis.SpecialFunctions.Pow.Real
import Verif.Model.Analysis
import Verif.Model.PreProc

/-!
# Model of the masks of `src/corrct/processing/misc.py`

`circular_mask` and `ball`. Positions are natural numbers along each of the `d` axes of the volume.
-/

namespace Verif

/-! ## Circular masks -/

/-- The arguments `taper_func` and `taper_target` of `circular_mask`: no tapering, or `"cos"` up to the edge, to the diagonal or to a
given offset (src/corrct/processing/misc.py:101-128). Other strings are `ValueError`s and not modelled. -/
inductive MaskTaper where
  | hard
  | cosEdge
  | cosDiagonal
  | cosTo (target : ℝ)

/-- Coordinate of the sub-pixel `i` of an axis of `n * ss` sub-pixels: `np.linspace(-(s - 1) / (2 * ss), (s - 1) / (2 * ss), s)[i]` with
`s = n * ss`, plus the origin (src/corrct/processing/misc.py:67-76). -/
noncomputable def maskCoord (n ss : ℕ) (origin : ℝ) (i : ℕ) : ℝ := -((n * ss : ℝ) - 1) / (2 * ss) + i / ss + origin

/-- The distance from the origin in the norm of order `p` over the chosen axes (src/corrct/processing/misc.py:87-92); one axis has its
absolute value. The orders are positive numbers (infinite and non-positive orders are not modelled). -/
noncomputable def ballDist {m : ℕ} (p : ℝ) (x : Fin m → ℝ) : ℝ :=
  if m = 1 then ∑ a, |x a| else (∑ a, |x a| ^ p) ^ (1 / p)

/-- Value of the mask at a distance, for the radius `r` of the mask and `e`, the smallest size among the chosen axes
(src/corrct/processing/misc.py:83, 94-131). `none` is NaN: the width of the taper is zero, so that the argument of the cosine is `0 / 0` or
infinite. -/
noncomputable def maskValue (taper : MaskTaper) (offset r e dist : ℝ) : Option ℝ :=
  let cos (cut : ℝ) : Option ℝ :=
    if cut - r = 0 then none
    else some ((Real.cos (max (dist - r) 0 / (cut - r) * Real.pi) / 2 + 1 / 2) * if dist < cut then 1 else 0)
  match taper with
  | .hard => some (if dist ≤ r then 1 else 0)
  | .cosEdge => cos (e / 2 + 0)
  | .cosDiagonal => cos (e / Real.sqrt 2 + 0)
  | .cosTo t => cos (e / 2 + max t offset)

/-- The smallest size among the chosen axes, as a number. -/
noncomputable def minSize {d m : ℕ} (shape : Fin d → ℕ) (axes : Fin (m + 1) → Fin d) : ℝ :=
  (Finset.univ.inf' Finset.univ_nonempty fun a => shape (axes a) : ℕ)

/-- `circular_mask` at the pixel `i` (src/corrct/processing/misc.py:20-130) before `np.squeeze`: `axes` is `coords_ball`; the mean of the
mask over the `ss ^ d` sub-pixels. -/
noncomputable def circularMask {d m : ℕ} (shape : Fin d → ℕ) (offset : ℝ) (axes : Fin (m + 1) → Fin d) (p : ℝ) (origin : Fin d → ℝ)
    (taper : MaskTaper) (ss : ℕ) (i : Fin d → ℕ) : Option ℝ := do
  let r := minSize shape axes / 2 + offset
  let dist : (Fin d → Fin ss) → ℝ := fun k =>
    ballDist p fun a => maskCoord (shape (axes a)) ss (origin (axes a)) (i (axes a) * ss + k (axes a))
  if ∃ k, maskValue taper offset r (minSize shape axes) (dist k) = none then none
  else some ((∑ k, (maskValue taper offset r (minSize shape axes) (dist k)).getD 0) / (ss : ℝ) ^ d)

/-- Shape of the mask (src/corrct/processing/misc.py:87-92, 133-141): with one chosen axis, `coords[coords_ball]` keeps an axis of size
one in front, that only the reshaping of the super-sampling removes. -/
def maskShape (shape : List ℕ) (chosen ss : ℕ) (squeeze : Bool) : List ℕ :=
  let s := if chosen = 1 ∧ ss ≤ 1 then 1 :: shape else shape
  if squeeze then s.filter (· ≠ 1) else s

/-- Broadcasting of shapes, from the last axis; `none` is a `ValueError`. -/
def bcastShapeRev : List ℕ → List ℕ → Option (List ℕ)
  | [], t => some t
  | s, [] => some s
  | a :: s, b :: t => do
    let n ← bcastLen a b
    let r ← bcastShapeRev s t
    some (n :: r)

/-- Shape of the product of two arrays. -/
def bcastShape (s t : List ℕ) : Option (List ℕ) := (bcastShapeRev s.reverse t.reverse).map List.reverse

/-- The shape of `img * vol_mask` in `power_spectrum` and `compute_frc` (src/corrct/processing/post.py:99-102 and :207-211), for an image
integrated over `chosen` axes. -/
def taperedShape (shape : List ℕ) (chosen : ℕ) : Option (List ℕ) := bcastShape shape (maskShape shape chosen 1 true)

/-! ## Balls -/

/-- `np.fft.fftfreq(n * ss, 1 / (n * ss))` at the sub-pixel `j`, after `np.roll` by `ss // 2`, in units of pixels
(src/corrct/processing/misc.py:161-173). -/
noncomputable def ballCoord (n ss j : ℕ) : ℝ := (fftfreq (n * ss) ((j + n * ss - ss / 2) % (n * ss)) : ℝ) / ss

/-- `ball(shape, radius, ss, func)` (src/corrct/processing/misc.py:133-178): at the position `i` of the output, that `np.fft.fftshift` moves
from `(i - n / 2) mod n`. Simplification: `func` is a function of the distance. -/
noncomputable def ball {d : ℕ} (shape : Fin d → ℕ) (radius : ℝ) (ss : ℕ) (func : Option (ℝ → ℝ)) (i : Fin d → ℕ) : ℝ :=
  let r : (Fin d → Fin ss) → ℝ := fun k =>
    Real.sqrt (∑ a, ballCoord (shape a) ss ((i a + (shape a - shape a / 2)) % shape a * ss + k a) ^ 2)
  (∑ k, (if r k < radius then 1 else 0) * func.elim 1 (fun f => f (r k))) / (ss : ℝ) ^ d

end Verif
