import Verif.Model.IntegerData
import Verif.Model.PreProc
import Mathlib.Algebra.Polynomial.Eval.Degree

/-!
# Model of parts of src/corrct/processing/pre.py: polynomial backgrounds, and integer images
-/

namespace Verif
open Polynomial

namespace PreTypes

/-- `xdata` and `ydata` of one angle (src/corrct/processing/pre.py:274-278): the pixels of the margins, with the average of their values over the `V` rows of the
detector. -/
noncomputable def marginPoints {V : ℕ} (n m0 m1 : ℕ) (data : Fin V → ℕ → ℝ) : List (ℝ × ℝ) :=
  (List.range m0 ++ (List.range m1).map (n - m1 + ·)).map fun (u : ℕ) => ((u : ℝ), (∑ v, data v u) / V)

/-- Outcome of `background_from_margin` for one angle: an exception, or the values of the background at the pixels `u` (the same for all rows of the detector). -/
inductive Background where
  | valueError
  | row (b : ℕ → ℝ)

/-- `background_from_margin` for one angle of data of a type (src/corrct/processing/pre.py:260-304). `fit pts deg` is NumPy's `Polynomial.fit`. The background of
order zero is an array of floating point numbers; that of a higher order has the type of the data (:280). Data with more than three axes are not modelled. -/
noncomputable def background {V : ℕ} (fit : List (ℝ × ℝ) → ℕ → ℝ[X]) (t : NumType) (n m0 m1 order : ℕ) (data : Fin V → ℕ → ℝ) : Background :=
  if n < m0 + m1 then .valueError
  else if 0 < order ∧ m0 ≠ 0 ∧ m1 ≠ 0 then .row fun u => t.store ((fit (marginPoints n m0 m1 data) order).eval (u : ℝ))
  else .row fun _ => (∑ v, (∑ u ∈ Finset.range m0, data v u + ∑ u ∈ Finset.Ico (pyTailStart n m1) n, data v u) / (m0 + m1 : ℕ)) / V

/-- `snip` for images of a type (src/corrct/processing/pre.py:341-351): the kernel has the type of the image, and is divided in place. -/
noncomputable def snipTyped {d : ℕ} (t : NumType) (window : ℕ) (shape : Fin d → ℕ) (iterations : ℕ) (img : (Fin d → ℤ) → ℝ) :
    Except TErr ((Fin d → ℤ) → ℝ) :=
  open Classical in if t.inPlaceDivOk then .ok (snip window shape iterations img) else .error .typeError

/-- `background_from_snip` for data of a type, at least one angle (src/corrct/processing/pre.py:376-387), without smoothing. -/
noncomputable def backgroundFromSnipTyped {d : ℕ} (t : NumType) (W : ℕ) (shape : Fin d → ℕ) (iterations : ℕ) (data : Fin W → (Fin d → ℤ) → ℝ) :
    Except TErr (Fin W → (Fin d → ℤ) → ℝ) :=
  open Classical in if W = 0 ∨ t.inPlaceDivOk then .ok (backgroundFromSnip W shape iterations none data) else .error .typeError

/-- What `scipy.ndimage` writes to an array of a type: integers are rounded, halves away from zero. -/
noncomputable def interpOut : NumType → ℝ → ℝ
  | .float, v => v
  | _, v => if 0 < v then ConeBeam.trunc (v + 1 / 2) else ConeBeam.trunc (v - 1 / 2)

/-- `shift_proj_stack` without Fourier transforms for data of a type (src/corrct/processing/pre.py:166-177). -/
noncomputable def shiftProjStackTyped {d : ℕ} (t : NumType) (W : ℕ) (shape : Fin d → ℕ) (data : Fin W → (Fin d → ℤ) → ℝ) (shifts : Fin W → Fin d → ℝ) :
    Fin W → (Fin d → ℤ) → ℝ := fun w i => interpOut t (shiftProjStack W shape data shifts w i)

end PreTypes

end Verif
