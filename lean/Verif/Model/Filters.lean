import Mathlib.Analysis.SpecialFunctions.Log.Base
import Mathlib.Tactic
import Verif.Model.CrossCorrelation

/-!
# Model of `src/corrct/filters.py`

Rows of `N` pixels are functions of the natural positions `j < N`. The rows of a sinogram are filtered independently.
-/

namespace Verif

open ZMod Complex

/-- `get_padding_size`: `max(64, int(2 ** np.ceil(np.log2(2 * N))))` (src/corrct/filters.py:284-297). -/
noncomputable def paddingSize (N : ℕ) : ℕ := max 64 (2 ^ ⌈Real.logb 2 (2 * N)⌉₊)

noncomputable instance (N : ℕ) : NeZero (paddingSize N) := ⟨by unfold paddingSize; positivity⟩

/-- The padding modes `"constant"` and `"edge"` of `np.pad`; the others are not modelled. -/
inductive RowPad where
  | constant | edge
  deriving DecidableEq

/-- The padding of a row of `N` pixels to `P`, half on each side, followed by the `np.roll` that brings the first pixel to the first
position (src/corrct/filters.py:368-374). -/
noncomputable def padRoll (mode : RowPad) (P N : ℕ) (data : ℕ → ℝ) (j : ℕ) : ℝ :=
  let left := (P - N + 1) / 2
  let i := (j + left) % P
  if i < left then (match mode with | .constant => 0 | .edge => data 0)
  else if i < left + N then data (i - left)
  else (match mode with | .constant => 0 | .edge => data (N - 1))

/-- `np.fft.fft` of a real row of `P` values. -/
noncomputable def dft1 (P : ℕ) [NeZero P] (x : ZMod P → ℝ) (k : ZMod P) : ℂ := ∑ i, (x i : ℂ) * stdAddChar (-(k * i))

/-- `to_real` of a spectrum given on the frequencies `0 … P / 2` (`use_rfft`) or `0 … P - 1` (src/corrct/filters.py:305-309): the inverse
transform, of which the real part is taken. -/
noncomputable def toReal (rfft : Bool) (P : ℕ) [NeZero P] (Y : ℕ → ℂ) (j : ℕ) : ℝ :=
  if rfft then irfftDefault P Y j else ((∑ l : ZMod P, Y l.val * stdAddChar (l * (j : ZMod P))) / P).re

/-- `apply_filter` on one row, for padded rows of size `P` and the filter `F`, an array of real numbers over the frequencies
(src/corrct/filters.py:346-393). The first `N` values are returned. -/
noncomputable def applyFilterAt (P : ℕ) [NeZero P] (rfft : Bool) (mode : RowPad) (N : ℕ) (F : ℕ → ℝ) (data : ℕ → ℝ) (j : ℕ) : ℝ :=
  toReal rfft P (fun l => dft1 P (fun i => padRoll mode P N data i.val) (l : ZMod P) * F l) j

/-- `Filter.apply_filter` on one row. A filter `None` is the array `[1.0]`, that broadcasts (src/corrct/filters.py:279-280). -/
noncomputable def applyFilter (rfft : Bool) (mode : RowPad) (N : ℕ) (F : Option (ℕ → ℝ)) (data : ℕ → ℝ) (j : ℕ) : ℝ :=
  applyFilterAt (paddingSize N) rfft mode N (F.getD fun _ => 1) data j

/-- The getter of `filter_real`: `np.fft.fftshift` of the inverse transform (src/corrct/filters.py:322-332), for a filter with complex
entries. -/
noncomputable def filterRealGet (rfft : Bool) (P : ℕ) [NeZero P] (F : ℕ → ℂ) (j : ZMod P) : ℝ :=
  toReal rfft P F (j - (P / 2 : ℕ) : ZMod P).val

/-- The setter of `filter_real`: the transform of the given array (src/corrct/filters.py:334-336). -/
noncomputable def filterRealSet (P : ℕ) [NeZero P] (r : ZMod P → ℝ) (l : ℕ) : ℂ := dft1 P r (l : ZMod P)

/-! ## Bases -/

/-- `binning_type` of `create_basis`. -/
inductive BinningType where
  | exponential | incremental | custom | invalid
  deriving DecidableEq

/-- The size of the next window (src/corrct/filters.py:145-153), with the position already advanced; `none` is a `ValueError`. -/
def nextWindow (type : BinningType) (start : Option ℕ) (pos size : ℕ) : Option ℕ :=
  match start with
  | none => some size
  | some s =>
    if s < pos then
      match type with
      | .exponential => some (2 * size)
      | .incremental => some (size + 1)
      | .custom => some (size + Nat.sqrt (pos - s))
      | .invalid => none
    else some size

/-- Outcome of the loop of `create_basis`. -/
inductive BasisResult where
  | valueError
  | notTerminated
  | windows (w : List (ℕ × ℕ))

/-- The loop of `create_basis` (src/corrct/filters.py:122-153) with at most `fuel` rounds: the positions and sizes of the windows. `M` is
the largest position, `num_pixels // 2`. -/
def basisLoop (type : BinningType) (start : Option ℕ) (M : ℕ) : ℕ → ℕ → ℕ → List (ℕ × ℕ) → BasisResult
  | fuel, pos, size, acc =>
    if M ≤ pos then .windows acc.reverse
    else match fuel with
      | 0 => .notTerminated
      | fuel + 1 =>
        match nextWindow type start (pos + size) size with
        | none => .valueError
        | some size' => basisLoop type start M fuel (pos + size) size' ((pos, size) :: acc)

/-- The windows of `create_basis(num_pixels, …)`, with at most `fuel` rounds of the loop. -/
def basisWindows (type : BinningType) (start : Option ℕ) (n fuel : ℕ) : BasisResult := basisLoop type start (n / 2) fuel 0 1 []

/-- `|np.fft.fftfreq(n, 1/n)|` (src/corrct/filters.py:120). -/
def filterPos (n i : ℕ) : ℕ := (fftfreq n i).natAbs

/-- A function of order zero: the indicator of a window, over its size if normalised (src/corrct/filters.py:129-138). -/
noncomputable def basis0 (n : ℕ) (normalized : Bool) (w : ℕ × ℕ) (i : ℕ) : ℝ :=
  if w.1 ≤ filterPos n i ∧ filterPos n i < w.1 + w.2 then (if normalized then 1 / w.2 else 1) else 0

/-- A function of order one before the orthogonalisation: `fmax(1 - x / (position + size), 0)` (src/corrct/filters.py:140). -/
noncomputable def basis1 (n : ℕ) (w : ℕ × ℕ) (i : Fin n) : ℝ := max (1 - (filterPos n i : ℝ) / (w.1 + w.2 : ℕ)) 0

/-- Inner product of two rows of the basis. -/
noncomputable def rowDot {n : ℕ} (u v : Fin n → ℝ) : ℝ := ∑ i, u i * v i

/-- The inner loop of the orthogonalisation: the projections on the previous vectors are removed one after the other
(src/corrct/filters.py:159-162). -/
noncomputable def removeProjections {n : ℕ} (prev : List (Fin n → ℝ)) (v : Fin n → ℝ) : Fin n → ℝ :=
  prev.foldl (fun v u => fun i => v i - u i * rowDot u v / rowDot u u) v

/-- The orthogonalisation (src/corrct/filters.py:157-162): the list is built in order. -/
noncomputable def orthogonalise {n : ℕ} (vs : List (Fin n → ℝ)) : List (Fin n → ℝ) :=
  vs.foldl (fun done v => done ++ [removeProjections done v]) []

/-- `basis_r /= np.linalg.norm(basis_r, ord=1, axis=-1, keepdims=True)` (src/corrct/filters.py:163-164). -/
noncomputable def normaliseRow {n : ℕ} (v : Fin n → ℝ) : Fin n → ℝ := fun i => v i / ∑ j, |v j|

/-- `create_basis` with `order = 1`, from its windows (src/corrct/filters.py:155-166). -/
noncomputable def createBasis1 (n : ℕ) (normalized : Bool) (w : List (ℕ × ℕ)) : List (Fin n → ℝ) :=
  let b := orthogonalise (w.map (basis1 n))
  if normalized then b.map normaliseRow else b

/-! ## Data-dependent filters -/

/-- The state of a `FilterMR` and one call (src/corrct/filters.py:586-646): the basis is created at the first call, for the padded size of
the data of that call; later calls use it whatever the data. The new state, and the size of the basis in use; `none` is the `ValueError`
of NumPy for the product of a spectrum and a filter of different sizes. -/
noncomputable def mrCall (state : Option ℕ) (N : ℕ) : Option ℕ × Option ℕ :=
  let size := state.getD (paddingSize N)
  (some size, if size = paddingSize N then some size else none)

/-- The matrix of `FilterMR.compute_filter`, one column per function of the basis (src/corrct/filters.py:615-646): the data filtered with
that function, back-projected, masked, and projected again, above `lambda_smooth` times the differences of the image. `prj` and `bp` are
the projector and its transpose, `filt F` is the data filtered by `F`, `diff` gives the differences along both axes. -/
noncomputable def mrColumn {Φ S V D : Type} (filt : Φ → S → ℝ) (prj : (V → ℝ) → S → ℝ) (bp : (S → ℝ) → V → ℝ) (mask : V → ℝ)
    (diff : (V → ℝ) → D → ℝ) (lam : ℝ) (F : Φ) : (S ⊕ D) → ℝ :=
  let img : V → ℝ := fun v => bp (filt F) v * mask v
  Sum.elim (prj img) (fun q => lam * diff img q)

end Verif
