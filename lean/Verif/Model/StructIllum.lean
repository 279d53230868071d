import Mathlib.Data.ZMod.Basic
import Mathlib.Analysis.SpecialFunctions.Complex.CircleAddChar
import Mathlib.Tactic
import Verif.Model.Physics

/-!
# Model of `src/corrct/struct_illum.py`
-/

namespace Verif

/-! ## Shifts -/

/-- `np.arange(0, n, k)` for `k ≥ 1`. -/
def arangeStep (n k : ℕ) : List ℕ := (List.range ((n + k - 1) / k)).map fun i => i * k

/-- `get_interval_shifts` for the default order of the axes (src/corrct/struct_illum.py:566-589): the vertical and horizontal shifts are
paired. `none` is an `IndexError`, for less than two axes. -/
def intervalShifts (shape : List ℕ) (k : ℕ) : Option (List (ℕ × ℕ)) :=
  match shape.reverse with
  | u :: v :: _ => some ((arangeStep v k).flatMap fun a => (arangeStep u k).map fun b => (a, b))
  | _ => none

/-- `get_sequential_shifts` (src/corrct/struct_illum.py:612-630). -/
def sequentialShifts (shape : List ℕ) (num : Option ℕ) : Option (List (ℕ × ℕ)) := do
  let d ← intervalShifts shape 1
  some (num.elim d fun n => d.take n)

/-- `get_random_shifts` (src/corrct/struct_illum.py:591-610), `perm` the permutation of `0 … prod(shape) - 1` that is drawn. -/
def randomShifts (shape : List ℕ) (num : ℕ) (perm : List ℕ) : Option (List (ℕ × ℕ)) := do
  let d ← intervalShifts shape 1
  some ((perm.take (min num shape.prod)).map fun i => d.getD i (0, 0))

/-- `shift_type`. -/
inductive ShiftType where
  | random (perm : List ℕ)
  | interval
  | sequential

/-- The shifts of `generate_collection` (src/corrct/struct_illum.py:472-520), for the shapes of the field of view and of the shifts. -/
noncomputable def collectionShifts (shapeFov shapeShifts : List ℕ) (fraction : ℝ) (t : ShiftType) : Option (List (ℕ × ℕ)) :=
  match t with
  | .random perm => randomShifts shapeShifts ⌈(shapeFov.prod : ℝ) * fraction⌉₊ perm
  | .interval => intervalShifts shapeShifts ⌈1 / fraction⌉₊
  | .sequential => sequentialShifts shapeShifts (some ⌈(shapeFov.prod : ℝ) * fraction⌉₊)

/-- `_init_fov_mm`: the number of points for each size of the field of view (src/corrct/struct_illum.py:465-470). -/
noncomputable def initFov (sizes : List ℝ) (res : ℝ) : List ℕ := sizes.map fun s => ⌈s / res⌉₊

/-- `_apply_transmission` (src/corrct/struct_illum.py:522-523). -/
def applyTransmission (t m : ℝ) : ℝ := 1 - (1 - m) * t

/-! ## MURA masks -/

/-- `num_points` of `MaskGeneratorMURA` (src/corrct/struct_illum.py:776-777). -/
noncomputable def muraPoints (fov res : ℝ) : ℕ := 4 * ⌈(fov / res - 1) / 4⌉₊ + 1

/-- `mask_1d` (src/corrct/struct_illum.py:780-783): one at the squares of `1 … n - 1`. -/
def muraRow {n : ℕ} [NeZero n] (i : ZMod n) : ℤ := if ∃ k : ZMod n, k ≠ 0 ∧ k ^ 2 = i then 1 else 0

/-- `masks_enc` (src/corrct/struct_illum.py:785-787). -/
def muraEnc {n : ℕ} [NeZero n] (i j : ZMod n) : ℤ :=
  if i = 0 then 0 else if j = 0 then 1 else muraRow i * muraRow j + (1 - muraRow i) * (1 - muraRow j)

/-- `masks_dec` (src/corrct/struct_illum.py:789-790). -/
def muraDec {n : ℕ} [NeZero n] (i j : ZMod n) : ℤ := if i = 0 ∧ j = 0 then 1 else muraEnc i j

/-- `generate_shifted_mask` of `MaskGeneratorMURA` (src/corrct/struct_illum.py:795-818): `np.roll` along both axes, then the transmission. -/
def muraShifted {n : ℕ} [NeZero n] (t : ℝ) (encoding : Bool) (s : ℕ × ℕ) (i j : ZMod n) : ℝ :=
  applyTransmission t ((if encoding then muraEnc (i - (s.1 : ZMod n)) (j - (s.2 : ZMod n)) else
    muraDec (i - (s.1 : ZMod n)) (j - (s.2 : ZMod n)) : ℤ) : ℝ)

/-- `test_prime` (src/corrct/struct_illum.py:838-840): no divisor among `2 … x / 2 - 1`. -/
def testPrime (x : ℕ) : Bool := (List.range x).all fun d => !(decide (2 ≤ d) && decide (d < x / 2) && decide (x % d = 0))

/-- `compute_possible_mask_sizes` (src/corrct/struct_illum.py:821-845); `none` is the `IndexError` of an empty list of values, which makes
an array of floating-point numbers as index. -/
def possibleSizes (fov : ℕ) : Option (List ℕ) :=
  let values := (List.range ((fov - 1) / 4 - 1)).map fun i => (i + 1) * 4 + 1
  if values = [] then none else some (values.filter testPrime)

/-! ## Ghost imaging -/

/-- `ProjectorGhostImaging.fp` of an image with pixels `X`, for `M` masks (src/corrct/struct_illum.py:900-928). -/
def ghostFp {M X : Type} [Fintype X] (enc : M → X → ℝ) (img : X → ℝ) (m : M) : ℝ := ∑ x, img x * enc m x

/-- `ProjectorGhostImaging.bp` (src/corrct/struct_illum.py:930-960). -/
def ghostBp {M X : Type} [Fintype M] (dec : M → X → ℝ) (b : M → ℝ) (x : X) : ℝ := ∑ m, b m * dec m x

/-- `fp` for a list of shifted masks. -/
def ghostFpList {S X : Type} [Fintype X] (shifts : List S) (enc : S → X → ℝ) (img : X → ℝ) : List ℝ :=
  shifts.map fun s => ∑ x, img x * enc s x

/-- `bp` for a list of shifted masks. -/
def ghostBpList {S X : Type} (shifts : List S) (dec : S → X → ℝ) (b : List ℝ) (x : X) : ℝ :=
  (List.zipWith (fun c s => c * dec s x) b shifts).sum

/-- `np.roll(x, -shift)` of a list, `shift` of any sign. -/
def rollLeft {α : Type} (l : List α) (shift : ℤ) : List α := l.rotate (shift % l.length).toNat

/-- `reorder_masks` for a list of masks, and buckets with one value per mask and row (src/corrct/struct_illum.py:37-60): `np.roll` without
axis works on the flattened array, that takes its shape back afterwards (`n` values per row). -/
def reorderMasks {α β : Type} (masks : List α) (rows : List (List β)) (shift : ℤ) : List α × List (List β) :=
  (rollLeft masks shift, (List.range rows.length).map fun r =>
    ((rollLeft rows.flatten shift).drop (r * masks.length)).take masks.length)

/-- What `ProjectorGhostImaging.fbp` uses for the reconstruction (src/corrct/struct_illum.py:1003-1010); `same`: the decoding masks are equal
to the encoding masks. -/
def ghostFbpUsesBp (same useLstsq : Bool) : Bool := !same && !useLstsq

/-- `get_qr_decomposition` on the buckets (src/corrct/struct_illum.py:297-329, 63-91): `masks.T = Q R`, new masks `Q.T`, new buckets
`inv(R.T) b`. -/
noncomputable def qrBuckets {m : ℕ} (R : Matrix (Fin m) (Fin m) ℝ) (b : Fin m → ℝ) : Fin m → ℝ := (R.transpose)⁻¹.mulVec b

/-- `adjust_sampling_scaling` for images of `m × n` pixels (src/corrct/struct_illum.py:962-984). The transforms are normalised (`ortho`); the
real transform with the shape given is the full one. -/
noncomputable def adjustSampling {m n : ℕ} [NeZero m] [NeZero n] (buckets : ℕ) (img : ZMod m → ZMod n → ℝ) (a : ZMod m) (b : ZMod n) : ℝ :=
  let ratio : ℝ := buckets / (m * n : ℕ)
  ((∑ k, ∑ l, fft2 img k l / (Real.sqrt (m * n : ℕ) : ℂ) * ((if k = 0 ∧ l = 0 then 1 else 1 / ratio : ℝ) : ℂ) *
    (ZMod.stdAddChar (k * a) * ZMod.stdAddChar (l * b))) / (Real.sqrt (m * n : ℕ) : ℂ)).re

/-- `np.squeeze` of a shape. -/
def squeezeShape (s : List ℕ) : List ℕ := s.filter fun d => d ≠ 1

/-- `np.squeeze(np.array(x, ndmin=3).swapaxes(-3, -2))` on shapes with at most three axes (src/corrct/struct_illum.py:1064, 1081). -/
def swapSqueeze (s : List ℕ) : Option (List ℕ) :=
  match s with
  | [c] => some (squeezeShape [1, 1, c])
  | [b, c] => some (squeezeShape [b, 1, c])
  | [a, b, c] => some (squeezeShape [b, a, c])
  | _ => none

/-- The shape of `ProjectorGhostImaging.fp` for images of the shape `s` and `m` masks with `d` axes of the shape `fov`
(src/corrct/struct_illum.py:913-928); `none` is an error of the product. -/
def ghostFpShape (m : ℕ) (fov : List ℕ) (s : List ℕ) : Option (List ℕ) :=
  let front := s.take (s.length - fov.length)
  let back := s.drop (s.length - fov.length)
  if back.prod = fov.prod then some (squeezeShape (front ++ [m])) else none

/-- The shape of `ProjectorGhostImaging.bp` for buckets of the shape `s` (src/corrct/struct_illum.py:945-960). -/
def ghostBpShape (m : ℕ) (fov : List ℕ) (s : List ℕ) : Option (List ℕ) :=
  if s.getLast? = some m then some (s.dropLast ++ fov) else none

/-- The shape that `ProjectorGhostTomography.fp` returns for projections `V × W × U` (src/corrct/struct_illum.py:1050-1065). -/
def ghostTomoFpShape (m v w u : ℕ) : Option (List ℕ) := do ghostFpShape m [v, u] (← swapSqueeze [v, w, u])

/-- The shape of the projections that `ProjectorGhostTomography.bp` hands to the tomographic projector (src/corrct/struct_illum.py:1067-1082),
for the buckets that `fp` returns. -/
def ghostTomoBpShape (m v w u : ℕ) : Option (List ℕ) := do swapSqueeze (← ghostBpShape m [v, u] (← ghostTomoFpShape m v w u))

/-- `ProjectorGhostTomography.fp` on the values, with the axes in place: `T` is the tomographic projector (src/corrct/struct_illum.py:1050-1065). -/
def ghostTomoFp {J V W U M : Type} [Fintype V] [Fintype U] (T : (J → ℝ) → V → W → U → ℝ) (enc : M → V → U → ℝ) (vol : J → ℝ) (w : W) (m : M) : ℝ :=
  ∑ v, ∑ u, T vol v w u * enc m v u

/-- `ProjectorGhostTomography.bp`, `Tt` the back-projector (src/corrct/struct_illum.py:1067-1082). -/
def ghostTomoBp {J V W U M : Type} [Fintype M] (Tt : (V → W → U → ℝ) → J → ℝ) (dec : M → V → U → ℝ) (b : W → M → ℝ) : J → ℝ :=
  Tt fun v w u => ∑ m, b w m * dec m v u

/-- Outcome of `ProjectorGhostTomography.__init__` (src/corrct/struct_illum.py:1037-1048): the message of the `ValueError` reads
`self.tomo_proj`, that is not yet there. -/
inductive GhostInit where
  | ok | valueError | attributeError
  deriving DecidableEq

/-- The check of the shapes; `dir` is the shape of the projections (src/corrct/struct_illum.py:1040-1046). -/
def ghostTomoInit (fov dir : List ℕ) : GhostInit :=
  let shape := dir.take (dir.length - 2) ++ dir.drop (dir.length - 1)
  if shape.length ≠ fov.length ∨ shape ≠ fov then .attributeError else .ok

end Verif
