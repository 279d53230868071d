import Verif.Model.StationaryWavelets

/-!
# Model of the decimated wavelet transform and of the primal proximal of its regularizer

`TransformDecimatedWavelet` (src/corrct/operators.py:523-634) with the transforms of PyWavelets written out (`pywt.wavedecn`, `pywt.waverecn`), and
`Regularizer_dwl.apply_proximal_primal` with the l1 norm (src/corrct/regularizers.py:995-1047). An image is a function of integer multi-indices together
with its shape, of which only the values inside the shape count. The coefficients are given by band: `pywt.coeffs_to_array` puts the bands into
disjoint blocks of one array, `pywt.array_to_coeffs` takes them out again (the gaps between the blocks are zero and are not read).
-/

namespace Verif
open Classical

/-- Images: values at integer multi-indices. -/
abbrev Img (κ : Type) := (κ → ℤ) → ℝ

/-- The modes of `pywt.Modes` that are modelled (left out: "smooth", "antisymmetric", "antireflect"). -/
inductive DwtMode where
  | zero | constant | symmetric | periodic | reflect | periodization
  deriving DecidableEq

/-- `pywt.Modes.modes`. -/
def pywtModes : List String :=
  ["zero", "constant", "symmetric", "periodic", "smooth", "periodization", "reflect", "antisymmetric", "antireflect"]

/-- The modes of `numpy.pad`, which the documentation of `pad_on_demand` names (src/corrct/operators.py:547-549). -/
def numpyPadModes : List String :=
  ["constant", "edge", "linear_ramp", "maximum", "mean", "median", "minimum", "reflect", "symmetric", "wrap", "empty"]

/-- `TransformDecimatedWavelet.__init__` (src/corrct/operators.py:526-586): `pywt.wavedecn_shapes` raises `ValueError` for modes that it does not know. -/
def dwtInitOk (padOnDemand : String) : Bool := pywtModes.contains padOnDemand

/-- The default of `pad_on_demand` (src/corrct/operators.py:532). -/
def dwtDefaultPad : String := "edge"

variable {L : ℕ} {κ : Type} [DecidableEq κ] {m : ℕ}

/-- `pywt.dwt_coeff_len`. -/
def dwtLen (mode : DwtMode) (L N : ℕ) : ℕ := if mode = .periodization then (N + 1) / 2 else (N + L - 1) / 2

/-- The period of "periodization": the even one of `N` and `N + 1`. -/
def evenUp (N : ℕ) : ℕ := N + N % 2

/-- The entry that position `i` of the extended row of `N` entries repeats; `none`: zero. -/
def extPos (mode : DwtMode) (N : ℕ) (i : ℤ) : Option ℤ :=
  match mode with
  | .zero => if 0 ≤ i ∧ i < N then some i else none
  | .constant => some (max 0 (min ((N : ℤ) - 1) i))
  | .symmetric => let r := i % (2 * (N : ℤ)); some (if r < N then r else 2 * N - 1 - r)
  | .periodic => some (i % N)
  | .reflect => let r := i % (2 * (N : ℤ) - 2); some (if r < N then r else 2 * N - 2 - r)
  | .periodization => some (min (i % (evenUp N : ℤ)) ((N : ℤ) - 1))

/-- The position of tap 0 in the first coefficient: 1, or for "periodization" `L / 2`. -/
def dwtOff (mode : DwtMode) (L : ℕ) : ℤ := if mode = .periodization then ((L / 2 : ℕ) : ℤ) else 1

/-- The multi-index with another coordinate `a`. -/
def setAt (p : κ → ℤ) (a : κ) (i : ℤ) : κ → ℤ := fun k => if k = a then i else p k

/-- One filter of one level of `pywt.dwt` along axis `a` of an image of `N` entries along it (as called at src/corrct/operators.py:602): every second value of the
convolution of the extended rows with the filter. -/
noncomputable def dwtAxis (f : Fin L → ℝ) (mode : DwtMode) (N : ℕ) (a : κ) (x : Img κ) : Img κ := fun q =>
  ∑ j : Fin L, f j * match extPos mode N (2 * q a + dwtOff mode L - (j : ℕ)) with
    | none => 0
    | some i => x (setAt q a i)

/-- Position `i` before the extension stands for entry `t`: in the inverse transform, where nothing is extended, except that "periodization" is periodic. -/
def dwtHit (mode : DwtMode) (N : ℕ) (i t : ℤ) : Prop := if mode = .periodization then (evenUp N : ℤ) ∣ i - t else i = t

/-- One filter of one level of `pywt.idwt` along axis `a`, restricted to the `N` entries (as called at src/corrct/operators.py:618; `waverecn` and
src/corrct/operators.py:619-621 drop the entries beyond): the upsampled coefficients are convolved with the reconstruction filter. -/
noncomputable def idwtAxis (f : Fin L → ℝ) (mode : DwtMode) (N : ℕ) (a : κ) (y : Img κ) : Img κ := fun p =>
  ∑ k ∈ Finset.range (dwtLen mode L N), ∑ j : Fin L,
    if dwtHit mode N (2 * (k : ℤ) + dwtOff mode L - (j : ℕ)) (p a) then f j.rev * y (setAt p a k) else 0

/-- The shape after one level along axis `a`. -/
def decShape (mode : DwtMode) (L : ℕ) (n : κ → ℕ) (a : κ) : κ → ℕ := fun k => if k = a then dwtLen mode L (n k) else n k

/-- A band of one level of `pywt.wavedecn`, of an image of the shape `n`: the filters of the label, one along each axis. -/
noncomputable def dbandDec (w : FilterBank L) (mode : DwtMode) : List (κ × Bool) → (κ → ℕ) → Img κ → Img κ
  | [], _, x => x
  | (a, b) :: t, n, x => dbandDec w mode t (decShape mode L n a) (dwtAxis (w.dec b) mode (n a) a x)

/-- The contribution of a band in one level of `pywt.waverecn`. -/
noncomputable def dbandRec (w : FilterBank L) (mode : DwtMode) : List (κ × Bool) → (κ → ℕ) → Img κ → Img κ
  | [], _, y => y
  | (a, b) :: t, n, y => idwtAxis (w.recon b) mode (n a) a (dbandRec w mode t (decShape mode L n a) y)

/-- The shape of the bands of one level (`pywt.wavedecn_shapes`, src/corrct/operators.py:576-578). -/
def bandShape (mode : DwtMode) (L : ℕ) : List κ → (κ → ℕ) → κ → ℕ
  | [], n => n
  | a :: t, n => bandShape mode L t (decShape mode L n a)

/-- The shape of the approximation after `i` levels. -/
def levelShape (mode : DwtMode) (L : ℕ) (axes : Fin m → κ) (n : κ → ℕ) : ℕ → κ → ℕ
  | 0 => n
  | i + 1 => bandShape mode L (List.ofFn axes) (levelShape mode L axes n i)

/-- The approximation after `i` levels of `pywt.wavedecn`. -/
noncomputable def dwtApprox (w : FilterBank L) (mode : DwtMode) (axes : Fin m → κ) (n : κ → ℕ) (x : Img κ) : ℕ → Img κ
  | 0 => x
  | i + 1 => dbandDec w mode (lettered axes (approxLabel m)) (levelShape mode L axes n i) (dwtApprox w mode axes n x i)

/-- `TransformDecimatedWavelet._op_direct` by bands (src/corrct/operators.py:588-602, 624-627). -/
noncomputable def dwtOp (w : FilterBank L) (mode : DwtMode) (level : ℕ) (axes : Fin m → κ) (n : κ → ℕ) (x : Img κ) : Band m level → Img κ
  | none => dwtApprox w mode axes n x level
  | some (i, l) => dbandDec w mode (lettered axes l) (levelShape mode L axes n i) (dwtApprox w mode axes n x i)

/-- The shape of a band. -/
def dwtBandShape (mode : DwtMode) (L : ℕ) {level : ℕ} (axes : Fin m → κ) (n : κ → ℕ) : Band m level → κ → ℕ
  | none => levelShape mode L axes n level
  | some (i, _) => levelShape mode L axes n (i + 1)

/-- `pywt.waverecn`: from the coarsest level to the finest. -/
noncomputable def idwtFrom (w : FilterBank L) (mode : DwtMode) (axes : Fin m → κ) (n : κ → ℕ) (d : ℕ → (Fin m → Bool) → Img κ) : ℕ → Img κ → Img κ
  | 0, a => a
  | i + 1, a => idwtFrom w mode axes n d i fun p =>
      ∑ l, dbandRec w mode (lettered axes l) (levelShape mode L axes n i) (if l = approxLabel m then a else d i l) p

/-- `TransformDecimatedWavelet._op_adjoint` (src/corrct/operators.py:604-622, 629-634). -/
noncomputable def dwtOpT (w : FilterBank L) (mode : DwtMode) (level : ℕ) (axes : Fin m → κ) (n : κ → ℕ) (y : Band m level → Img κ) : Img κ :=
  idwtFrom w mode axes n (fun i l p => if h : i < level ∧ l ≠ approxLabel m then y (some (⟨i, h.1⟩, ⟨l, h.2⟩)) p else 0) level (y none)

/-- `Regularizer_dwl.apply_proximal_primal` with the l1 norm (src/corrct/regularizers.py:1031-1047); `threshold` is `tau * weight` (of arrays, their first entry,
:1029). With `min_approx=False` the approximation is left as it is. -/
noncomputable def dwlProxPrimal (w : FilterBank L) (mode : DwtMode) (minApprox : Bool) (level : ℕ) (axes : Fin m → κ) (n : κ → ℕ) (threshold : ℝ)
    (x : Img κ) : Img κ :=
  dwtOpT w mode level axes n fun b q =>
    if b = none ∧ minApprox = false then dwtOp w mode level axes n x b q else softThreshold (dwtOp w mode level axes n x b q) threshold

end Verif
