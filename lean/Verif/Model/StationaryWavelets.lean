import Verif.Model.Regularizers
import Verif.Model.Wavelets

/-!
# Model of the stationary wavelet transform and of its l1 regularizer

`TransformStationaryWavelet` (src/corrct/operators.py:637-765) with the transforms of PyWavelets written out (`pywt.swtn` and `pywt.iswtn` with
`trim_approx=True`), and `Regularizer_swl` with the l1 norm (src/corrct/regularizers.py:587-704, `Regularizer_l1swl`). Labels and packing of
the bands are modelled in `Verif.Model.Wavelets`; here a band is the approximation or a detail, given by its level and its label.
-/

namespace Verif
open Classical DataTerm

/-- `pywt.Wavelet(name).filter_bank`: four filters of the same length. -/
structure FilterBank (L : ℕ) where
  decLo : Fin L → ℝ
  decHi : Fin L → ℝ
  recLo : Fin L → ℝ
  recHi : Fin L → ℝ

variable {L : ℕ} {κ : Type} [Fintype κ] [DecidableEq κ] {n : κ → ℕ} {m : ℕ}

/-- `pywt._rescale_wavelet_filterbank`: all four filters times a factor. -/
noncomputable def FilterBank.rescale (w : FilterBank L) (s : ℝ) : FilterBank L :=
  ⟨fun j => w.decLo j * s, fun j => w.decHi j * s, fun j => w.recLo j * s, fun j => w.recHi j * s⟩

/-- The filter of a letter of a label: `"a"` (`false`) or `"d"` (`true`) (src/corrct/operators.py:511). -/
def FilterBank.dec (w : FilterBank L) : Bool → Fin L → ℝ
  | false => w.decLo
  | true => w.decHi

/-- The reconstruction filter of a letter. -/
def FilterBank.recon (w : FilterBank L) : Bool → Fin L → ℝ
  | false => w.recLo
  | true => w.recHi

/-- The offset, along axis `a`, of the entry that tap `j` of a filter dilated by `step` sees: `step * (L / 2 - j)`. -/
def tapOffset (L step : ℕ) (a : κ) (j : Fin L) : κ → ℤ := fun k => if k = a then (step : ℤ) * (((L / 2 : ℕ) : ℤ) - (j : ℕ)) else 0

/-- One filter of one level of `pywt.swt` along axis `a`: periodic convolution with the filter dilated by `step = 2**(level-1)`
(`downsampling_convolution_periodization` with step 1; as called at src/corrct/operators.py:726). -/
noncomputable def swtAxis (f : Fin L → ℝ) (step : ℕ) (a : κ) (x : Arr (Idx n)) : Arr (Idx n) := fun p =>
  ∑ j, f j * x (wrapIdx p (tapOffset L step a j))

/-- One filter of one level of `pywt.iswt` along axis `a` (as called at src/corrct/operators.py:743): the mean of the periodised inverse
transforms of the even and of the odd samples; together they use every sample once, hence the factor 1/2. -/
noncomputable def iswtAxis (f : Fin L → ℝ) (step : ℕ) (a : κ) (y : Arr (Idx n)) : Arr (Idx n) := fun p =>
  (1 / 2) * ∑ j, f j.rev * y (wrapIdx p fun k => -tapOffset L step a j k)

/-- A band of one level of `pywt.swtn`: the filters of the label, one along each axis. -/
noncomputable def bandDec (w : FilterBank L) (step : ℕ) : List (κ × Bool) → Arr (Idx n) → Arr (Idx n)
  | [], x => x
  | (a, l) :: t, x => bandDec w step t (swtAxis (w.dec l) step a x)

/-- The contribution of a band in one level of `pywt.iswtn`. -/
noncomputable def bandRec (w : FilterBank L) (step : ℕ) : List (κ × Bool) → Arr (Idx n) → Arr (Idx n)
  | [], y => y
  | (a, l) :: t, y => iswtAxis (w.recon l) step a (bandRec w step t y)

/-- The axes with the letters of a label. -/
def lettered (axes : Fin m → κ) (l : Fin m → Bool) : List (κ × Bool) := List.ofFn fun i => (axes i, l i)

/-- The label of the approximation. -/
def approxLabel (m : ℕ) : Fin m → Bool := fun _ => false

/-- The approximation after `i` levels of `pywt.swtn`. -/
noncomputable def swtApprox (w : FilterBank L) (axes : Fin m → κ) (x : Arr (Idx n)) : ℕ → Arr (Idx n)
  | 0 => x
  | i + 1 => bandDec w (2 ^ i) (lettered axes (approxLabel m)) (swtApprox w axes x i)

/-- A detail band of level `i + 1` (1 is the finest) of `pywt.swtn`. -/
noncomputable def swtDetail (w : FilterBank L) (axes : Fin m → κ) (x : Arr (Idx n)) (i : ℕ) (l : Fin m → Bool) : Arr (Idx n) :=
  bandDec w (2 ^ i) (lettered axes l) (swtApprox w axes x i)

/-- `pywt.iswtn`: from the coarsest level (`level`) to the finest. -/
noncomputable def iswtFrom (w : FilterBank L) (axes : Fin m → κ) (d : ℕ → (Fin m → Bool) → Arr (Idx n)) : ℕ → Arr (Idx n) → Arr (Idx n)
  | 0, a => a
  | i + 1, a => iswtFrom w axes d i fun p =>
      ∑ l, bandRec w (2 ^ i) (lettered axes l) (if l = approxLabel m then a else d i l) p

/-- The bands of the coefficient array (src/corrct/operators.py:752-755): the approximation, and by level and label the details. (In the array
the coarsest level comes first; here `i = 0` is the finest level.) -/
abbrev Band (m level : ℕ) := Option (Fin level × {l : Fin m → Bool // l ≠ approxLabel m})

/-- The number of padding entries along axis `k` (src/corrct/operators.py:692-696). -/
def swtPadAt (level : ℕ) (axes : Fin m → κ) (n : κ → ℕ) (k : κ) : ℕ := if ∃ i, axes i = k then swtPad level (n k) else 0

/-- The shape of the padded image (src/corrct/operators.py:697-701). -/
def paddedShape (level : ℕ) (axes : Fin m → κ) (n : κ → ℕ) : κ → ℕ := fun k => n k + swtPadAt level axes n k

/-- The padding of `direct_swt` (src/corrct/operators.py:718-725), with zeros (`mode="constant"`) or, `edge`, with the nearest entry. -/
noncomputable def padVol (edge : Bool) (level : ℕ) (axes : Fin m → κ) (x : Arr (Idx n)) : Arr (Idx (paddedShape level axes n)) := fun q =>
  if h : ∀ k, padLow (swtPadAt level axes n k) ≤ (q k).val ∧ (q k).val < padLow (swtPadAt level axes n k) + n k then
    x fun k => ⟨(q k).val - padLow (swtPadAt level axes n k), by have := h k; omega⟩
  else if edge then
    if h0 : ∀ k, 0 < n k then
      x fun k => ⟨min (n k - 1) ((q k).val - padLow (swtPadAt level axes n k)), by have := h0 k; omega⟩
    else 0
  else 0

/-- The cropping of `inverse_swt` (src/corrct/operators.py:743-749). -/
def cropVol (level : ℕ) (axes : Fin m → κ) (y : Arr (Idx (paddedShape level axes n))) : Arr (Idx n) := fun p =>
  y fun k => ⟨(p k).val + padLow (swtPadAt level axes n k), by
    have h1 := (p k).isLt
    have h2 : padLow (swtPadAt level axes n k) ≤ swtPadAt level axes n k := by unfold padLow; omega
    show _ < n k + swtPadAt level axes n k
    omega⟩

/-- The filters of the direct transform: with `normalized` divided by `√2` (`norm=True` of `pywt.swtn`). -/
noncomputable def directBank (w : FilterBank L) (normalized : Bool) : FilterBank L := if normalized then w.rescale (1 / Real.sqrt 2) else w

/-- The filters of the inverse transform: with `normalized` times `√2` (`norm=True` of `pywt.iswtn`). -/
noncomputable def inverseBank (w : FilterBank L) (normalized : Bool) : FilterBank L := if normalized then w.rescale (Real.sqrt 2) else w

/-- `TransformStationaryWavelet._op_direct` (src/corrct/operators.py:703-726, 752-755). -/
noncomputable def swtOp (w : FilterBank L) (normalized edge : Bool) (level : ℕ) (axes : Fin m → κ) (x : Arr (Idx n)) :
    Arr (Band m level × Idx (paddedShape level axes n)) := fun q =>
  let y := padVol edge level axes x
  match q.1 with
  | none => swtApprox (directBank w normalized) axes y level q.2
  | some (i, l) => swtDetail (directBank w normalized) axes y i l q.2

/-- `TransformStationaryWavelet._op_adjoint` (src/corrct/operators.py:728-750, 757-765). -/
noncomputable def swtOpT (w : FilterBank L) (normalized : Bool) (level : ℕ) (axes : Fin m → κ)
    (y : Arr (Band m level × Idx (paddedShape level axes n))) : Arr (Idx n) :=
  cropVol level axes (iswtFrom (inverseBank w normalized) axes
    (fun i l p => if h : i < level ∧ l ≠ approxLabel m then y (some (⟨i, h.1⟩, ⟨l, h.2⟩), p) else 0) level fun p => y (none, p))

/-! ## The regularizer -/

/-- l1 norm of a filter (src/corrct/regularizers.py:644). -/
noncomputable def l1norm (f : Fin L → ℝ) : ℝ := ∑ j, |f j|

/-- The entry of `dec_func_mult` (or, from the reconstruction filters, `rec_func_mult`) for a band (src/corrct/regularizers.py:645-658 and
src/corrct/operators.py:515-520); `lo` and `hi` are the l1 norms of the filters, which are those before `norm=True` rescales them. -/
noncomputable def bandMult (lo hi : ℝ) (m level : ℕ) : Band m level → ℝ
  | none => (lo ^ m) ^ level
  | some (i, l) => (∏ k, if l.1 k then hi else lo) * (lo ^ m) ^ (i : ℕ)

/-- `sigma` of `Regularizer_swl` by band (src/corrct/regularizers.py:664-673). -/
noncomputable def swlSigma (w : FilterBank L) (normalized : Bool) (m level : ℕ) (b : Band m level) : ℝ :=
  if normalized then 1 else 1 / bandMult (l1norm w.decLo) (l1norm w.decHi) m level b

/-- `tau` (src/corrct/regularizers.py:664-677). -/
noncomputable def swlTau (w : FilterBank L) (normalized : Bool) (m level : ℕ) : ℝ :=
  if normalized then level * (2 ^ m - 1) + 1
  else ∑ b : Band m level, ((2 : ℝ) ^ m - 1 + if b = none then 1 else 0) / bandMult (l1norm w.recLo) (l1norm w.recHi) m level b

/-- `Regularizer_swl` with its l1 norm, without update mask and with one weight, after `initialize_sigma_tau` (src/corrct/regularizers.py:603-694): the
update of the dual (which with `min_approx=False` sets the approximation to zero), the proximal and the primal update of the base class
(src/corrct/regularizers.py:150-162, 188-210). The default is `normalized=False`, padding with zeros, `min_approx=True`. -/
noncomputable def swlReg (w : FilterBank L) (normalized edge minApprox : Bool) (level : ℕ) (axes : Fin m → κ) (weight : ℝ) :
    Reg (Idx n) (Arr (Band m level × Idx (paddedShape level axes n))) where
  sigmaTau := fun _ _ => swlTau w normalized m level
  initDual := 0
  updateDual := fun dual x q =>
    if minApprox = false ∧ q.1 = none then 0 else dual q + swlSigma w normalized m level q.1 * swtOp w normalized edge level axes x q
  proxDual := fun dual =>
    ((DataTerm.new .l1 none).assignData none (.array fun q => swlSigma w normalized m level q.1)).proxDual dual (.scalar weight)
  updatePrimal := fun dual => (swtOpT w normalized level axes dual, dual)
  proxPrimal := fun x _ => x

end Verif
