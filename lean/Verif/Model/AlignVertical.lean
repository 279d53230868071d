import Verif.Model.AlignPre
import Verif.Model.AlignVolumes

/-!
# Model of the vertical pre-alignment of `src/corrct/alignment/shifts.py` (`DetectorShiftsPRE.fit_v`)

Data are given by detector, row, angle and column; without borders (`borders_dvwu`).
-/

namespace Verif

open ZMod Complex

/-- The profile of one angle: the mean over the columns, of the unmasked pixels if there is a mask (a row without any is 0), and over the detectors
(src/corrct/alignment/shifts.py:161-170). -/
noncomputable def vProfile {D V W U : ℕ} (data : Fin D → Fin V → Fin W → Fin U → ℝ) (mask : Option (Fin D → Fin V → Fin W → Fin U → ℝ)) (w : Fin W) (v : Fin V) : ℝ :=
  (∑ d, match mask with
    | none => (∑ u, data d v w u) / U
    | some m => (∑ u, data d v w u * m d v w u) / ((∑ u, m d v w u) + if ∑ u, m d v w u = 0 then 1 else 0)) / D

/-- `(data_vw - mins) / (maxs - mins)` on one profile (src/corrct/alignment/shifts.py:172-174). -/
noncomputable def vNormalise {V : ℕ} (q : Fin V → ℝ) (v : Fin V) : ℝ := (q v - ⨅ k, q k) / ((⨆ k, q k) - ⨅ k, q k)

/-- The number of samples after the padding by `V // 2` on both sides (src/corrct/alignment/shifts.py:176-181): `np.diff` takes one away. -/
def vLength (deriv : Bool) (V : ℕ) : ℕ := (if deriv then V - 1 else V) + 2 * (V / 2)

/-- The padded profile (src/corrct/alignment/shifts.py:176-181): differences padded with zeros, or values padded by linear ramps to zero. Position `i` of
the array. -/
noncomputable def vPadded {V : ℕ} (deriv : Bool) (q : Fin V → ℝ) (i : ℕ) : ℝ :=
  let P := V / 2
  let at' : ℕ → ℝ := fun v => if h : v < V then q ⟨v, h⟩ else 0
  if deriv then (if P ≤ i ∧ i < P + (V - 1) then at' (i - P + 1) - at' (i - P) else 0)
  else if i < P then at' 0 * i / P
  else if i < P + V then at' (i - P)
  else at' (V - 1) * ((P : ℝ) - 1 - (i - P - V : ℕ)) / P

/-- The shift of one profile against the reference, both of `L` samples (src/corrct/alignment/shifts.py:183-197). The division of the spectrum by one number
(`normalize_fourier`) is applied to the correlation, as the inverse transform is linear. The coordinates are those of the size of the correlation. -/
noncomputable def vShift {L : ℕ} [NeZero L] (rfft norm : Bool) (eps : ℝ) (ref img : ZMod L → ℝ) (d : ℕ) : Option ℝ :=
  let w := xcWidth rfft L
  let scale : ℝ := if norm then max (⨆ l : Fin (if rfft then L / 2 + 1 else L), ‖xcSpectrum (m := 1) (fun _ => ref) (fun _ => img) 0 (l : ℕ)‖) eps else 1
  let cc : ℕ → ℝ := fun b => xcImage (m := 1) rfft (fun _ => ref) (fun _ => img) 0 b / scale
  let b := argmin (fun i => -cc i) w
  (refineMax3 (cc ((b + w - 1) % w)) (cc b) (cc ((b + 1) % w)) d).map fun s => s + fftfreq w b

/-- `DetectorShiftsPRE.fit_v` (src/corrct/alignment/shifts.py:117-221), from the profiles of the angles: `none` is the `ValueError` for data of one row, or
that of the refinement; a profile that is constant gives `0 / 0` and the latter. The plots of `verbose` are not modelled. -/
noncomputable def fitVProfiles {V W : ℕ} [NeZero W] (deriv rfft norm : Bool) (eps : ℝ) (q : Fin W → Fin V → ℝ) (maxShift : ℝ) (d : ℕ) : Option (Fin W → ℝ) :=
  if hV : V ≤ 1 then none
  else if ∃ w, (⨆ k, q w k) = ⨅ k, q w k then none
  else
    have : NeZero (vLength deriv V) := ⟨by unfold vLength; split_ifs <;> omega⟩
    let row : Fin W → ZMod (vLength deriv V) → ℝ := fun w i => vPadded deriv (vNormalise (q w)) i.val
    let s : Fin W → Option ℝ := fun w => vShift rfft norm eps (row (Fin.ofNat W (W / 2))) (row w) d
    if ∀ w, (s w).isSome then
      let f : Fin W → ℝ := fun w => filterShift maxShift ((s w).getD 0)
      some fun w => around d (f w - (∑ i, f i) / W)
    else none

/-- `DetectorShiftsPRE.fit_v` (src/corrct/alignment/shifts.py:117-221). -/
noncomputable def fitV {D V W U : ℕ} [NeZero W] (deriv rfft norm : Bool) (eps : ℝ) (data : Fin D → Fin V → Fin W → Fin U → ℝ)
    (mask : Option (Fin D → Fin V → Fin W → Fin U → ℝ)) (maxShift : ℝ) (d : ℕ) : Option (Fin W → ℝ) :=
  fitVProfiles deriv rfft norm eps (vProfile data mask) maxShift d

end Verif
