import Mathlib.Analysis.SpecialFunctions.Trigonometric.Arctan
import Mathlib.Analysis.SpecialFunctions.Arcosh
import Mathlib.Tactic
import Verif.Model.Filters

/-!
# Model of `src/corrct/physics`

The tables of `xraylib` are parameters: any functions, of which some calls may fail (`none`, a `ValueError`).
-/

namespace Verif

/-! ## Units (`src/corrct/physics/units.py`) -/

/-- `ConversionMetric.str_to_order` (src/corrct/physics/units.py:12-20); `none` is a `KeyError`. -/
noncomputable def metricOrder : String → Option ℝ
  | "km" => some (1 / 10 ^ 3)
  | "m" => some 1
  | "cm" => some (10 ^ 2)
  | "mm" => some (10 ^ 3)
  | "um" => some (10 ^ 6)
  | "nm" => some (10 ^ 9)
  | "a" => some (10 ^ 10)
  | _ => none

/-- `ConversionEnergy.str_to_order` (src/corrct/physics/units.py:55-62). -/
noncomputable def energyOrder : String → Option ℝ
  | "GeV" => some (1 / 10 ^ 9)
  | "MeV" => some (1 / 10 ^ 6)
  | "keV" => some (1 / 10 ^ 3)
  | "eV" => some 1
  | "meV" => some (10 ^ 3)
  | "ueV" => some (10 ^ 6)
  | _ => none

/-- `convert(from_unit, to_unit)`, of both classes (src/corrct/physics/units.py:33-49, 73-89). -/
noncomputable def convertUnit (order : String → Option ℝ) (from' to' : String) : Option ℝ := do
  let t ← order to'
  let f ← order from'
  some (t / f)

/-- `energy_to_wlength` (src/corrct/physics/units.py:100-119), `c` is the constant `electron volt-inverse meter relationship`. -/
noncomputable def energyToWlength (c energy : ℝ) (unitWl unitEn : String) : Option ℝ := do
  let fm ← convertUnit metricOrder "m" unitWl
  let fe ← convertUnit energyOrder "eV" unitEn
  some (fm * fe / (c * energy))

/-- `wlength_to_energy` (src/corrct/physics/units.py:130-149). -/
noncomputable def wlengthToEnergy (c wlength : ℝ) (unitWl unitEn : String) : Option ℝ := do
  let fm ← convertUnit metricOrder "m" unitWl
  let fe ← convertUnit energyOrder "eV" unitEn
  some (fm * fe / (c * wlength))

/-! ## Fluorescence (`src/corrct/physics/xrf.py`) -/

/-- Outcome of `get_energy(…, compute_average=True)`. -/
inductive EnergyResult where
  | valueError
  | nan
  | value (e : ℝ)

/-- `get_energy` with `compute_average=True` (src/corrct/physics/xrf.py:167-207, with `get_radiation_rate`, :110-144, and
`_get_lines_list`, :99-107): each line comes with the answers of `xraylib.LineEnergy` and `xraylib.RadRate`, and counts as 0 if they fail.
An empty list of lines is a `ValueError`; rates that sum to zero make a division of zero by zero. -/
noncomputable def averageEnergy (lines : List (Option ℝ × Option ℝ)) : EnergyResult :=
  if lines = [] then .valueError
  else
    let rates := (lines.map fun l => l.2.getD 0).sum
    if rates = 0 then .nan else .value ((lines.map fun l => l.1.getD 0 * l.2.getD 0 / rates).sum)

/-- `LinesSiegbahn.get_lines` on the names of the lines (src/corrct/physics/xrf.py:80-96): `f.name[: len(line)] == line.upper()`. Names are
lists of characters. -/
def getLines (names : List (List Char)) (line : List Char) : List (List Char) :=
  names.filter fun n => n.take line.length == line.map Char.toUpper

/-- The names of `LinesSiegbahn.lines` (src/corrct/physics/xrf.py:36-76). -/
def siegbahnLines : List (List Char) :=
  ["KA1".toList, "KA2".toList, "KA3".toList, "KB1".toList, "KB2".toList, "KB3".toList, "KB4".toList, "KB5".toList, "LA1".toList,
   "LA2".toList, "LB1".toList, "LB2".toList, "LB3".toList, "LB4".toList, "LB5".toList, "LB6".toList, "LB7".toList, "LB9".toList,
   "LB10".toList, "LB15".toList, "LB17".toList, "LG1".toList, "LG2".toList, "LG3".toList, "LG4".toList, "LG5".toList, "LG6".toList,
   "LG8".toList, "LE".toList, "LH".toList, "LL".toList, "LS".toList, "LT".toList, "LU".toList, "LV".toList, "MA1".toList,
   "MA2".toList, "MB".toList, "MG".toList]

/-- `DetectorXRF` with a number as distance (src/corrct/physics/xrf.py:217-229). -/
structure DetectorXrf where
  surface : ℝ
  distance : ℝ
  angle : ℝ

/-- `DetectorXRF.__post_init__` for the surface and a list of distances: one number, or an array with that many entries; `none` is a
`ValueError`, either of the check or of the truth value of an array of more than one entry (src/corrct/physics/xrf.py:225-229). -/
noncomputable def detectorInit (surface : ℝ) (distance : List ℝ) : Option Unit :=
  if surface < 0 then none
  else match distance with
    | [d] => if d ≤ 0 then none else some ()
    | _ => none

/-- `solid_angle_sr` (src/corrct/physics/xrf.py:231-240). -/
noncomputable def DetectorXrf.solidAngle (d : DetectorXrf) : ℝ := d.surface / (4 * Real.pi * d.distance ^ 2)

/-- Half the width of `angle_range_rad`; `arctan2` of non-negative and positive numbers (src/corrct/physics/xrf.py:242-258). -/
noncomputable def DetectorXrf.halfAngle (d : DetectorXrf) : ℝ := Real.arctan (Real.sqrt d.surface / 2 / d.distance)

/-- `angle_range_rad` (src/corrct/physics/xrf.py:242-258). -/
noncomputable def DetectorXrf.angleRange (d : DetectorXrf) : ℝ × ℝ := (-d.halfAngle, d.halfAngle)

/-- The angles of the sub-sampled emission towards a detector, relative to its centre (src/corrct/physics/attenuation.py:111-116): the
middles of `s` equal parts of the angular range, or `[0]` without surface. -/
noncomputable def subAngles (d : DetectorXrf) (s : ℕ) : List ℝ :=
  if 0 < d.surface then
    (List.range s).map fun i =>
      let x := fun i : ℕ => d.angleRange.1 + (d.angleRange.2 - d.angleRange.1) * i / s
      (x i + x (i + 1)) / 2
  else [0]

/-! ## Compounds and materials (`xraylib_helper.py`, `materials.py`, `attenuation.py`) -/

/-- A compound: the entries of its dictionary in use. -/
structure Compound where
  name : String
  elements : List ℕ
  massFractions : List ℝ
  density : ℝ

/-- The tables of `xraylib` in use here. -/
structure XrayTables where
  /-- `CS_Total_CP` -/
  csCompound : String → ℝ → Option ℝ
  /-- `CS_Total` -/
  csElement : ℕ → ℝ → ℝ
  /-- `Refractive_Index_Re` -/
  refractive : String → ℝ → ℝ → ℝ
  /-- `ElementDensity` -/
  elementDensity : ℕ → ℝ

/-- The density of `get_compound` if none is given (src/corrct/physics/xraylib_helper.py:76-80). -/
noncomputable def approxDensity (t : XrayTables) (elements : List ℕ) (massFractions : List ℝ) : ℝ :=
  (List.zipWith (fun el w => t.elementDensity el * w) elements massFractions).sum

/-- `get_compound_cross_section` (src/corrct/physics/xraylib_helper.py:84-108). -/
noncomputable def crossSection (t : XrayTables) (c : Compound) (energy : ℝ) : ℝ :=
  (t.csCompound c.name energy).getD (List.zipWith (fun el w => t.csElement el energy * w) c.elements c.massFractions).sum

/-- A material of a `VolumeMaterial` with voxels `V`: its fraction in each voxel, and its composition. -/
abbrev Material (V : Type) := (V → ℝ) × Compound

/-- `VolumeMaterial.get_attenuation` (src/corrct/physics/materials.py:78-102). -/
noncomputable def getAttenuation {V : Type} (t : XrayTables) (ms : List (Material V)) (voxel energy : ℝ) (j : V) : ℝ :=
  (ms.map fun m => m.1 j * m.2.density * crossSection t m.2 energy).sum * voxel

/-- `VolumeMaterial.get_phase_shift` (src/corrct/physics/materials.py:104-126), `wl` the wavelength in cm. -/
noncomputable def getPhaseShift {V : Type} (t : XrayTables) (ms : List (Material V)) (voxel energy wl : ℝ) (j : V) : ℝ :=
  -(ms.map fun m => m.1 j * (1 - t.refractive m.2.name energy m.2.density)).sum * voxel * (2 * Real.pi / wl)

/-- `VolumeMaterial.get_element_mass_fraction` (src/corrct/physics/materials.py:128-148): the first entry of the element counts. -/
noncomputable def elementMassFraction {V : Type} (ms : List (Material V)) (el : ℕ) (j : V) : ℝ :=
  (ms.map fun m => if el ∈ m.2.elements then m.1 j * m.2.density * m.2.massFractions.getD (m.2.elements.idxOf el) 0 else 0).sum

/-- The image of `VolumeMaterial.get_fluo_production` (src/corrct/physics/materials.py:231-289): `yields` are the answers of
`CS_FluorLine_Kissel` for the lines, 0 where it fails. -/
noncomputable def fluoProduction {V : Type} (ms : List (Material V)) (el : ℕ) (yields : List (Option ℝ)) (voxel : ℝ)
    (det : Option DetectorXrf) (j : V) : ℝ :=
  elementMassFraction ms el j * (yields.map fun y => y.getD 0).sum * voxel * det.elim 1 DetectorXrf.solidAngle

/-- `_check_parallax_detector` with a number (a `float`) as distance, and the largest size of the volume `size` in voxels
(src/corrct/physics/materials.py:150-163). -/
noncomputable def checkParallax (voxelCm size : ℝ) (d : DetectorXrf) (tolerance : ℝ) : Prop :=
  let half := voxelCm * size / 2
  let near := { d with distance := d.distance + -half }.solidAngle
  let far := { d with distance := d.distance + half }.solidAngle
  max near far - min near far < tolerance

/-- `get_linear_attenuation_coefficient` for a compound given as a dictionary (src/corrct/physics/attenuation.py:334-362): the coefficient,
and the dictionary after the call. -/
noncomputable def linearAttenuation (t : XrayTables) (c : Compound) (energy pixelUm : ℝ) (density : Option ℝ) : ℝ × Compound :=
  let c := match density with
    | some d => { c with density := d }
    | none => c
  (pixelUm * (1 / 10 ^ 4) * c.density * crossSection t c energy, c)

/-! ## Selection of attenuation maps -/

/-- The part of `slice(start, stop, 1)` of a list: negative limits count from the end (NumPy and Python). -/
def pySlice {α : Type} (l : List α) (start stop : ℤ) : List α :=
  let n : ℤ := l.length
  let fix := fun i : ℤ => if i < 0 then max (i + n) 0 else min i n
  (l.drop (fix start).toNat).take ((fix stop).toNat - (fix start).toNat)

/-- `list[i]` of Python: `none` is an `IndexError`. -/
def pyIndex {α : Type} (l : List α) (i : ℤ) : Option α :=
  let k := if i < 0 then i + l.length else i
  if k < 0 then none else l[k.toNat]?

/-- `get_maps(rot_ind=i)` on the list of the maps of all rotations (src/corrct/physics/attenuation.py:278-283). -/
def getMapsRot {α : Type} (maps : List α) (i : ℤ) : List α := pySlice maps i (i + 1)

/-- A selection of detectors. -/
inductive DetInd where
  | all
  | int (i : ℤ)
  | slice (start stop : ℤ)

/-- `get_projector_args(det_ind=…)` (src/corrct/physics/attenuation.py:299-331, with :285-288), on the lists of the maps and of the angles
of the detectors: the selected maps and angles. `none` is an exception: an index out of range, or the attribute `angle_rad` of a list. -/
def projectorArgs {α β : Type} (maps : List α) (angles : List β) (ind : DetInd) : Option (List α × List β) :=
  match ind with
  | .all => some (maps, angles)
  | .int i => (pyIndex angles i).map fun a => (pySlice maps i (i + 1), [a])
  | .slice _ _ => none

/-! ## Pencil beams (`src/corrct/physics/__init__.py`) -/

/-- `beam_shape` of `pencil_beam_profile`. -/
inductive BeamShape where
  | gaussian | lorentzian | sech2

/-- The intensity of the beam (src/corrct/physics/__init__.py:65-75). -/
noncomputable def beamIntensity (s : BeamShape) (fwhm x : ℝ) : ℝ :=
  match s with
  | .gaussian => Real.exp (-4 * Real.log 2 * x ^ 2 / fwhm ^ 2)
  | .lorentzian => (fwhm / 2) ^ 2 / (x ^ 2 + (fwhm / 2) ^ 2)
  | .sech2 => 1 / Real.cosh (x / (fwhm / (2 * Real.arcosh (Real.sqrt 2)))) ^ 2

/-- `num_points` (src/corrct/physics/__init__.py:53): `int(np.ceil(extent_um * 10) // 2) * 2 + 1`. -/
noncomputable def beamPoints (extent : ℝ) : ℕ := ⌈extent * 10⌉₊ / 2 * 2 + 1

/-- `np.linspace(-extent / 2, extent / 2, n)[i]`, the first value if `n = 1` (src/corrct/physics/__init__.py:58). -/
noncomputable def beamGrid (extent : ℝ) (n i : ℕ) : ℝ :=
  if n = 1 then -(extent / 2) else -(extent / 2) + extent * i / (n - 1 : ℕ)

/-- `np.convolve(a, b, mode="same")` of two arrays of the odd size `n`, at `i`. -/
noncomputable def convSame (n : ℕ) (a b : ℕ → ℝ) (i : ℕ) : ℝ :=
  ∑ j ∈ Finset.range n, ∑ k ∈ Finset.range n, if j + k = i + (n - 1) / 2 then a j * b k else 0

/-- `pencil_beam_profile` (src/corrct/physics/__init__.py:29-91), with `eps` the machine constant; `none` is an array of NaN, from the
division of zero by zero. The arrays `yb` and `yp` are Boolean, so that the assigned `0.5` is `True`. -/
noncomputable def pencilBeam (eps voxel fwhm : ℝ) (p : ℕ) (s : BeamShape) : Option (ℕ → ℝ) :=
  let points := 2 * p + 1
  let extent := points * voxel
  let n := beamPoints extent
  let half := voxel / 2
  let x := beamGrid extent n
  let yb := fun i => if |x i| < half ∨ |(|x i| - half)| ≤ eps then (1 : ℝ) else 0
  let conv := convSame n yb fun i => beamIntensity s fwhm (x i)
  let top := (Finset.range n).sup' ⟨0, by simp [n, beamPoints]⟩ conv
  let y := fun ii : ℕ => ∑ i ∈ Finset.range n, conv i / top *
    if |x i - ((ii : ℝ) - p) * voxel| < half ∨ |x i - ((ii : ℝ) - p) * voxel| - half < eps then (1 : ℝ) else 0
  let total := ∑ ii ∈ Finset.range points, y ii
  if top = 0 ∨ total = 0 then none else some fun ii => y ii / total

/-! ## Phase contrast (`src/corrct/physics/phase.py`) -/

/-- `filter_type`. -/
inductive PropFilter where
  | tie | ctf

/-- `_tie_freq_response` and `_ctf_freq_response` (src/corrct/physics/phase.py:87-93). -/
noncomputable def freqResponse (f : PropFilter) (k2 dist wl db : ℝ) : ℝ :=
  match f with
  | .tie => 1 + db * dist * wl * Real.pi * k2
  | .ctf => Real.cos (dist * wl * Real.pi * k2) + db * Real.sin (dist * wl * Real.pi * k2)

/-- The sum of the squared frequencies of `get_propagation_filter` for an image of `m × n` pixels (src/corrct/physics/phase.py:192-197):
`np.fft.fftfreq(s, d=pix)[i]` is the signed index over `s * pix`; `np.fft.rfftfreq(n, d=pix)[l]` is `l / (n * pix)`. -/
noncomputable def freqSq (rfft : Bool) (m n : ℕ) (pix : ℝ) (k l : ℕ) : ℝ :=
  ((fftfreq m k : ℝ) / (m * pix)) ^ 2 + (if rfft then (l : ℝ) / (n * pix) else (fftfreq n l : ℝ) / (n * pix)) ^ 2

/-- `filt_fourier` of `get_propagation_filter` (src/corrct/physics/phase.py:199-204). -/
noncomputable def propFilter (rfft : Bool) (f : PropFilter) (m n : ℕ) (pix dist wl db : ℝ) (k l : ℕ) : ℝ :=
  freqResponse f (freqSq rfft m n pix k l) dist wl db

/-- `np.fft.irfftn(Y, s=(m, n))` for even `n`, from the coefficients of the first `n / 2 + 1` columns. -/
noncomputable def irfft2 (m n : ℕ) [NeZero m] (Y : ZMod m → ℕ → ℂ) (a b : ℕ) : ℝ :=
  irfftDefault n (fun l => (∑ k, Y k l * ZMod.stdAddChar (k * (a : ZMod m))) / m) b

/-- The real-space filter of `get_propagation_filter` before the `fftshift` (src/corrct/physics/phase.py:206-210), for an even number of
columns. -/
noncomputable def propFilterDirect (rfft : Bool) (f : PropFilter) (m n : ℕ) [NeZero m] [NeZero n] (pix dist wl db : ℝ) (a b : ℕ) : ℝ :=
  if rfft then irfft2 m n (fun k l => (propFilter true f m n pix dist wl db k.val l : ℂ)) a b
  else ((∑ l : ZMod n, (∑ k : ZMod m, (propFilter false f m n pix dist wl db k.val l.val : ℂ) * ZMod.stdAddChar (k * (a : ZMod m))) / m *
    ZMod.stdAddChar (l * (b : ZMod n))) / n).re

/-- The position in an axis of `s` pixels that `np.pad(…, mode="edge")` copies to position `i` of the `2 s` padded ones, with
`s - s / 2` on the left (src/corrct/physics/phase.py:249-253). -/
def edgePos (s i : ℕ) : ℕ := min (i - (s - s / 2)) (s - 1)

/-- The values of `apply_propagation_filter` for an image of `v × u` pixels (src/corrct/physics/phase.py:220-273), if no division by zero
occurs. The Fourier shift by the integer `-(s - s / 2)` along each axis is the product with a character; the first `v × u` pixels are returned. -/
noncomputable def propagationImage (f : PropFilter) (v u : ℕ) [NeZero (2 * v)] [NeZero (2 * u)] (pix dist wl db : ℝ) (data : ℕ → ℕ → ℝ)
    (a b : ℕ) : ℝ :=
  let padded : ZMod (2 * v) → ZMod (2 * u) → ℝ := fun i j => data (edgePos v i.val) (edgePos u j.val)
  irfft2 (2 * v) (2 * u) (fun k l => fft2 padded k (l : ZMod (2 * u)) *
    (ZMod.stdAddChar (k * ((v - v / 2 : ℕ) : ZMod (2 * v))) * ZMod.stdAddChar ((l : ZMod (2 * u)) * ((u - u / 2 : ℕ) : ZMod (2 * u)))) /
      (propFilter true f (2 * v) (2 * u) pix dist wl db k.val l : ℂ)) a b

open Classical in
/-- `apply_propagation_filter` (src/corrct/physics/phase.py:220-273): `none` stands for an image of NaN, as a zero of the filter at one of the frequencies
of the real transform makes every pixel of the image NaN or infinite (:271). -/
noncomputable def applyPropagation (f : PropFilter) (v u : ℕ) [NeZero (2 * v)] [NeZero (2 * u)] (pix dist wl db : ℝ) (data : ℕ → ℕ → ℝ) :
    Option (ℕ → ℕ → ℝ) :=
  if ∃ k < 2 * v, ∃ l ≤ u, propFilter true f (2 * v) (2 * u) pix dist wl db k l = 0 then none
  else some (propagationImage f v u pix dist wl db data)

end Verif
