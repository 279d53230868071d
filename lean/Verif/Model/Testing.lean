import Verif.Model.Physics
import Verif.Model.Projectors

/-!
# Model of `src/corrct/testing.py`

Random draws are parameters of the model; the tables of `xraylib` and the ray tracing as in `Model/Physics.lean` and
`Model/Projectors.lean`. Printed output is not modelled.
-/

namespace Verif
open Classical

/-! ## Phantoms -/

/-- The four masks of the phases, for one voxel of the phase map: air, ferric oxide, calcium oxide, calcium carbonate
(src/corrct/testing.py:170-173, 230-233), as fractions (the masks become floats in src/corrct/physics/materials.py:58-59). -/
noncomputable def phaseFractions (v : ℝ) : List ℝ :=
  [if v < 0.1 then 1 else 0,
   if 0.5 < v then 1 else 0,
   if 0.25 < v ∧ v < 0.5 then 1 else 0,
   if 0.1 < v ∧ v < 0.25 then 1 else 0]

/-- `phase_compound_names` (src/corrct/testing.py:181, 242). -/
def phaseNames : List String :=
  ["Air, Dry (near sea level)", "Ferric Oxide", "Calcium Oxide", "Calcium Carbonate"]

/-- The `VolumeMaterial` of the phantom (src/corrct/testing.py:180-183, 241-244): fraction map and compound of each phase.
`compound` is `get_compound` (src/corrct/physics/xraylib_helper.py:55-82). -/
noncomputable def phantomMaterials {V : Type} (compound : String → Compound) (ph : V → ℝ) : List (Material V) :=
  (List.range 4).map fun k => (fun j => (phaseFractions (ph j)).getD k 0, compound (phaseNames.getD k ""))

/-- The voxel size in cm of a size in μm (src/corrct/testing.py:175-177, 235-238). -/
noncomputable def voxelSizeCm (um : ℝ) : ℝ := um * 1e-3 * 1e-1

/-- What the tables say about the emission lines of an element: the answers of `CS_FluorLine_Kissel` for the lines at the
incoming energy, and the average energy of the lines (src/corrct/physics/materials.py:268-289). -/
structure LineTables where
  yields : String → String → ℝ → List (Option ℝ)
  energyOut : String → String → ℝ
  /-- `get_element_number` -/
  number : String → ℕ

/-- `phantom_assign_concentration` (src/corrct/testing.py:139-189): yield, and attenuations at the incoming and the outgoing
energy. -/
noncomputable def phantomConcentration {V : Type} (t : XrayTables) (lt : LineTables) (compound : String → Compound) (ph : V → ℝ)
    (element line : String) (energy voxelUm : ℝ) : (V → ℝ) × (V → ℝ) × (V → ℝ) :=
  let ms := phantomMaterials compound ph
  let voxel := voxelSizeCm voxelUm
  (fun j => fluoProduction ms (lt.number element) (lt.yields element line energy) voxel none j,
   fun j => getAttenuation t ms voxel energy j,
   fun j => getAttenuation t ms voxel (lt.energyOut element line) j)

/-- What `xraylib` says about Compton scattering: `DCS_Compt_CP` (may fail), `DCS_Compt` and `ComptonEnergy`. -/
structure ComptonTables where
  dcsCompound : String → ℝ → ℝ → Option ℝ
  dcsElement : ℕ → ℝ → ℝ → ℝ
  energyOut : ℝ → ℝ → ℝ

/-- The cross section of one compound in `get_compton_scattering` (src/corrct/physics/materials.py:203-212). -/
noncomputable def comptonCs (t : ComptonTables) (c : Compound) (energy angle : ℝ) : ℝ :=
  (t.dcsCompound c.name energy angle).getD
    (List.zipWith (fun el w => t.dcsElement el energy angle * w) c.elements c.massFractions).sum

/-- `VolumeMaterial.get_compton_scattering` (src/corrct/physics/materials.py:165-229): `none` is the `ValueError` if neither an
angle nor a detector is given. -/
noncomputable def comptonScattering {V : Type} (t : ComptonTables) (ms : List (Material V)) (voxel energy : ℝ) (angle : Option ℝ)
    (det : Option DetectorXrf) : Option (ℝ × (V → ℝ)) :=
  match angle.orElse fun _ => det.map DetectorXrf.angle with
  | none => none
  | some a =>
    some (t.energyOut energy a, fun j =>
      (ms.map fun m => m.1 j * m.2.density * comptonCs t m.2 energy a).sum * voxel * det.elim 1 DetectorXrf.solidAngle)

/-- `em_lines` of `phantom_assign_concentration_multi`: one line name, or one for each element. -/
inductive EmLines where
  | one (line : String)
  | each (lines : List String)

/-- The line of element number `i` (src/corrct/testing.py:253-256); `none` is an `IndexError`. -/
def EmLines.line : EmLines → ℕ → Option String
  | .one l, _ => some l
  | .each ls, i => ls[i]?

/-- `phantom_assign_concentration_multi` (src/corrct/testing.py:192-263), `none` is an `IndexError`. The list entries which are
still the empty array `np.array([])` are `none`. -/
noncomputable def phantomMulti {V : Type} (t : XrayTables) (lt : LineTables) (ct : ComptonTables) (compound : String → Compound)
    (ph : V → ℝ) (elements : List String) (lines : EmLines) (energy : ℝ) (detector : Option ℝ) :
    Option (List (Option (V → ℝ)) × (V → ℝ) × List (Option (V → ℝ))) :=
  let ms := phantomMaterials compound ph
  let voxel := voxelSizeCm 0.5
  let fluo := (List.range elements.length).mapM fun i => (lines.line i).map fun l =>
    let el := elements.getD i ""
    (some fun j => fluoProduction ms (lt.number el) (lt.yields el l energy) voxel none j,
     some fun j => getAttenuation t ms voxel (lt.energyOut el l) j)
  match fluo with
  | none => none
  | some f =>
    let f := f ++ (if detector.isSome then [(none, none)] else [])
    let f : List (Option (V → ℝ) × Option (V → ℝ)) :=
      match detector with
      | some a =>
        if a ≠ 0 then
          match comptonScattering ct ms voxel energy (some a) none with
          | some (e, y) => f.set (f.length - 1) (some y, some fun j => getAttenuation t ms voxel e j)
          | none => f
        else f
      | none => f
    some (f.map Prod.fst, fun j => getAttenuation t ms voxel energy j, f.map Prod.snd)

/-! ## Noise -/

/-- The random numbers drawn by `add_noise`: standard normal numbers for the background and the read-out noise, and a Poisson
number for each pixel and rate. -/
structure Draws (P : Type) where
  background : P → ℝ
  readout : P → ℝ
  poisson : ℝ → P → ℕ

/-- `np.random.normal(avg, std, shape)`: a `ValueError` for a negative standard deviation. -/
noncomputable def randomNormal {P : Type} (avg std : ℝ) (z : P → ℝ) : Option (P → ℝ) :=
  if std < 0 then none else some fun p => avg + std * z p

/-- `add_noise` (src/corrct/testing.py:266-320): noisy image, clean image and background; `none` is the `ValueError` of a negative
standard deviation or Poisson rate. -/
noncomputable def addNoise {P : Type} [Fintype P] (rnd : Draws P) (img : Arr P) (numPhotons efficiency : ℝ) (addPoisson : Bool)
    (readoutStd backgroundAvg backgroundStd : Option ℝ) : Option (Arr P × Arr P × ℝ) :=
  let clean : Arr P := fun p => numPhotons * efficiency * img p
  let noise : Option (Arr P) :=
    match backgroundAvg with
    | none => some clean
    | some avg =>
      (randomNormal avg (backgroundStd.getD (avg * 5e-2)) rnd.background).map fun b => fun p =>
        clean p + numPhotons * efficiency * |b p|
  match noise with
  | none => none
  | some noise =>
    let background := (∑ p, (noise p - clean p)) / Fintype.card P
    let poisson : Option (Arr P) :=
      if addPoisson then
        if ∃ p, noise p < 0 then none else some fun p => rnd.poisson (noise p) p
      else some noise
    match poisson with
    | none => none
    | some noise =>
      match readoutStd with
      | none => some (noise, clean, background)
      | some s => (randomNormal 0 s rnd.readout).map fun r => (fun p => noise p + r p, clean, background)

/-! ## Sinograms -/

/-- `np.deg2rad(np.linspace(start, end, n, endpoint=False))` (src/corrct/testing.py:374-375, 452-453). -/
noncomputable def scanAngles (start stop : ℝ) (n : ℕ) : List ℝ :=
  (List.range n).map fun i : ℕ => (start + (stop - start) / n * i) * (Real.pi / 180)

/-- The attenuation-free projector of `create_sino` (src/corrct/testing.py:382): no point spread function is passed. -/
def plainProjector {nA : ℕ} {V U : Type} (b : Backend nA V U) : Uncorrected nA V U := ⟨b, none, none⟩

/-- The projector of `create_sino` with attenuation volumes (src/corrct/testing.py:385-387), for the maps computed from them;
unit weights (src/corrct/projectors.py:441-458). -/
def xrfProjector {nA nD : ℕ} {V U : Type} (b : Backend nA V U) (maps : Fin nA → Fin nD → Arr V) (psf : Option (Arr U → Arr U)) :
    Xrf nA nD V U :=
  { backend := b, intensities := none, psf := psf, attVolAngles := maps, weightsDet := fun _ => 1, weightsAngles := fun _ _ => 1,
    isSymmetric := false }

/-- The solid angle of the detector of `create_sino` (src/corrct/testing.py:379). -/
noncomputable def sinoSolidAngle : ℝ := (2.4 / 2 / 16 / 2) ^ 2

/-- The clean sinogram of `create_sino` (src/corrct/testing.py:381-388): `maps` are the attenuation maps, if any attenuation volume
is given. Without them there is no detector axis; the model repeats the sinogram for every detector. -/
noncomputable def cleanSino {nA nD : ℕ} {V U : Type} [Fintype V] [Fintype U] (b : Backend nA V U)
    (maps : Option (Fin nA → Fin nD → Arr V)) (psf : Option (Arr U → Arr U)) (ph : Arr V) : Arr (Fin nD × Fin nA × U) :=
  match maps with
  | none => fun q => (plainProjector b).fp ph q.2
  | some m => (xrfProjector b m psf).fp ph

/-- `create_sino` (src/corrct/testing.py:323-409): sinogram, expected production per voxel and background (the angles are
`scanAngles`). -/
noncomputable def createSino {nA nD : ℕ} {V U : Type} [Fintype V] [Fintype U] (rnd : Draws (Fin nD × Fin nA × U)) (b : Backend nA V U)
    (maps : Option (Fin nA → Fin nD → Arr V)) (psf : Option (Arr U → Arr U)) (ph : Arr V) (dwell flux : ℝ) (addPoisson : Bool)
    (readoutStd backgroundAvg backgroundStd : Option ℝ) : Option (Arr (Fin nD × Fin nA × U) × Arr V × ℝ) :=
  let numPhotons := flux * dwell
  (addNoise rnd (cleanSino b maps psf ph) numPhotons sinoSolidAngle addPoisson readoutStd backgroundAvg backgroundStd).map
    fun r => (r.1, fun j => ph j * numPhotons * sinoSolidAngle, r.2.2)

/-- `create_sino_transmission` (src/corrct/testing.py:412-480): sinogram, flat field and phantom. -/
noncomputable def createSinoTransmission {nA : ℕ} {V U : Type} [Fintype V] [Fintype U] (rnd rndFlat : Draws (Fin nA × U))
    (b : Backend nA V U) (psf : Option (Arr U → Arr U)) (ph : Arr V) (dwell flux : ℝ) (addPoisson : Bool) (readoutStd : Option ℝ) :
    Option (Arr (Fin nA × U) × Arr (Fin nA × U) × Arr V) :=
  let numPhotons := flux * dwell
  let sino : Arr (Fin nA × U) := fun q => Real.exp (-(Uncorrected.fp ⟨b, none, psf⟩ ph q))
  match addNoise rnd sino numPhotons 1 addPoisson readoutStd none none with
  | none => none
  | some s =>
    match addNoise rndFlat (fun _ => 1) numPhotons 1 addPoisson readoutStd none none with
    | none => none
    | some f => some (s.1, f.1, ph)

/-- `compute_error_power` (src/corrct/testing.py:483-502). -/
noncomputable def errorPower {V : Type} [Fintype V] (expected computed : Arr V) : ℝ × ℝ :=
  (Real.sqrt ((∑ j, expected j ^ 2) / Fintype.card V),
   Real.sqrt ((∑ j, |expected j - computed j| ^ 2) / Fintype.card V))

end Verif
