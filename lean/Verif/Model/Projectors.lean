import Verif.Model.Operators
import Mathlib.Analysis.SpecialFunctions.Exp

/-!
# Model of `src/corrct/projectors.py`, of `compute_attenuation` (`src/corrct/_projector_backends.py`) and of the attenuation
maps (`src/corrct/physics/attenuation.py`)

The ray tracing itself (ASTRA, scikit-image) is a parameter: one forward and one back-projection per angle. `V` are the
voxels, `U` the detector pixels of one angle, `Fin nA` the angles and `Fin nD` the detectors.
-/

namespace Verif
open Classical

variable {V U : Type} [Fintype V] [Fintype U]

/-- A projector backend (src/corrct/_projector_backends.py:102-248): single-angle forward and back-projection. The calls with
`angle_ind=None` project all the angles, i.e. stack the single-angle projections / sum the single-angle back-projections
(:327-332, :352-357); for ASTRA, this relation between its two calls is an assumption. -/
structure Backend (nA : ℕ) (V U : Type) where
  fp : Arr V → Fin nA → Arr U
  bp : Arr U → Fin nA → Arr V

/-- `projector_backend.fp(vol)`: all angles (src/corrct/_projector_backends.py:327-332). -/
def Backend.fpAll {nA : ℕ} (b : Backend nA V U) (vol : Arr V) : Arr (Fin nA × U) := fun q => b.fp vol q.1 q.2

/-- `projector_backend.bp(prj)`: all angles (src/corrct/_projector_backends.py:352-357). -/
def Backend.bpAll {nA : ℕ} (b : Backend nA V U) (prj : Arr (Fin nA × U)) : Arr V := fun j =>
  ∑ a, b.bp (fun u => prj (a, u)) a j

/-- `ProjectorUncorrected` (src/corrct/projectors.py:103-257): backend, projection intensities and point spread function. `psf`
stands for the operators `psf_vu` and `psf_vwu`, created with `is_symm=False`, whose transpose returns its argument
(:229-244 and src/corrct/operators.py:486-496). Simplification: the PSF acts within one angle. -/
structure Uncorrected (nA : ℕ) (V U : Type) where
  backend : Backend nA V U
  intensities : Option (Fin nA → ℝ)
  psf : Option (Arr U → Arr U)

variable {nA nD : ℕ}

/-- `prj_vu *= self.prj_intensities[angle_ind]`, if there are intensities (src/corrct/projectors.py:275-276, 296-297). -/
def Uncorrected.scale (p : Uncorrected nA V U) (a : Fin nA) (prj : Arr U) : Arr U :=
  match p.intensities with
  | some i => fun u => prj u * i a
  | none => prj

/-- `ProjectorUncorrected.fp_angle` (src/corrct/projectors.py:259-279). -/
def Uncorrected.fpAngle (p : Uncorrected nA V U) (vol : Arr V) (a : Fin nA) : Arr U :=
  let prj := p.scale a (p.backend.fp vol a)
  match p.psf with
  | some f => f prj
  | none => prj

/-- `ProjectorUncorrected.bp_angle` (src/corrct/projectors.py:281-300); `self.psf_vu.T` is the identity. -/
def Uncorrected.bpAngle (p : Uncorrected nA V U) (prj : Arr U) (a : Fin nA) : Arr V :=
  p.backend.bp (p.scale a prj) a

/-- `ProjectorUncorrected.fp` (src/corrct/projectors.py:302-321). -/
def Uncorrected.fp (p : Uncorrected nA V U) (vol : Arr V) : Arr (Fin nA × U) := fun q =>
  let prj := p.scale q.1 fun u => p.backend.fpAll vol (q.1, u)
  match p.psf with
  | some f => f prj q.2
  | none => prj q.2

/-- `ProjectorUncorrected.bp` (src/corrct/projectors.py:323-341). -/
def Uncorrected.bp (p : Uncorrected nA V U) (prj : Arr (Fin nA × U)) : Arr V :=
  p.backend.bpAll fun q => p.scale q.1 (fun u => prj (q.1, u)) q.2

/-- `ProjectorAttenuationXRF` (src/corrct/projectors.py:344-475). -/
structure Xrf (nA nD : ℕ) (V U : Type) extends Uncorrected nA V U where
  attVolAngles : Fin nA → Fin nD → Arr V
  weightsDet : Fin nD → ℝ
  weightsAngles : Fin nA → Fin nD → ℝ
  isSymmetric : Bool

/-- `ProjectorAttenuationXRF.fp_angle` (src/corrct/projectors.py:502-531): one line per detector. (For a single detector the
detector axis is squeezed away: same values.) -/
def Xrf.fpAngle (p : Xrf nA nD V U) (vol : Arr V) (a : Fin nA) : Arr (Fin nD × U) := fun q =>
  p.weightsDet q.1 * p.weightsAngles a q.1 *
    p.toUncorrected.fpAngle (fun j => vol j * p.attVolAngles a q.1 j) a q.2

/-- `ProjectorAttenuationXRF.bp_angle` of a single line (src/corrct/projectors.py:533-568). -/
def Xrf.bpAngle (p : Xrf nA nD V U) (line : Arr (Fin nD × U)) (a : Fin nA) : Arr V := fun j =>
  ∑ d, p.weightsDet d * p.weightsAngles a d * p.toUncorrected.bpAngle (fun u => line (d, u)) a j *
    (if p.isSymmetric then p.attVolAngles a d j else 1)

/-- `np.stack` of the lines of all angles (src/corrct/projectors.py:591). -/
def Xrf.stack (lines : Fin nA → Arr (Fin nD × U)) : Arr (Fin nD × Fin nA × U) := fun q => lines q.2.1 (q.1, q.2.2)

/-- `ProjectorAttenuationXRF.fp`, serial branch (src/corrct/projectors.py:589-596). -/
def Xrf.fp (p : Xrf nA nD V U) (vol : Arr V) : Arr (Fin nD × Fin nA × U) := Xrf.stack (p.fpAngle vol)

/-- `ProjectorAttenuationXRF.bp` (src/corrct/projectors.py:598-622), serial branch: the symmetric one sums the single-angle
back-projections, the other one back-projects every detector without weights. -/
def Xrf.bp (p : Xrf nA nD V U) (sino : Arr (Fin nD × Fin nA × U)) : Arr V :=
  if p.isSymmetric then fun j => ∑ a, p.bpAngle (fun q => sino (q.1, a, q.2)) a j
  else fun j => ∑ d, p.toUncorrected.bp (fun q => sino (d, q.1, q.2)) j

/-- `collapse_detectors` (src/corrct/projectors.py:492-500), the numbers it computes: weighted means of the maps and of the
angle weights, and the sum of the detector weights. In the code the detector axis of the maps is *dropped* (`np.sum` without
`keepdims`), see `Xrf.collapsedSlice`. -/
noncomputable def Xrf.collapse (p : Xrf nA nD V U) : Xrf nA 1 V U :=
  { p with
    attVolAngles := fun a _ j => ∑ d, p.attVolAngles a d j * (p.weightsDet d / ∑ d', p.weightsDet d')
    weightsAngles := fun a _ => ∑ d, p.weightsAngles a d * (p.weightsDet d / ∑ d', p.weightsDet d')
    weightsDet := fun _ => ∑ d, p.weightsDet d }

/-- What `fp_angle` hands to the backend for detector 0 after `collapse_detectors`, for a volume with rows `R` and columns `C`:
`temp_vol` has no detector axis any more, so `temp_vol[0]` is its first row (src/corrct/projectors.py:519-525 and :494-495). -/
noncomputable def Xrf.collapsedSlice {r : ℕ} {C : Type} (p : Xrf nA nD (Fin (r + 1) × C) U) (vol : Arr (Fin (r + 1) × C))
    (a : Fin nA) : Arr C := fun c => vol (0, c) * p.collapse.attVolAngles a 0 (0, c)

/-! ## Shapes -/

/-- Shape of the array returned by `ProjectorAttenuationXRF.fp` for lines of shape `line` per detector: stack over detectors,
squeeze a detector axis of size one, stack over the angles on axis -2, squeeze a leading axis of size one
(src/corrct/projectors.py:526-531, 591-596). -/
def xrfFpShape (nA nD : ℕ) (line : List ℕ) : List ℕ :=
  let s := nD :: line
  let s := if s.head? = some 1 then s.tail else s
  let s := s.dropLast ++ [nA] ++ s.getLast?.toList
  if s.head? = some 1 then s.tail else s

/-- Whether `sino[..., angle_ind, :]` is a valid index, and the shape it gives (src/corrct/projectors.py:555): two axes
are needed. `none` is an `IndexError`. -/
def angleSliceShape (s : List ℕ) : Option (List ℕ) :=
  if 2 ≤ s.length then some (s.dropLast.dropLast ++ s.getLast?.toList) else none

/-! ## Detector weights and attenuation maps given to the constructor -/

/-- The detector weights kept by `ProjectorAttenuationXRF.__init__` (src/corrct/projectors.py:439-453) for `nD` detectors:
ones by default; a single weight is repeated if there are several detectors; the count is only compared with the number of
detectors if there are several of them. `none` is `ValueError`. (An empty list passes both tests.) -/
def xrfWeights (nD : ℕ) (weights : Option (List ℝ)) : Option (List ℝ) :=
  let w := match weights with | none => List.replicate nD 1 | some w => w
  if 1 < nD then
    if w.length = 1 then some (List.replicate nD (w.headD 0))
    else if 1 < w.length ∧ w.length ≠ nD then none
    else some w
  else some w

/-- The weights that `fp_angle` multiplies the lines of the detectors with, without angle weights: `weights[ii]` for `ii` in
the range of the detectors (src/corrct/projectors.py:521-525; `weights_angles[angle_ind, :]` are `nD` ones,
:455-456, and broadcasting `k` weights against `nD` ones needs `k = nD`, `k = 1` or `nD = 1`). `none` is an exception. -/
def xrfLineWeights (nD : ℕ) (kept : List ℝ) : Option (List ℝ) :=
  if kept.length = nD ∨ kept.length = 1 ∨ nD = 1 then
    let weights := if kept.length = 1 then List.replicate nD (kept.headD 0) else kept
    if nD ≤ weights.length then some (weights.take nD) else none
  else none

/-- Whether the `np.reshape(sino, [len(weights_det), …])` of `bp_angle` and `bp` (src/corrct/projectors.py:557, 620) accepts
the sinogram of `nD` detectors with `n` values each, as `fp` returns it. -/
def xrfBackAccepts (nD n : ℕ) (kept : List ℝ) : Prop := kept.length * n = nD * n

/-- The tests on `att_maps` in `ProjectorAttenuationXRF.__init__` (src/corrct/projectors.py:465-473): axis 1 must count the
detectors and the last two axes must be those of the volume. -/
def xrfMapsAccepted (nD : ℕ) (mapsShape volShape : List ℕ) : Prop :=
  mapsShape[1]? = some nD ∧ mapsShape.drop (mapsShape.length - 2) = volShape.drop (volShape.length - 2)

/-! ## Thread pools -/

/-- A thread pool working through tasks `0 … n-1` (`ThreadPoolExecutor.map` / `submit`, src/corrct/projectors.py:586-587,
613-614 and src/corrct/physics/attenuation.py:145-157): tasks not started yet, tasks being executed, results by task. -/
structure Pool (R : Type) (n : ℕ) where
  next : ℕ
  running : List (Fin n)
  done : Fin n → Option R

/-- What can happen next: a free worker takes the next task from the queue, or any running task finishes. -/
inductive Pool.Step {R : Type} {n : ℕ} (workers : ℕ) (task : Fin n → R) : Pool R n → Pool R n → Prop
  | start (p : Pool R n) (h : p.next < n) (hw : p.running.length < workers) :
      Pool.Step workers task p { p with next := p.next + 1, running := ⟨p.next, h⟩ :: p.running }
  | finish (p : Pool R n) (i : Fin n) (hi : i ∈ p.running) :
      Pool.Step workers task p
        { p with running := p.running.erase i, done := Function.update p.done i (some (task i)) }

/-- The pool before the first task. -/
def Pool.init {R : Type} {n : ℕ} : Pool R n := ⟨0, [], fun _ => none⟩

/-- `[*executor.map(…)]`: the results in the order of the tasks, once they are all there. -/
def Pool.results {R : Type} {n : ℕ} (p : Pool R n) : Option (Fin n → R) :=
  if h : ∀ i, (p.done i).isSome then some fun i => (p.done i).get (h i) else none

/-- The loop over `cf.as_completed` in `compute_maps` (src/corrct/physics/attenuation.py:146-157): the maps are multiplied by
the results in the order the tasks complete. -/
def asCompleted {nA : ℕ} {K : Type} (result : Fin nA → Arr K) : List (Fin nA) → (Fin nA → Arr K) → Fin nA → Arr K
  | [], maps => maps
  | i :: order, maps => asCompleted result order (Function.update maps i fun q => maps i q * result i q)

/-! ## Attenuation -/

/-- The padding of `compute_attenuation` along an axis of size `s`, for a slice of size `r × c`
(src/corrct/_projector_backends.py:75-77): `ceil((ceil(sqrt(r² + c²)) - s) / 2)`. -/
noncomputable def attEdge (r c s : ℕ) : ℤ := ⌈((⌈Real.sqrt ((r : ℝ) ^ 2 + (c : ℝ) ^ 2)⌉ : ℝ) - s) / 2⌉

/-- Size of `x[e:-e]` for an axis of size `m` (NumPy slicing; `e ≥ 0`). -/
def sliceSize (m : ℤ) (e : ℤ) : ℤ :=
  let stop := if -e < 0 then m - e else min (-e) m
  max 0 (stop - e)

/-- `compute_cumsum` without the two rotations (src/corrct/_projector_backends.py:70-71): `vol += np.roll(vol, 1, axis=-2)`,
then `np.cumsum(vol / 2, axis=-2)`; `H` rows (the propagation direction), columns `C`. -/
noncomputable def cumAlong {H : ℕ} {C : Type} (vol : Arr (Fin H × C)) : Arr (Fin H × C) := fun p =>
  ∑ k : Fin H, if k ≤ p.1 then
    (vol (k, p.2) + vol (⟨if (k : ℕ) = 0 then H - 1 else k - 1, by have := k.2; split <;> omega⟩, p.2)) / 2 else 0

/-- `compute_attenuation` (src/corrct/_projector_backends.py:43-99) for one slice: pad, rotate, accumulate, rotate back, crop,
`exp(-x)`. `rot`/`rotBack` stand for `skimage.transform.rotate` (bilinear interpolation); `emb`: the position in the padded
slice of each pixel. -/
noncomputable def computeAttenuation {P : Type} {H : ℕ} {C : Type} (pad : Arr P → Arr (Fin H × C))
    (rot rotBack : Arr (Fin H × C) → Arr (Fin H × C)) (emb : P → Fin H × C) (vol : Arr P) : Arr P := fun j =>
  Real.exp (-(rotBack (cumAlong (rot (pad vol))) (emb j)))

/-- Padding with zeros (src/corrct/_projector_backends.py:62-65). -/
noncomputable def zeroPad {P Q : Type} (emb : P → Q) (vol : Arr P) : Arr Q := fun q =>
  if h : ∃ j, emb j = q then vol h.choose else 0

/-- The map of one angle and detector (src/corrct/physics/attenuation.py:104-123, 137-172): the attenuation of the incident
beam times the mean over the sub-angles of the emitted one; either may be absent. -/
noncomputable def attMap {P : Type} {nSub : ℕ} (incident : Option (Arr P)) (emitted : Option (Fin nSub → Arr P)) : Arr P :=
  fun j => (incident.elim 1 fun m => m j) * (emitted.elim 1 fun ms => (∑ s, ms s j) / nSub)

end Verif
