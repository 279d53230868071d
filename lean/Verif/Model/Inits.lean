import Verif.Model.Physics

/-!
# Model of constructors: `AttenuationVolume` (`src/corrct/physics/attenuation.py`) and `DetectorShiftsBase` (`src/corrct/alignment/shifts.py`)
-/

namespace Verif

/-! ## Attenuation volumes -/

/-- A detector position as passed: a Python `int`, a Python `float` (`numpy.float64` is one), a NumPy number of another type (`numpy.float32`,
`numpy.int64`: not instances of `float`), or a `DetectorXRF`. -/
inductive DetArg where
  | int (z : ℤ) | float (x : ℝ) | npOther (x : ℝ) | det (d : DetectorXrf)

/-- One entry of the loop (src/corrct/physics/attenuation.py:69-77): `none` is the `ValueError`. -/
def DetArg.detector : DetArg → Option DetectorXrf
  | .det d => some d
  | .float x => some ⟨0, 1, x⟩
  | _ => none

/-- The argument `angles_det_rad`: a single value, or a sequence (or array) of them. -/
inductive DetArgs where
  | one (a : DetArg)
  | seq (l : List DetArg)

/-- `self.detectors` (src/corrct/physics/attenuation.py:66-77): `none` is an exception (`ValueError`, or the `TypeError` of iterating over a
NumPy number). -/
def DetArgs.detectors : DetArgs → Option (List DetectorXrf)
  | .one (.npOther _) => none
  | .one a => [a].mapM DetArg.detector
  | .seq l => l.mapM DetArg.detector

/-- `np.any(a != b)` for shapes (src/corrct/physics/attenuation.py:84), as `false`: all entries are equal after broadcasting. Shapes of different
lengths, none of length 1, cannot be compared, which is a `ValueError` too. -/
def shapesAgree (a b : List ℕ) : Bool :=
  if a.length = b.length then a == b
  else if b.length = 1 then a.all (· == b.headD 0)
  else if a.length = 1 then b.all (· == a.headD 0)
  else false

/-- `vol_shape_zyx` (src/corrct/physics/attenuation.py:81-100), from the shapes of the incident and the emitted volume; `none` is the
`ValueError`. -/
def attVolShape (incident emitted : Option (List ℕ)) : Option (List ℕ) :=
  let shape := match incident, emitted with
    | some a, some b => if shapesAgree a b then some a else none
    | some a, none => some a
    | none, e => e
  match shape with
  | some s => if s.length = 2 ∨ s.length = 3 then some s else none
  | none => none

/-- `AttenuationVolume.__init__` (src/corrct/physics/attenuation.py:46-100): detectors and shape. -/
def attVolInit (incident emitted : Option (List ℕ)) (dets : DetArgs) : Option (List DetectorXrf × List ℕ) :=
  match dets.detectors, attVolShape incident emitted with
  | some d, some s => some (d, s)
  | _, _ => none

/-- `_get_detector_angles` (src/corrct/physics/attenuation.py:102-103). -/
def detectorAngles (l : List DetectorXrf) : List ℝ := l.map (·.angle)

/-! ## Alignment of detector shifts -/

/-- `data_shapes[k]` (src/corrct/alignment/shifts.py:78-82): the sizes of the last axes, named by the last letters of `data_format`; the others have
the defaults `u=0, v=1, w=0, d=1`. For formats of at least as many letters as axes; later letters overwrite. -/
def dataSize (format : List Char) (shape : List ℕ) (k : Char) : ℕ :=
  let named := ((format.drop (format.length - shape.length)).zip shape).reverse
  (named.lookup k).getD (if k = 'v' ∨ k = 'd' then 1 else 0)

/-- Entry `shape[-k]`. -/
def fromEnd (shape : List ℕ) (k : ℕ) : Option ℕ := if k ≤ shape.length then shape[shape.length - k]? else none

/-- What the constructor stores. -/
structure ShiftSetup where
  numDets : ℕ
  maxShifts : List ℝ

/-- `DetectorShiftsBase.__init__` (src/corrct/alignment/shifts.py:40-111), without the borders: `none` is an exception (`ValueError` if the number of
angles differs, `IndexError` if there is no third last axis). A single number as `maxShifts` is an array of one entry. -/
noncomputable def shiftSetup (format : List Char) (shape : List ℕ) (numAngles : ℕ) (maxShifts : Option (List ℝ)) : Option ShiftSetup :=
  if format.length < shape.length then none
  else if dataSize format shape 'w' ≠ numAngles then none
  else
    let coords := if 1 < dataSize format shape 'v' then [3, 1] else [1]
    match maxShifts with
    | some l => some ⟨dataSize format shape 'd', l⟩
    | none => (coords.mapM (fromEnd shape)).map fun l => ⟨dataSize format shape 'd', l.map fun s : ℕ => (s : ℝ) / 2⟩

/-- The range of indices kept along an axis of `n` entries by the borders (src/corrct/alignment/shifts.py:93-95): `slice(s, -s)` for `s > 0`. -/
def borderRange (n : ℕ) (border : Option ℤ) : ℕ × ℕ :=
  match border with
  | some s => if 0 < s then (min s.toNat n, n - s.toNat) else (0, n)
  | none => (0, n)

end Verif
