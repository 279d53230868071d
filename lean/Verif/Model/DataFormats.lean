import Verif.Model.Geometry

/-!
# Model of the factories of geometries that take the shape of the data

`_get_data_dims`, `get_vol_geom_from_data` and the detector shapes of `get_prj_geom_parallel` and `get_prj_geom_cone`
(src/corrct/models.py), for every data format, padding and super-sampling.  Sizes computed by subtraction are integers, as in Python: they can
be negative.
-/

namespace Verif

namespace DataFormat

/-- The exceptions. -/
inductive Exc where
  | indexError | valueError | zeroDivision
  deriving DecidableEq

/-- `_get_data_dims` (src/corrct/models.py:608-612): `data_format[ii]` names axis `ii` of the data for `ii = -len(shape), …, -1`; an `IndexError` for
data with more axes than letters; a letter written twice names the later axis. Letters without an axis are `None`. -/
def dataDims (format : List Char) (shape : List ℕ) : Except Exc (Char → Option ℕ) :=
  if format.length < shape.length then .error .indexError
  else .ok (((format.drop (format.length - shape.length)).zip shape).foldl
    (fun d e => Function.update d e.1 (some e.2)) fun _ => none)

/-- `padding_u`: an integer, or a sequence (src/corrct/models.py:759-766). -/
inductive Padding where
  | int (p : ℤ)
  | seq (l : List ℤ)

/-- What is subtracted from the size along U (src/corrct/models.py:759-766). -/
def Padding.total : Padding → Except Exc ℤ
  | .int p => .ok (p * 2)
  | .seq [a, b] => .ok (a + b)
  | .seq _ => .error .valueError

/-- A volume geometry: its shape in XYZ and the size of its voxels (src/corrct/models.py:420-429). -/
structure VolGeom where
  xyz : List ℤ
  vox : ℝ

/-- `get_vol_geom_from_data` (src/corrct/models.py:731-773; also `VolumeGeometry.get_default_from_data`, :516-533). -/
noncomputable def volGeomOfData (format : List Char) (shape : List ℕ) (pad : Padding) (ss : ℕ) : Except Exc VolGeom := do
  let dims ← dataDims format shape
  match dims 'u' with
  | none => .error .valueError
  | some u => do
    let t ← pad.total
    let n : ℤ := u - t
    if ss = 0 then .error .zeroDivision
    else .ok ⟨([n, n] ++ ((dims 'v').map fun v : ℕ => (v : ℤ)).toList).map (· * (ss : ℤ)), 1 / ss⟩

/-- `geom_type.lower()` of `get_prj_geom_parallel`, in lower-case already: the name of the geometry (src/corrct/models.py:639-642). -/
def parallelName (geomType : List Char) : List Char := "parallel".toList ++ geomType

/-- `ndim` of a name with `parallel` in it (src/corrct/models.py:125-136): the last but one character, if it is a digit. -/
def parallelNdim (name : List Char) : Option ℕ :=
  match name.reverse with
  | _ :: c :: _ => if c.isDigit then some (c.toNat - '0'.toNat) else none
  | _ => none

/-- The detector shape of `get_prj_geom_parallel` with `data_shape` (src/corrct/models.py:657-673; `set_detector_shape_vu`, :163-171). -/
def parallelDetShape (geomType : List Char) (format : List Char) (shape : List ℕ) : Except Exc (List ℕ) := do
  let dims ← dataDims format shape
  match dims 'u' with
  | none => .error .valueError
  | some u =>
    if geomType = "3d".toList then
      match dims 'v' with
      | none => .error .valueError
      | some v => .ok [v, u]
    else .ok [u]

/-- The detector shape of `get_prj_geom_cone` with `data_shape` (src/corrct/models.py:718-726). -/
def coneDetShape (format : List Char) (shape : List ℕ) : Except Exc (List ℕ) := do
  let dims ← dataDims format shape
  match dims 'v', dims 'u' with
  | some v, some u => .ok [v, u]
  | _, _ => .error .valueError

/-- `rot_axis_dir` as a name (any letter case) or as a direction (src/corrct/models.py:578-605). -/
inductive RotDir where
  | name (s : String)
  | vec (l : List ℝ)

/-- `get_rot_axis_dir` (src/corrct/models.py:578-605). -/
def getRotAxisDir : RotDir → Except Exc (List ℝ)
  | .name s =>
    if s.toLower ∉ ["clockwise", "counter-clockwise"] then .error .valueError
    else if s.toLower = "clockwise" then .ok [0, 0, -1] else .ok [0, 0, 1]
  | .vec l => .ok l

end DataFormat

end Verif
