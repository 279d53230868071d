import Verif.Model.ConeSetup

/-!
# Model of the shapes, indices and geometry vectors of the two ASTRA backends

`ProjectorBackendASTRA` and `ProjectorBackendDirectASTRA` of src/corrct/_projector_backends.py, apart from the ASTRA objects
themselves (Model/AstraLifecycle.lean): which arrays `fp` returns, which arrays `bp` takes, what is left in the projection geometry
of the user, which projector an index selects, and which vectors are handed to ASTRA.
-/

namespace Verif

namespace Astra

/-- The two backends (src/corrct/_projector_backends.py:362, :671). -/
inductive Kind where
  | astra | direct
  deriving DecidableEq

/-- `shape[-k]` for `k ≥ 1`. -/
def fromEnd (s : List ℕ) (k : ℕ) : Option ℕ := if k ≤ s.length then s[s.length - k]? else none

/-- What `initialize_geometry` keeps about shapes: `prj_shape_vwu`, `prj_shape_vu`, the shapes of the arrays linked to ASTRA (for the
direct backend `astra_prj_shape`, `astra_angle_prj_shape`), the shape of a single projection returned by the direct backend
(`angle_prj_shape`) and `has_individual_projs`. -/
structure Shapes where
  vwu : List ℕ
  vu : List ℕ
  linkedVwu : List ℕ
  linkedVu : List ℕ
  angleOut : List ℕ
  single : Bool

/-- `np.array([*det[:-1], w, det[-1]])` (src/corrct/_projector_backends.py:435-436, 734-735). -/
def withAngles (det : List ℕ) (w : ℕ) : List ℕ := det.dropLast ++ [w] ++ det.getLast?.toList

/-- `np.delete(shape, obj=-2)` put at the end of two ones (src/corrct/_projector_backends.py:740-742). -/
def padTwo (vwu : List ℕ) : List ℕ :=
  let vu := vwu.take (vwu.length - 2) ++ (fromEnd vwu 1).toList
  List.replicate (2 - vu.length) 1 ++ vu

/-- `initialize_geometry` (src/corrct/_projector_backends.py:121-160, 382-483, 679-769), the shapes: the volume shape in XYZ, the
voxel size, the number of angles, the `det_shape_vu` of the geometry that was passed, and `create_single_projs`. -/
noncomputable def shapes (k : Kind) (xyz : List ℕ) (vox : ℝ) (nA : ℕ) (det : Option (List ℕ)) (single : Bool) : Shapes :=
  let vwu := prjShape xyz vox nA
  let vu := prjShape xyz vox 1
  match k with
  | .astra =>
    match det with
    | none => ⟨vwu, vu, vwu, vu, vu, single⟩
    | some d =>
      let vwu := if is3D xyz then withAngles d nA else [nA] ++ d.getLast?.toList
      let vu := if is3D xyz then withAngles d 1 else [1] ++ d.getLast?.toList
      ⟨vwu, vu, vwu, vu, vu, single⟩
  | .direct =>
    let vwu := match det with | none => vwu | some d => withAngles d nA
    let vu := match det with | none => vu | some d => withAngles d 1
    let d3 := padTwo vwu
    ⟨vwu, vu, withAngles d3 nA, withAngles d3 1, d3, single⟩

/-- The `det_shape_vu` of the *passed* geometry after `initialize_geometry`: the ASTRA backend writes the default into the object
(src/corrct/_projector_backends.py:431-432, 456-457); the direct one works on the copy made by `get_3d` (:737). -/
noncomputable def detShapeAfter (k : Kind) (xyz : List ℕ) (vox : ℝ) (nA : ℕ) (det : Option (List ℕ)) : Option (List ℕ) :=
  match k, det with
  | .direct, d => d
  | .astra, some d => some d
  | .astra, none =>
    let vwu := prjShape xyz vox nA
    if is3D xyz then some ((fromEnd vwu 3).toList ++ (fromEnd vwu 1).toList) else some (fromEnd vwu 1).toList

/-- `_check_prj_shape` (src/corrct/_projector_backends.py:545-555): only the axes of `prj_shape_vu` longer than one are compared,
counted from the end; `np.array(prj.shape)[inds]` is an `IndexError` for arrays with too few axes. -/
def checkPrjShape (vu given : List ℕ) : Except String Unit :=
  let inds := ((List.range vu.length).map (· + 1)).filter fun i => decide (1 < (fromEnd vu i).getD 0)
  if inds.any fun i => decide (given.length < i) then .error "IndexError"
  else if inds.any fun i => decide (fromEnd given i ≠ fromEnd vu i) then .error "ValueError"
  else .ok ()

/-- `_check_data`, the reshape (src/corrct/_projector_backends.py:534-543): the number of elements must agree. -/
def checkData (given expected : List ℕ) : Except String Unit :=
  if given.prod = expected.prod then .ok () else .error "ValueError"

/-- The shape of what `fp` returns, for all angles or for one (src/corrct/_projector_backends.py:565-615, 785-815): the ASTRA
backend squeezes; the direct one reshapes to `prj_shape_vwu`, or to `(V, U)` for one angle. (The checks on the volume and on the index are
not part of this definition.) -/
def fpShape (k : Kind) (s : Shapes) (one : Bool) : Except String (List ℕ) :=
  if one = true ∧ s.single = false then .error "ValueError"
  else match k, one with
    | .astra, false => .ok (s.vwu.filter (· ≠ 1))
    | .astra, true => .ok (s.vu.filter (· ≠ 1))
    | .direct, false => .ok s.vwu
    | .direct, true => .ok s.angleOut

/-- The checks of `bp` on an array of projections of shape `given` (src/corrct/_projector_backends.py:617-647, 817-843). -/
def bpChecks (s : Shapes) (one : Bool) (given : List ℕ) : Except String Unit := do
  checkPrjShape s.vu given
  if one then
    if s.single = false then .error "ValueError"
    else checkData given s.linkedVu
  else checkData given s.linkedVwu

/-! ## Selecting one angle -/

/-- A projector created by `make_ready`: for one angle, or for all of them. -/
inductive Proj where
  | one (angle : ℕ) | all
  deriving DecidableEq

/-- `proj_id` after `make_ready` with individual projectors (src/corrct/_projector_backends.py:525-530, 778-781): those of the angles, then
the one of all angles. -/
def projIds (nA : ℕ) : List Proj := (List.range nA).map Proj.one ++ [.all]

/-- Python's `l[i]`: negative indices count from the end; `none` is an `IndexError`. -/
def pyGet {α : Type} (l : List α) (i : ℤ) : Option α :=
  if 0 ≤ i then l[i.toNat]? else if -(l.length : ℤ) ≤ i then l[(l.length + i).toNat]? else none

/-- The angle of the geometry of the linked data, and the projector, that `fp(vol, angle_ind)` and `bp(prj, angle_ind)` of the ASTRA backend
use (src/corrct/_projector_backends.py:593-594, 646-647); `none` is an `IndexError`. -/
def selected (nA : ℕ) (i : ℤ) : Option (ℕ × Proj) := do
  let a ← pyGet (List.range nA) i
  let p ← pyGet (projIds nA) i
  pure (a, p)

/-- The projector that the direct backend uses (src/corrct/_projector_backends.py:810, 843). -/
def selectedDirect (nA : ℕ) (i : ℤ) : Option Proj := pyGet (projIds nA) i

/-! ## Vectors -/

open V3

/-- One row of the `vectors` of a 3D ASTRA geometry: source position or beam direction, centre of the detector, and the steps from a
detector pixel to the next along U and V (src/corrct/_projector_backends.py:440-448). -/
structure Vec where
  src : V3
  det : V3
  u : V3
  v : V3

/-- The rows of `vectors` (src/corrct/_projector_backends.py:438-448, 475 for 3D volumes, :744-754): the fields of the rotated
geometry, divided by `pix2vox_ratio` (`get_field_scaled`, src/corrct/models.py:324-342); the ASTRA backend also divides all of them by the
voxel size (:475). For geometries with one row per array. -/
noncomputable def vectors (k : Kind) (g : PrjGeom) (vox : ℝ) (angles : List ℝ) : List Vec :=
  let r := g.rotate angles
  let s : V3 → V3 := fun v => smul (1 / g.pix2vox) v
  let s : V3 → V3 := match k with | .astra => fun v => smul (1 / vox) (s v) | .direct => s
  (List.range angles.length).map fun i =>
    ⟨s (r.srcPos.getD i 0), s (r.detPos.getD i 0), s (r.detU.getD i 0), s (r.detV.getD i 0)⟩

/-- The centre of voxel `i` of `n` along one axis in the coordinates of ASTRA: the volume is created with the window
`vol_geom.extent` (src/corrct/_projector_backends.py:427, 727; `extent`, src/corrct/models.py:479-490), which is divided in `n` voxels. -/
noncomputable def voxelCentre (vox : ℝ) (n : ℕ) (i : ℕ) : ℝ :=
  let w := volExtent ([n], vox)
  w.getD 0 0 + (i + 1 / 2) * ((w.getD 1 0 - w.getD 0 0) / n)

end Astra

end Verif
