import Mathlib.Analysis.SpecialFunctions.Trigonometric.Inverse
import Mathlib.Analysis.Real.Sqrt
import Mathlib.Tactic

/-!
# Model of `src/corrct/models.py` (geometries) and of the geometric part of `src/corrct/alignment/cone_beam.py`
-/

namespace Verif

/-- A vector in XYZ coordinates (the rows of the `*_xyz` arrays of src/corrct/models.py:44-53). -/
@[ext] structure V3 where
  x : ℝ
  y : ℝ
  z : ℝ

namespace V3

instance : Add V3 := ⟨fun a b => ⟨a.x + b.x, a.y + b.y, a.z + b.z⟩⟩
instance : Sub V3 := ⟨fun a b => ⟨a.x - b.x, a.y - b.y, a.z - b.z⟩⟩
instance : Neg V3 := ⟨fun a => ⟨-a.x, -a.y, -a.z⟩⟩
instance : Zero V3 := ⟨⟨0, 0, 0⟩⟩

/-- Multiplication by a number. -/
def smul (k : ℝ) (a : V3) : V3 := ⟨k * a.x, k * a.y, k * a.z⟩

/-- Inner product. -/
def dot (a b : V3) : ℝ := a.x * b.x + a.y * b.y + a.z * b.z

/-- Vector product. -/
def cross (a b : V3) : V3 := ⟨a.y * b.z - a.z * b.y, a.z * b.x - a.x * b.z, a.x * b.y - a.y * b.x⟩

/-- `np.linalg.norm`. -/
noncomputable def norm (a : V3) : ℝ := Real.sqrt (dot a a)

end V3

open V3

/-- `scipy.spatial.transform.Rotation.from_rotvec(w).apply(v)`: rotation by the angle `|w|` around `w` (Rodrigues' formula; used
at src/corrct/models.py:284, 314 and src/corrct/alignment/cone_beam.py:136). -/
noncomputable def rotVec (w v : V3) : V3 :=
  let θ := norm w
  if θ = 0 then v
  else smul (Real.cos θ) v + smul (Real.sin θ / θ) (cross w v) + smul ((1 - Real.cos θ) / θ ^ 2 * dot w v) w

/-- The kinds of projection geometry (src/corrct/models.py:125-143). -/
inductive GeomType where
  | parallel2d | parallel3d | cone | fanflat
  deriving DecidableEq

/-- `ProjectionGeometry` with one row per angle in each array (src/corrct/models.py:44-63); an array with a single row is the
list with one element. -/
structure PrjGeom where
  geomType : GeomType
  srcPos : List V3
  detPos : List V3
  detU : List V3
  detV : List V3
  rotDir : V3
  pix2vox : ℝ
  detShape : Option (List ℕ)

/-- `ndim` (src/corrct/models.py:125-143). -/
def GeomType.ndim : GeomType → ℕ
  | .parallel2d | .fanflat => 2
  | .parallel3d | .cone => 3

/-- NumPy broadcasting of rotations (one per angle) over rows of vectors: one row is rotated by every rotation, one rotation
rotates every row, and equal numbers are paired. -/
noncomputable def applyRotations (ws : List V3) (vs : List V3) : List V3 :=
  match vs, ws with
  | [v], ws => ws.map fun w => rotVec w v
  | vs, [w] => vs.map fun v => rotVec w v
  | vs, ws => List.zipWith rotVec ws vs

/-- `rotate` (src/corrct/models.py:294-322), without `patch_astra_2d` (which flips the angles of 2D geometries). -/
noncomputable def PrjGeom.rotate (g : PrjGeom) (angles : List ℝ) : PrjGeom :=
  let ws := angles.map fun a => smul a g.rotDir
  { g with
    srcPos := applyRotations ws g.srcPos
    detPos := applyRotations ws g.detPos
    detU := applyRotations ws g.detU
    detV := applyRotations ws g.detV }

/-- `slice_array` of `__getitem__` for an integer index (src/corrct/models.py:75-79 and the `ndmin=2` of :59-63). -/
def sliceRows (vs : List V3) (i : ℕ) : List V3 := if 1 < vs.length then vs[i]?.toList else vs

/-- `__getitem__` with an integer index (src/corrct/models.py:65-87). -/
def PrjGeom.getItem (g : PrjGeom) (i : ℕ) : PrjGeom :=
  { g with srcPos := sliceRows g.srcPos i, detPos := sliceRows g.detPos i, detU := sliceRows g.detU i, detV := sliceRows g.detV i }

/-- `set_detector_shifts_vu` for a geometry with a single row per array (src/corrct/models.py:173-215): the detector is moved
along its axes by the shifts of every angle (vertical shifts optional), plus `cor_pos_u`, and along Y by `det_dist_y`. -/
noncomputable def setDetectorShifts (g : PrjGeom) (u v : V3) (shiftsV : Option (ℕ → ℝ)) (shiftsU : ℕ → ℝ) (n : ℕ) (cor : ℝ)
    (distY : ℝ) : PrjGeom :=
  { g with detPos := (List.range n).map fun i =>
      let p := (0 : V3) + smul (shiftsU i + cor) u
      let p := match shiftsV with
        | some sv => if g.geomType.ndim = 3 then p + smul (sv i) v else p
        | none => p
      ⟨p.x, p.y + distY, p.z⟩ }

/-- `project_displacement_to_detector` in 3D for one row (src/corrct/models.py:344-375): `(v, u)`. -/
def projectDisplacement (u v : V3) (disp : V3) : ℝ × ℝ := (dot v disp, dot u disp)

/-- `set_detector_tilt` (src/corrct/models.py:242-292) for an array of axes (`axisNdim` is its number of dimensions: a single axis
given with one dimension is the list of one axis): `ValueError` if there are several angles, a two-dimensional array of axes and
different numbers; then the loop over `zip(angles, tilt_axis)`. -/
noncomputable def setDetectorTilt (g : PrjGeom) (angles : List ℝ) (axes : List V3) (axisNdim : ℕ) (tiltSource : Bool) :
    Except String PrjGeom :=
  if axisNdim = 2 ∧ 1 < angles.length ∧ axes.length ≠ angles.length then .error "ValueError"
  else .ok ((List.zip angles axes).foldl (fun g p =>
    let w := smul p.1 p.2
    { g with
      srcPos := if tiltSource then g.srcPos.map (rotVec w) else g.srcPos
      detU := g.detU.map (rotVec w)
      detV := g.detV.map (rotVec w)
      detPos := g.detPos.map (rotVec w) }) g)

/-- `get_field_scaled`, whether it works (src/corrct/models.py:324-342): `int(geom_type[-2])` of a name that is not `cone`:
2 for `parallel2d`, 3 for `parallel3d`; for `fanflat` the character is `a`, a `ValueError`. The result tells whether the last
coordinate is dropped. -/
def fieldScaledDrops : GeomType → Option Bool
  | .cone => some false
  | .parallel2d => some true
  | .parallel3d => some false
  | .fanflat => none

/-- `get_3d` (src/corrct/models.py:145-161): 2D geometries get `geom_type.replace("2d", "3d")`. -/
def GeomType.get3d : GeomType → GeomType
  | .parallel2d => .parallel3d
  | t => t

/-- `get_pre_weights` at the pixel with detector coordinates `(pv, pu)` (src/corrct/models.py:377-417). -/
noncomputable def preWeight (src det u v : V3) (pv pu : ℝ) : ℝ :=
  let src2det := det + src
  let d := norm (smul pu u + smul pv v + src2det)
  norm src2det / (d + if d = 0 then 1 else 0)

/-- The coordinates of pixel `i` of `s` in `get_pre_weights`: `np.linspace(-s / 2, s / 2, s)` (src/corrct/models.py:405). -/
noncomputable def preWeightCoord (s i : ℕ) : ℝ := -(s : ℝ) / 2 + i * ((s : ℝ) / (s - 1))

/-- `get_rot_axis_dir` for the two names (src/corrct/models.py:578-605). -/
def rotAxisDir (clockwise : Bool) : V3 := if clockwise then ⟨0, 0, -1⟩ else ⟨0, 0, 1⟩

/-- `get_prj_geom_parallel` in 3D without shifts (src/corrct/models.py:615-675). -/
def prjGeomParallel (clockwise : Bool) : PrjGeom :=
  ⟨.parallel3d, [⟨0, -1, 0⟩], [0], [⟨1, 0, 0⟩], [⟨0, 0, 1⟩], rotAxisDir clockwise, 1, none⟩

/-- `get_prj_geom_cone` without shifts (src/corrct/models.py:678-728). -/
def prjGeomCone (dist : ℝ) (clockwise : Bool) : PrjGeom :=
  ⟨.cone, [⟨0, -dist, 0⟩], [0], [⟨1, 0, 0⟩], [⟨0, 0, 1⟩], rotAxisDir clockwise, 1, none⟩

/-! ## Volume geometries -/

/-- `shape_zxy` of a shape in XYZ order (src/corrct/models.py:453-466). -/
def shapeZxy (xyz : List ℕ) : List ℕ :=
  let zyx := xyz.reverse
  zyx.take (zyx.length - 2) ++ (zyx[zyx.length - 1]?).toList ++ (zyx[zyx.length - 2]?).toList

/-- The XYZ shape of `get_vol_geom_from_volume` (src/corrct/models.py:776-793); `none` is the `ValueError`. -/
def volGeomFromVolume (shape : List ℕ) : Option (List ℕ) :=
  if shape.length < 2 then none
  else some ((shape[shape.length - 2]?).toList ++ (shape[shape.length - 1]?).toList ++ (shape.take (shape.length - 2)).reverse)

/-- `is_3D` (src/corrct/models.py:492-501). -/
def is3D (xyz : List ℕ) : Bool := decide (xyz.length = 3) && decide (1 < xyz.getLast?.getD 0)

/-- `get_3d` of a volume shape (src/corrct/models.py:503-514). -/
def volGet3d (xyz : List ℕ) : List ℕ := if xyz.length = 2 then xyz ++ [1] else xyz

/-- `get_vol_geom_from_data` for data of shape `[v,] w, u` in the default format, with symmetric padding and super-sampling
(src/corrct/models.py:731-773): shape in XYZ; the voxel size is `1 / super_sampling`. -/
def volGeomFromData (v : Option ℕ) (u padding superSampling : ℕ) : List ℕ :=
  ([u - padding * 2, u - padding * 2] ++ v.toList).map (· * superSampling)

/-- The default projection shape of a backend (src/corrct/_projector_backends.py:150-156): `floor(shape_zxy * vox_size)`, with
the angles in the place of X. -/
noncomputable def prjShape (xyz : List ℕ) (voxSize : ℝ) (nAngles : ℕ) : List ℕ :=
  let eff := (shapeZxy xyz).map fun s : ℕ => ⌊(s : ℝ) * voxSize⌋₊
  eff.take (eff.length - 2) ++ [nAngles] ++ (eff[eff.length - 1]?).toList

/-- `combine_shifts_vu` of 1D arrays (src/corrct/models.py:553-575): `np.stack` on axis -2 of two squeezed arrays; for arrays of
one element the squeezed arrays have no axis and `np.stack` raises. -/
def combineShifts (v u : List ℝ) : Except String (List (List ℝ)) :=
  if v.length ≠ u.length then .error "ValueError"
  else if v.length = 1 then .error "AxisError"
  else .ok [v, u]

/-! ## Cone-beam geometries -/

/-- `ConeBeamGeometry` (src/corrct/alignment/cone_beam.py:56-74); the angles in radians. -/
structure ConeBeam where
  theta : ℝ
  phi : ℝ
  eta : ℝ
  D : ℝ
  R : ℝ
  v0 : ℝ
  u0 : ℝ
  sizeV : ℕ
  sizeU : ℕ

namespace ConeBeam

/-- `alpha_xyz` (src/corrct/alignment/cone_beam.py:114). -/
noncomputable def alpha (g : ConeBeam) : V3 := ⟨-Real.sin g.phi, -Real.cos g.phi, 0⟩

/-- `beta_xyz` (src/corrct/alignment/cone_beam.py:115). -/
noncomputable def beta (g : ConeBeam) : V3 :=
  ⟨-Real.sin g.theta * Real.cos g.phi, Real.sin g.theta * Real.sin g.phi, Real.cos g.theta⟩

/-- `e_n_xyz`, the detector normal (src/corrct/alignment/cone_beam.py:118). -/
noncomputable def normal (g : ConeBeam) : V3 :=
  ⟨Real.cos g.theta * Real.cos g.phi, -Real.cos g.theta * Real.sin g.phi, Real.sin g.theta⟩

/-- `translation_z` (src/corrct/alignment/cone_beam.py:126-128). -/
noncomputable def translationZ (g : ConeBeam) : ℝ :=
  let c := smul g.D g.normal + smul g.u0 g.alpha + smul g.v0 g.beta
  c.z / |c.x| * g.R

/-- `get_prj_geom` (src/corrct/alignment/cone_beam.py:99-150). `srcShift` is what `src_pos_xyz[2] += translation_z` really
adds: `translation_z` if the array is of floats, truncated if `R_pix` is an `int` (NumPy assignment into an integer array). -/
noncomputable def prjGeomWith (g : ConeBeam) (translate : Bool) (srcShift : ℝ) : PrjGeom where
  geomType := .cone
  srcPos := [smul g.R ⟨1, 0, 0⟩ + (if translate then ⟨0, 0, srcShift⟩ else 0)]
  detPos := [-(smul g.D g.normal) + smul g.R ⟨1, 0, 0⟩ - smul g.u0 g.alpha - smul g.v0 g.beta +
    (if translate then ⟨0, 0, g.translationZ⟩ else 0)]
  detU := [rotVec (smul (-g.eta) g.normal) g.alpha]
  detV := [rotVec (smul (-g.eta) g.normal) g.beta]
  rotDir := ⟨0, 0, 1⟩
  pix2vox := g.R / g.D * |dot g.normal ⟨1, 0, 0⟩|
  detShape := some [g.sizeV, g.sizeU]

/-- `get_prj_geom` with a `float` for `R_pix`. -/
noncomputable def prjGeom (g : ConeBeam) (translate : Bool) : PrjGeom := g.prjGeomWith translate g.translationZ

/-- Truncation of a float assigned to an element of an integer array (towards zero). -/
noncomputable def trunc (x : ℝ) : ℝ := if 0 ≤ x then ⌊x⌋ else ⌈x⌉

/-- `get_prj_geom` with an `int` for `R_pix`. -/
noncomputable def prjGeomInt (g : ConeBeam) (translate : Bool) : PrjGeom := g.prjGeomWith translate (trunc g.translationZ)

end ConeBeam

/-- The parameters of an ellipse `b (v - v̄)² + a (u - ū)² + 2 c (u - ū) (v - v̄) = 1` (src/corrct/alignment/fitting.py:
`Ellipse`; `b, a, c, v, u = ellipse.parameters`). -/
structure EllPars where
  b : ℝ
  a : ℝ
  c : ℝ
  v : ℝ
  u : ℝ

/-- `n0` and `n1` of `_fit_distance_det2src` (src/corrct/alignment/cone_beam.py:549-563). -/
noncomputable def fitN (p q : EllPars) : ℝ × ℝ :=
  let ecc2 := Real.sqrt (q.b - q.c ^ 2 / q.a)
  let ecc1 := Real.sqrt (p.b - p.c ^ 2 / p.a)
  let m0 := (q.v - p.v) * ecc2
  let m1 := ecc2 / ecc1
  let m0m1 := 2 * m0 * m1
  let m1_2 := m1 ^ 2
  ((1 - m0 ^ 2 - m1_2) / m0m1, (q.a - p.a * m1_2) / m0m1)

/-- `_fit_distance_det2src` (src/corrct/alignment/cone_beam.py:544-575); `none` stands for the NaN or infinity of a division by
`n1 = 0`. -/
noncomputable def fitDistance (p q : EllPars) (e : ℝ) : Option ℝ :=
  let n := fitN p q
  let n0n1 := n.1 * n.2
  let n1_2 := n.2 ^ 2
  if n.2 = 0 then none
  else some (Real.sqrt (((p.a - 2 * n0n1) - e * Real.sqrt (p.a ^ 2 + 4 * n1_2 - 4 * n0n1 * p.a)) / (2 * n1_2)))

/-- What `fit` finds. -/
structure FitResult where
  D : ℝ
  v0 : ℝ
  u0 : ℝ
  phi : ℝ
  R : ℝ

/-- `np.isclose(x, 0.0)`: absolute tolerance `1e-8`. -/
noncomputable def isClose0 (x : ℝ) : Bool := decide (|x| ≤ 1 / 10 ^ 8)

/-- `FitConeBeamGeometry.fit` after the choice of the source-detector distance `D` (src/corrct/alignment/cone_beam.py:481-541), and as a
whole if that distance is given as `meas_D_pix`; `none` is a `ValueError` of its checks. -/
noncomputable def fitConeFrom (p q : EllPars) (r e D : ℝ) : Option FitResult :=
  let getV0 := fun (v b a c D s : ℝ) => v - s * Real.sqrt (a + a ^ 2 * D ^ 2) / Real.sqrt (a * b - c ^ 2)
  let denom := fun (b a c D : ℝ) => Real.sqrt (a * b + a ^ 2 * b * D ^ 2 - c ^ 2)
  let rho := fun (b a c D : ℝ) => Real.sqrt (a * b - c ^ 2) / denom b a c D
  let zeta := fun (b a c D s : ℝ) => D * s * a * Real.sqrt a / denom b a c D
  let s1 : ℝ := -1
  let s2 := s1 * -e
  let v01 := getV0 p.v p.b p.a p.c D s1
  let v02 := getV0 q.v q.b q.a q.c D s2
  let t1 := p.c / (2 * p.a)
  let t2 := q.c / (2 * q.a)
  let v0 := (v01 + v02) / 2
  let u0 := (p.u + q.u) / 2 + t1 * (p.v - v0) + t2 * (q.v - v0)
  if |p.v - q.v| < |v01 - v02| then none
  else
    let rho1 := rho p.b p.a p.c D
    let rho2 := rho q.b q.a q.c D
    let zeta1 := zeta p.b p.a p.c D s1
    let zeta2 := zeta q.b q.a q.c D s2
    let phi := Real.arcsin (-t1 * zeta1 + -t2 * zeta2)
    let R1 := r / rho1
    let R2 := r / rho2
    let z1 := R1 * zeta1
    let z2 := R2 * zeta2
    let R := (-z2 * R1 + z1 * R2) / (z1 - z2)
    if isClose0 R then none
    else some { D := D, v0 := v0, u0 := u0, phi := phi, R := R }

/-- `FitConeBeamGeometry.fit` (src/corrct/alignment/cone_beam.py:416-541) with the computed source-detector distance; `none` is a
`ValueError` of its checks. -/
noncomputable def fitCone (p q : EllPars) (r e : ℝ) : Option FitResult :=
  match fitDistance p q e with
  | none => none
  | some D => if isClose0 D then none else fitConeFrom p q r e D

end Verif
