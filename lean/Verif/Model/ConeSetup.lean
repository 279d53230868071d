import Verif.Model.Alignment
import Mathlib.Analysis.SpecialFunctions.Complex.Arg

/-!
# Model of the set-up, the storage and the tuning of cone-beam geometries (src/corrct/alignment/cone_beam.py)
-/

namespace Verif
open V3

/-! ## Tilt of the detector -/

/-- `np.arctan2(y, x)`. -/
noncomputable def arctan2 (y x : ℝ) : ℝ := Complex.arg ⟨x, y⟩

/-- `np.mod(a, m)`: the remainder has the sign of `m`. -/
noncomputable def floorMod (a m : ℝ) : ℝ := a - m * ⌊a / m⌋

/-- `_get_rot_axis_angle_deg` for two `(v, u)` positions, without the rounding, in degrees (src/corrct/alignment/cone_beam.py:29-50). The
conversion to 32-bit floats and the checks of the shapes are left out. -/
noncomputable def rotAxisAngle (c1 c2 : ℝ × ℝ) : ℝ :=
  (floorMod (arctan2 (c1.2 - c2.2) (c1.1 - c2.1)) (2 * Real.pi) - Real.pi) * (180 / Real.pi)

/-- `_get_rot_axis_angle_deg` (src/corrct/alignment/cone_beam.py:29-55), with the default `decimals=4`. -/
noncomputable def rotAxisAngleDeg (c1 c2 : ℝ × ℝ) : ℝ := around 4 (rotAxisAngle c1 c2)

/-- The tilt stored by `FitConeBeamGeometry._initialize` (src/corrct/alignment/cone_beam.py:336-382), in degrees: `c1` and `c2` are the two
projected centres (columns 0 and 2 of `points_axis`, or the fitted ones, which `fit_ellipse_center` rounds to two decimals); `none` is the
`ValueError` for angles of more than 120 degrees. -/
noncomputable def initEta (c1 c2 : ℝ × ℝ) : Option ℝ :=
  let eta := rotAxisAngleDeg c1 c2
  if 120 < |eta| then none else some eta

/-- `np.around(pred_c_vu, decimals=2)` at the end of `fit_ellipse_center` (src/corrct/alignment/fitting.py:876-880). -/
noncomputable def roundCentre (c : ℝ × ℝ) : ℝ × ℝ := (around 2 c.1, around 2 c.2)

/-- The points after the correction of the tilt `eta` in degrees (src/corrct/alignment/cone_beam.py:387-395): `rot_mat.dot(points)` with the
first two rows and columns of the matrix of the rotation by `-eta` around the third axis, for `(v, u, 0)`. -/
noncomputable def untiltPoint (eta : ℝ) (p : ℝ × ℝ) : ℝ × ℝ :=
  if 1 / 10 < |eta| then
    let q := rotVec (smul (-(eta * (Real.pi / 180))) ⟨0, 0, 1⟩) ⟨p.1, p.2, 0⟩
    (q.x, q.y)
  else p

/-! ## Repeated fits -/

/-- What a `FitConeBeamGeometry` keeps between calls of `fit`: the geometry (a single mutable object) and `prj_origin_vu`
(src/corrct/alignment/cone_beam.py:304-330, 359-370, 527-528). -/
structure ConeFitState where
  acq : Option FitResult
  origin : Option (ℝ × ℝ)

/-- The position of the origin computed by `fit` (src/corrct/alignment/cone_beam.py:511-528). -/
noncomputable def fitOrigin (p q : EllPars) (r e D : ℝ) (c1 c2 : ℝ × ℝ) : ℝ × ℝ :=
  let denom := fun (b a c D : ℝ) => Real.sqrt (a * b + a ^ 2 * b * D ^ 2 - c ^ 2)
  let rho := fun (b a c D : ℝ) => Real.sqrt (a * b - c ^ 2) / denom b a c D
  let zeta := fun (b a c D s : ℝ) => D * s * a * Real.sqrt a / denom b a c D
  let z1 := r / rho p.b p.a p.c D * zeta p.b p.a p.c D (-1)
  let z2 := r / rho q.b q.a q.c D * zeta q.b q.a q.c D (-1 * -e)
  ((-z2 * c1.1 + z1 * c2.1) / (z1 - z2), (-z2 * c1.2 + z1 * c2.2) / (z1 - z2))

/-- `fit` as a change of the state (src/corrct/alignment/cone_beam.py:416-541), for a call that does not raise: `res` is the result of
`fitCone` or `fitConeFrom`. It writes the fields of the one geometry object that it returns, and the origin only if there is none yet. -/
def ConeFitState.store (s : ConeFitState) (res : FitResult) (origin : ℝ × ℝ) : ConeFitState :=
  { acq := some res, origin := some (s.origin.getD origin) }

/-- A call of `fit` with a measured distance (src/corrct/alignment/cone_beam.py:416-541); on a `ValueError` the state is not described and
left as it was (the code has already written some fields). -/
noncomputable def ConeFitState.fitMeasured (s : ConeFitState) (p q : EllPars) (c1 c2 : ℝ × ℝ) (r e D : ℝ) : ConeFitState :=
  match fitConeFrom p q r e D with
  | none => s
  | some res => s.store res (fitOrigin p q r e D c1 c2)

/-! ## Fields, updates and storage -/

/-- The fields of `ConeBeamGeometry` in their order (src/corrct/alignment/cone_beam.py:65-74). -/
inductive ConeField where
  | thetaDeg | phiDeg | etaDeg | dPix | rPix | v0Pix | u0Pix | sizeV | sizeU | pixSize
  deriving DecidableEq

/-- The names of the fields (src/corrct/alignment/cone_beam.py:65-74). -/
def ConeField.name : ConeField → String
  | .thetaDeg => "theta_deg" | .phiDeg => "phi_deg" | .etaDeg => "eta_deg" | .dPix => "D_pix" | .rPix => "R_pix"
  | .v0Pix => "v0_pix" | .u0Pix => "u0_pix" | .sizeV => "det_size_v_pix" | .sizeU => "det_size_u_pix" | .pixSize => "pix_size_um"

/-- All the fields (`__dict__.keys()`). -/
def ConeField.all : List ConeField := [.thetaDeg, .phiDeg, .etaDeg, .dPix, .rPix, .v0Pix, .u0Pix, .sizeV, .sizeU, .pixSize]

/-- Numbers: a Python `int`, a Python `float` (or `numpy.float64`, which is one), a NumPy integer (which is not an `int`). -/
inductive PyNum where
  | int (z : ℤ) | float (x : ℝ) | npInt (z : ℤ)

/-- The number. -/
noncomputable def PyNum.val : PyNum → ℝ
  | .int z => z | .float x => x | .npInt z => z

/-- What `json.dumps` can write by itself. -/
def PyNum.isPlain : PyNum → Bool
  | .npInt _ => false
  | _ => true

/-- Addition: a float if one of them is, a NumPy integer if one of them is. -/
noncomputable def PyNum.add : PyNum → PyNum → PyNum
  | .int a, .int b => .int (a + b)
  | .int a, .npInt b => .npInt (a + b)
  | .npInt a, .int b => .npInt (a + b)
  | .npInt a, .npInt b => .npInt (a + b)
  | a, b => .float (a.val + b.val)

/-- `np.around`: integers are returned as NumPy integers. -/
noncomputable def PyNum.around (d : ℕ) : PyNum → PyNum
  | .int z => .npInt z
  | .npInt z => .npInt z
  | .float x => .float (Verif.around d x)

/-- A geometry: the values of the fields. -/
abbrev ConeFields := ConeField → PyNum

/-- `update` (src/corrct/alignment/cone_beam.py:166-189), for the name of a field (others are an `AttributeError`). -/
noncomputable def ConeFields.update (g : ConeFields) (f : ConeField) (v : PyNum) (relative : Bool) (decimals : Option ℕ) : ConeFields :=
  let new := if relative then (g f).add v else v
  let new := match decimals with
    | some d => new.around d
    | none => new
  Function.update g f new

/-- `get_tuning_params` (src/corrct/alignment/cone_beam.py:191-211): `update` with its default `decimals=3`. -/
noncomputable def ConeFields.tuningParams (g : ConeFields) (f : ConeField) (vals : List PyNum) (relative : Bool) : List ConeFields :=
  vals.map fun v => g.update f v relative (some 3)

/-- A JSON object of objects of numbers. -/
abbrev JTree := List (String × List (String × PyNum))

/-- `to_json` (src/corrct/alignment/cone_beam.py:25-26, 213-222), up to the text: `json.dumps` calls `default` on NumPy integers, which have
no `__dict__` (`none`, an `AttributeError`). -/
def ConeFields.toJson (g : ConeFields) : Option JTree :=
  if ConeField.all.all fun f => (g f).isPlain then some [("ConeBeamGeometry", ConeField.all.map fun f => (f.name, g f))] else none

/-- The loop over the keys in `from_json` (src/corrct/alignment/cone_beam.py:249-251): a missing key is a `KeyError`, after the values before
it have been written. -/
def loadFields (data : List (String × PyNum)) : List ConeField → ConeFields → ConeFields × Option String
  | [], g => (g, none)
  | f :: l, g => match data.lookup f.name with
    | none => (g, some "KeyError")
    | some v => loadFields data l (Function.update g f v)

/-- `from_json` (src/corrct/alignment/cone_beam.py:224-251) on the parsed text: the object after the call and the exception, if any. For
another class, the message of the `ValueError` cannot be built (`data_tree.keys()[0]` is a `TypeError`). -/
def ConeFields.fromJson (g : ConeFields) : JTree → ConeFields × Option String
  | [] => (g, some "IndexError")
  | [(name, data)] => if name ≠ "ConeBeamGeometry" then (g, some "TypeError") else loadFields data ConeField.all g
  | _ => (g, some "ValueError")

/-- `get_vol_geom` (src/corrct/alignment/cone_beam.py:152-164): the shape in XYZ and the size of a voxel. -/
noncomputable def coneVolGeom (sizeV sizeU upSampling : ℕ) : List ℕ × ℝ :=
  ([sizeU, sizeU, sizeV].map (· * upSampling), 1 / (upSampling : ℝ))

/-- `VolumeGeometry.extent` (src/corrct/models.py:479-490). -/
noncomputable def volExtent (g : List ℕ × ℝ) : List ℝ := g.1.flatMap fun s : ℕ => [(s : ℝ) * g.2 / 2 * -1, (s : ℝ) * g.2 / 2 * 1]

/-! ## Tuning -/

/-- One parameter of `tune_acquisition_geometry` (src/corrct/alignment/cone_beam.py:611-643): `residual` is the last residual of the
reconstruction with a geometry (100 iterations of SIRT); `none` is the `ValueError` of `fit_parabola_min`. -/
noncomputable def tuneParam (residual : ConeFields → ℝ) (g : ConeFields) (f : ConeField) (vals : List ℝ) : Option ConeFields :=
  let residuals := (g.tuningParams f (vals.map PyNum.float) true).map residual
  match fitParabolaMin .linear (fun i => vals.getD i 0) vals.length (fun i => residuals.getD i 0) residuals.length 6 with
  | none => none
  | some (x, _) => some (g.update f (.float x) true (some 3))

/-- `tune_acquisition_geometry` (src/corrct/alignment/cone_beam.py:577-643): one parameter after the other. -/
noncomputable def tuneGeometry (residual : ConeFields → ℝ) (g : ConeFields) : List (ConeField × List ℝ) → Option ConeFields
  | [] => some g
  | (f, vals) :: l => match tuneParam residual g f vals with
    | none => none
    | some g' => tuneGeometry residual g' l

end Verif
