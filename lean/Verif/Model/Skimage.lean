import Verif.Model.Solvers
import Verif.Model.Geometry

/-!
# Model of the scikit-image projector backend

`ProjectorBackendSKimage` (src/corrct/_projector_backends.py:251-360) with the transforms of scikit-image written out (`skimage.transform.radon` with `circle=True`,
`skimage.transform.iradon` with `circle=False` and no filter). Numbers are real: the angles are rounded to single precision in the code.
-/

namespace Verif
open Classical

/-- The weight of linear interpolation at distance `t` from a sample. -/
noncomputable def hat (t : ℝ) : ℝ := max 0 (1 - |t|)

/-- `skimage.transform.warp` with order 1 and zeros outside, at row `r` and column `c`. -/
noncomputable def bilinear {n : ℕ} (x : Arr (Fin n × Fin n)) (r c : ℝ) : ℝ := ∑ i : Fin n, ∑ j : Fin n, hat (r - (i : ℕ)) * hat (c - (j : ℕ)) * x (i, j)

/-- `skimage.transform.radon` of a square image at one angle (as called at src/corrct/_projector_backends.py:329, 332): the image is rotated around the pixel
`n // 2`, and its rows are added up. -/
noncomputable def skRadon {n : ℕ} (x : Arr (Fin n × Fin n)) (θ : ℝ) : Arr (Fin n) := fun c =>
  let h : ℝ := ((n / 2 : ℕ) : ℝ)
  ∑ r : Fin n, bilinear x (-Real.sin θ * (c : ℕ) + Real.cos θ * (r : ℕ) - h * (Real.cos θ - Real.sin θ - 1))
    (Real.cos θ * (c : ℕ) + Real.sin θ * (r : ℕ) - h * (Real.cos θ + Real.sin θ - 1))

/-- `np.interp` with zeros outside, the samples being at `-(n // 2), …, n - 1 - n // 2` (in `skimage.transform.iradon`). -/
noncomputable def skInterp {n : ℕ} (p : Arr (Fin n)) (t : ℝ) : ℝ :=
  let h : ℝ := ((n / 2 : ℕ) : ℝ)
  if -h ≤ t ∧ t ≤ (n : ℝ) - 1 - h then ∑ k : Fin n, hat (t - (((k : ℕ) : ℝ) - h)) * p k else 0

/-- `skimage.transform.iradon` of one projection without filter, into `n` by `n` pixels (as called at src/corrct/_projector_backends.py:356, 359). -/
noncomputable def skIradon {n : ℕ} (p : Arr (Fin n)) (θ : ℝ) : Arr (Fin n × Fin n) := fun q =>
  let h : ℝ := ((n / 2 : ℕ) : ℝ)
  skInterp p ((((q.2 : ℕ) : ℝ) - h) * Real.cos θ - (((q.1 : ℕ) : ℝ) - h) * Real.sin θ) * (Real.pi / 2)

/-- `ProjectorBackendSKimage.fp` for all angles (src/corrct/_projector_backends.py:312-332), square volumes. -/
noncomputable def skFp {n na : ℕ} (angles : Fin na → ℝ) (x : Arr (Fin n × Fin n)) : Arr (Fin na × Fin n) := fun q => skRadon x (angles q.1) q.2

/-- `ProjectorBackendSKimage.fp` for one angle. -/
noncomputable def skFpOne {n na : ℕ} (angles : Fin na → ℝ) (x : Arr (Fin n × Fin n)) (k : Fin na) : Arr (Fin n) := skRadon x (angles k)

/-- `ProjectorBackendSKimage.bp` for all angles (src/corrct/_projector_backends.py:334-360), square volumes. -/
noncomputable def skBp {n na : ℕ} (angles : Fin na → ℝ) (p : Arr (Fin na × Fin n)) : Arr (Fin n × Fin n) := fun q =>
  (∑ k, skIradon (fun u => p (k, u)) (angles k) q) * 2 / Real.pi

/-- `ProjectorBackendSKimage.bp` for one angle. -/
noncomputable def skBpOne {n na : ℕ} (angles : Fin na → ℝ) (p : Arr (Fin n)) (k : Fin na) : Arr (Fin n × Fin n) := fun q =>
  skIradon p (angles k) q * 2 / Real.pi

/-- The types of arrays: floating point, or integers up to `most`. -/
inductive ArrType where
  | float
  | integer (most : ℕ)

/-- `skimage.util.img_as_float`, which `radon` applies to its image: integers are divided by the largest one of their type. -/
noncomputable def ArrType.toFloat : ArrType → ℝ → ℝ
  | .float, v => v
  | .integer most, v => v / most

/-- The assignment of a number to an entry of an array of the type. -/
noncomputable def ArrType.store : ArrType → ℝ → ℝ
  | .float, v => v
  | .integer _, v => ConeBeam.trunc v

/-- `fp` for all angles of volumes of a type (src/corrct/_projector_backends.py:327-330): the projections get the type of the volume. -/
noncomputable def skFpTyped {n na : ℕ} (t : ArrType) (angles : Fin na → ℝ) (x : Arr (Fin n × Fin n)) : Arr (Fin na × Fin n) := fun q =>
  t.store (skRadon (fun p => t.toFloat (x p)) (angles q.1) q.2)

/-- `fp` for one angle of volumes of a type (src/corrct/_projector_backends.py:331-332). -/
noncomputable def skFpOneTyped {n na : ℕ} (t : ArrType) (angles : Fin na → ℝ) (x : Arr (Fin n × Fin n)) (k : Fin na) : Arr (Fin n) :=
  skFpOne angles (fun p => t.toFloat (x p)) k

/-- `bp` for all angles of projections of a type (src/corrct/_projector_backends.py:352-357, 360): the back-projections of the angles get the type of the projections;
`iradon` does not rescale them. -/
noncomputable def skBpTyped {n na : ℕ} (t : ArrType) (angles : Fin na → ℝ) (p : Arr (Fin na × Fin n)) : Arr (Fin n × Fin n) := fun q =>
  (∑ k, t.store (skIradon (fun u => p (k, u)) (angles k) q)) * 2 / Real.pi

/-- The number of detector pixels that the backend declares for volumes of `ny` columns and voxels of size `vox` (src/corrct/_projector_backends.py:146-151). -/
noncomputable def skDetPixels (ny : ℕ) (vox : ℝ) : ℕ := ⌊(ny : ℝ) * vox⌋.toNat

/-- NumPy assigns an axis of `a` entries to one of `b`. -/
def fits (a b : ℕ) : Prop := a = b ∨ a = 1

/-- `fp` of a volume of `nx` rows and `ny` columns for all angles succeeds (src/corrct/_projector_backends.py:327-330): `radon` crops the image to a square and
returns one entry for each of its columns (none of this depends on the size of the voxels), which is assigned to a row of the projections. -/
def skFpRuns (nx ny : ℕ) (vox : ℝ) : Prop := fits (min nx ny) (skDetPixels ny vox)

/-- `bp` for all angles succeeds (src/corrct/_projector_backends.py:351-357): the square image of `ny` by `ny` pixels is assigned to `nx` by `ny`. -/
def skBpRuns (nx ny : ℕ) : Prop := fits ny nx

end Verif
