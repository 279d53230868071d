import Verif.Model.Basic

/-!
# Model of `src/corrct/data_terms.py`

The data-fidelity classes as one record with a `kind` tag for the class.  In-place updates of arrays
are modelled as functions returning the new array.
-/

namespace Verif
open Classical

/-- An attribute that may be a scalar (or size-1 array) or a full-size array
(the annotations `float | NDArrayFloat` throughout src/corrct/data_terms.py).
Simplification: arrays have exactly the shape of the data (no partial broadcasting). -/
inductive Attr (ι : Type) where
  | scalar (v : ℝ)
  | array (v : Arr ι)

namespace Attr
variable {ι κ : Type}

/-- NumPy broadcasting of an attribute to the data shape. -/
def get : Attr ι → Arr ι
  | scalar v, _ => v
  | array v, i => v i

/-- `attr_val[ind]` if the attribute is an array with more than one element, otherwise unchanged
(`_slice_attr`, src/corrct/data_terms.py:56-59).  `g` lists which original pixel each selected pixel is.
Simplification: arrays of full size 1 are treated like larger ones (same values after broadcasting). -/
def slice (g : κ → ι) : Attr ι → Attr κ
  | scalar v => scalar v
  | array v => array (v ∘ g)

/-- Element-wise unary NumPy expression on an attribute. -/
def map (f : ℝ → ℝ) : Attr ι → Attr ι
  | scalar v => scalar (f v)
  | array v => array (fun i => f (v i))

/-- Element-wise binary NumPy expression with broadcasting of scalars. -/
def map₂ (f : ℝ → ℝ → ℝ) : Attr ι → Attr ι → Attr ι
  | scalar v, scalar w => scalar (f v w)
  | scalar v, array w => array (fun i => f v (w i))
  | array v, scalar w => array (fun i => f (v i) w)
  | array v, array w => array (fun i => f (v i) (w i))

end Attr

/-- The concrete data-fidelity classes (src/corrct/data_terms.py:283, 334, 398, 467, 535, 598, 628, 677).
* `huber`: `grp` is the grouping along `l2_axis` (`none` for `l2_axis=None`); `row r` is the set of pixels
  in the `r`-th row of the first axis, needed for `dual[l1_points]` with an integer index array
  (src/corrct/data_terms.py:488-489).
* `l12`: `grp i` identifies the line along `l2_axis` through pixel `i`.
`DataFidelity_ln` (needs an SVD) is not part of this record. -/
inductive Kind (ι : Type) where
  | l2
  | wl2 (weights : Attr ι)
  | l2b (localError : Attr ι)
  | huber (localError : Attr ι) (grp : Option (ι → ℕ)) (row : Bool → Finset ι)
  | l1
  | l12 (grp : ι → ℕ)
  | l1b (localError : Attr ι)
  | kl

/-- A data-fidelity object: class, constructor arguments, and the attributes written by `assign_data`
(src/corrct/data_terms.py:31-54, 290-296, 342-354, 407-418, 474-484, 635-642).
`sigma1`, `sigmaSqrtError`, `oneSigmaError` are meaningful for the classes that define them.
`cols` is the part of the shape of the data that `np.linalg.norm(…, ord=1)` looks at (src/corrct/data_terms.py:584): `none` for
one-dimensional data, `some c` for two-dimensional data with `c i` the column of pixel `i` (for l12: the column of its entry in the
array of the inner norms). With three or more dimensions that call raises `ValueError`; such data are not part of this record. -/
structure DataTerm (ι : Type) where
  kind : Kind ι
  background : Option (Attr ι)
  data : Option (Attr ι)
  sigma : Attr ι
  sigmaData : Option (Attr ι)
  sigma1 : Attr ι
  sigmaSqrtError : Attr ι
  oneSigmaError : Attr ι
  cols : Option (ι → ℕ)

namespace DataTerm
variable {ι κ : Type}

/-- Constructor: `__init__` of the classes (src/corrct/data_terms.py:42-54, 290-292, 342-345, 407-412,
474-480, 540-541, 603-605, 635-638), for one-dimensional data. -/
noncomputable def new (kind : Kind ι) (background : Option (Attr ι)) : DataTerm ι where
  kind := kind
  background := background
  data := none
  sigma := .scalar 1
  sigmaData := none
  sigma1 := .scalar 1
  sigmaSqrtError := match kind with
    | .l2b e => e.map Real.sqrt
    | _ => .scalar 0
  oneSigmaError := .scalar 1
  cols := none

/-- `_compute_sigma_data`: base class (src/corrct/data_terms.py:178-182) and KL
(src/corrct/data_terms.py:682-686). -/
noncomputable def computeSigmaData (kind : Kind ι) (data : Option (Attr ι)) (sigma : Attr ι) : Option (Attr ι) :=
  match data with
  | none => none
  | some d => match kind with
    | .kl => some (Attr.map₂ (fun s d => 4 * s * max d 0) sigma d)
    | _ => some (Attr.map₂ (fun s d => s * d) sigma d)

/-- `sigma1` after `assign_data`: l2 (src/corrct/data_terms.py:296), wl2 (:353-354), l2b (:418). -/
noncomputable def computeSigma1 (kind : Kind ι) (sigma : Attr ι) (old : Attr ι) : Attr ι :=
  match kind with
  | .l2 => sigma.map (fun s => 1 / (1 + s))
  | .wl2 w => Attr.map₂ (fun s w =>
      let invalid : ℝ := if w = 0 then 1 else 0
      1 / (1 + s / (w + invalid)) * (1 - invalid)) sigma w
  | .l2b e => Attr.map₂ (fun s e => 1 / (1 + s * e)) sigma e
  | _ => old

/-- `assign_data` (src/corrct/data_terms.py:120-134, 294-296, 347-354, 414-418, 482-484, 640-642).
Simplification: the dtype cast of the background (:133-134) is the identity. -/
noncomputable def assignData (t : DataTerm ι) (data : Option (Attr ι)) (sigma : Attr ι) : DataTerm ι :=
  { t with
    data := data
    sigma := sigma
    sigmaData := computeSigmaData t.kind data sigma
    sigma1 := computeSigma1 t.kind sigma t.sigma1
    sigmaSqrtError := match t.kind with
      | .l2b e => Attr.map₂ (fun s e => s * Real.sqrt e) sigma e
      | _ => t.sigmaSqrtError
    oneSigmaError := match t.kind with
      | .huber e _ _ => Attr.map₂ (fun s e => 1 / (1 + s * e)) sigma e
      | _ => t.oneSigmaError }

/-- Background added to a projection (src/corrct/data_terms.py:151-152, 357-358, 721-722). -/
def addBackground (t : DataTerm ι) (proj : Arr ι) : Arr ι := fun i =>
  match t.background with
  | none => proj i
  | some bg => proj i + bg.get i

/-- `update_dual` (src/corrct/data_terms.py:217-230). -/
def updateDual (t : DataTerm ι) (dual proj : Arr ι) : Arr ι := fun i =>
  match t.background with
  | none => dual i + proj i * t.sigma.get i
  | some bg => dual i + (proj i + bg.get i) * t.sigma.get i

/-- `dual -= self.sigma_data` if there is data (src/corrct/data_terms.py:302-303, 426-427, 492-493, 550-551). -/
def subSigmaData (t : DataTerm ι) (dual : Arr ι) : Arr ι := fun i =>
  match t.data, t.sigmaData with
  | some _, some sd => dual i - sd.get i
  | _, _ => dual i

/-- `np.linalg.norm(dual, ord=2, axis=l2_axis, keepdims=True)` broadcast back to the pixels
(src/corrct/data_terms.py:500, 608). -/
noncomputable def axisNorm [Fintype ι] (grp : ι → ℕ) (dual : Arr ι) : Arr ι := fun i =>
  Real.sqrt (∑ j ∈ Finset.univ.filter (fun j => grp j = grp i), dual j ^ 2)

/-- `_get_inner_norm` (src/corrct/data_terms.py:543-544, 607-608). -/
noncomputable def innerNorm [Fintype ι] (t : DataTerm ι) (dual : Arr ι) : Arr ι :=
  match t.kind with
  | .l12 grp => axisNorm grp dual
  | _ => fun i => |dual i|

/-- `_apply_threshold` (src/corrct/data_terms.py:546-547, 644-645). -/
noncomputable def applyThreshold (t : DataTerm ι) (dual : Arr ι) : Arr ι :=
  match t.kind with
  | .l1b e => fun i => softThreshold (dual i) (e.get i)
  | _ => dual

/-- `apply_proximal_dual` of every class: l2/wl2 (src/corrct/data_terms.py:301-304), l2b (:425-429),
Huber (:491-501), l1/l12/l1b (:549-555), KL (:688-692).
`weight` is the optional argument of the l1 family (default 1). -/
noncomputable def proxDual [Fintype ι] (t : DataTerm ι) (dual : Arr ι) (weight : Attr ι := .scalar 1) : Arr ι :=
  match t.kind with
  | .l2 | .wl2 _ => fun i => t.subSigmaData dual i * t.sigma1.get i
  | .l2b _ => fun i => softThreshold (t.subSigmaData dual i) (t.sigmaSqrtError.get i) * t.sigma1.get i
  | .huber _ grp _ =>
    let d : Arr ι := fun i => t.subSigmaData dual i * t.oneSigmaError.get i
    match grp with
    | none => fun i => d i / max 1 |d i|
    | some g => fun i => d i / max 1 (axisNorm g d i)
  | .l1 | .l12 _ | .l1b _ =>
    let d := t.applyThreshold (t.subSigmaData dual)
    let n := t.innerNorm d
    fun i => d i / max (n i) (weight.get i) * weight.get i
  | .kl => fun i => match t.sigmaData with
    | some sd => (1 + dual i - Real.sqrt ((dual i - 1) ^ 2 + sd.get i)) / 2
    | none => (1 + dual i - Real.sqrt ((dual i - 1) ^ 2)) / 2

/-- `apply_proximal_primal`: l2 (src/corrct/data_terms.py:306-324), wl2 (:374-395), l2b (:431-456),
l1 (:557-578), l1b (:647-674), KL (:694-718); `none` is `NotImplementedError`
(Huber :503-521, l12 :610-625). -/
noncomputable def proxPrimal (t : DataTerm ι) (primal : Arr ι) (tau : Attr ι) : Option (Arr ι) :=
  let sub : Arr ι := fun i => match t.data with | some d => primal i - d.get i | none => primal i
  let addBack : Arr ι → Arr ι := fun x i => match t.data with | some d => x i + d.get i | none => x i
  match t.kind with
  | .l2 => some fun i =>
      (match t.data with | some d => primal i + tau.get i * d.get i | none => primal i) / (1 + tau.get i)
  | .wl2 w => some fun i =>
      (match t.data with | some d => primal i + tau.get i * w.get i * d.get i | none => primal i)
        / (1 + tau.get i * w.get i)
  | .l2b e => some (addBack fun i =>
      softThreshold (sub i) (Real.sqrt (e.get i) * tau.get i / (1 + tau.get i * e.get i))
        / (1 + tau.get i * e.get i))
  | .l1 => some (addBack fun i => softThreshold (sub i) (tau.get i))
  | .l1b e => some (addBack fun i => softThreshold (sub i) (e.get i) * (tau.get i / (1 + tau.get i)))
  | .kl => some fun i => match t.data with
      | some d =>
        ((primal i - tau.get i)
          + Real.sqrt ((primal i - tau.get i) ^ 2 + 4 * tau.get i * max (d.get i) 0)) / 2
      | none => max (primal i - tau.get i) eps
  | .huber _ _ _ => none
  | .l12 _ => none

/-- Multiplication by an optional mask. -/
def applyMask (mask : Option (Arr ι)) (r : Arr ι) : Arr ι := fun i =>
  match mask with | some m => r i * m i | none => r i

/-- `compute_residual`: base (src/corrct/data_terms.py:136-161), wl2 (:356-365), l2b (:420-423),
KL with the default `use_proximal=True` (:720-739). -/
noncomputable def residual [Fintype ι] (t : DataTerm ι) (proj : Arr ι) (mask : Option (Arr ι)) : Arr ι :=
  let pp := t.addBackground proj
  let base : Arr ι := applyMask mask fun i => match t.data with | some d => d.get i - pp i | none => pp i
  match t.kind with
  | .wl2 w => applyMask mask fun i => (match t.data with | some d => d.get i - pp i | none => pp i) * w.get i
  | .l2b _ => fun i => softThreshold (base i) (t.sigmaSqrtError.get i)
  | .kl =>
    let r0 : Arr ι := fun i => max (max (pp i) eps) eps * t.sigma.get i
    fun i => - (applyMask mask (t.proxDual r0) i)
  | _ => base

/-- `compute_residual(…, use_proximal=False)` of KL (src/corrct/data_terms.py:720-739, branch :731-735). -/
noncomputable def residualKLplain (t : DataTerm ι) (proj : Arr ι) (mask : Option (Arr ι)) : Arr ι :=
  let pp := t.addBackground proj
  fun i => - (applyMask mask (fun i => match t.data with
    | some d => 1 - max (d.get i) 0 / max (pp i) eps
    | none => 1) i)

/-- `compute_residual_norm`: l2/l2b (src/corrct/data_terms.py:298-299), wl2 (:367-372), Huber (:486-489, with the
integer index array `1 - l2_points` selecting whole rows 0/1), l1 family (:580-584: there is no `flatten`, for two-dimensional data
NumPy computes the matrix norm, the maximum of the sums of the columns), KL (:741-742). -/
noncomputable def residualNorm [Fintype ι] (t : DataTerm ι) (d : Arr ι) : ℝ :=
  match t.kind with
  | .l2 | .l2b _ => ∑ i, d i ^ 2
  | .wl2 w => ∑ i ∈ Finset.univ.filter (fun i => w.get i ≠ 0), (d i / Real.sqrt (w.get i)) ^ 2
  | .huber e _ row =>
    (∑ i ∈ Finset.univ.filter (fun i => d i ≤ e.get i), d i ^ 2)
      + ∑ i, ∑ j ∈ row (decide (¬ d i ≤ e.get i)), |d j|
  | .l12 grp => match t.cols with
    | none => ∑ g ∈ Finset.univ.image grp, Real.sqrt (∑ j ∈ Finset.univ.filter (fun j => grp j = g), d j ^ 2)
    | some c => ⨆ i, ∑ g ∈ (Finset.univ.filter fun k => c k = c i).image grp,
        Real.sqrt (∑ j ∈ Finset.univ.filter (fun j => grp j = g), d j ^ 2)
  | .l1 | .l1b _ => match t.cols with
    | none => ∑ i, |t.applyThreshold d i|
    | some c => ⨆ i, ∑ k ∈ Finset.univ.filter (fun k => c k = c i), |t.applyThreshold d k|
  | .kl => ∑ i, |d i|

/-- `compute_data_dual_dot` (src/corrct/data_terms.py:184-205). -/
noncomputable def dataDualDot [Fintype ι] (t : DataTerm ι) (dual : Arr ι) (mask : Option (Arr ι)) : ℝ :=
  match t.data with
  | some d => ∑ i, applyMask mask dual i * d.get i
  | none => 0

/-- `compute_primal_dual_gap`: l2 and wl2 (src/corrct/data_terms.py:326-331), l2b (:458-464), Huber (:523-532), l1, l12 and l1b
(:586-595), KL (:744-757). None of them passes the mask to `compute_data_dual_dot`; Huber and l1 add the background before
`compute_residual` adds it again. Simplifications: one-dimensional data (there is no `flatten`, NumPy computes matrix norms for
images), and a scalar `local_error` of the Huber term (otherwise `float` raises), here the value at any pixel. -/
noncomputable def primalDualGap [Fintype ι] (t : DataTerm ι) (proj dual : Arr ι) (mask : Option (Arr ι)) : ℝ :=
  match t.kind with
  | .l2 | .wl2 _ => (Real.sqrt (∑ i, t.residual proj mask i ^ 2) + Real.sqrt (∑ i, dual i ^ 2)) / 2 + t.dataDualDot dual none
  | .l2b e => (Real.sqrt (∑ i, t.residual proj mask i ^ 2) + Real.sqrt (∑ i, (Real.sqrt (e.get i) * dual i) ^ 2)) / 2
      + t.dataDualDot dual none
  | .huber e _ _ =>
    Real.sqrt (∑ i, t.residual (t.addBackground proj) mask i ^ 2) + t.dataDualDot dual none
      + Real.sqrt (∑ i, (e.get i * dual i) ^ 2)
  | .l1 | .l1b _ => (∑ i, |t.applyThreshold (t.residual (t.addBackground proj) mask) i|) + t.dataDualDot dual none
  | .l12 grp => (∑ g ∈ Finset.univ.image grp,
      Real.sqrt (∑ j ∈ Finset.univ.filter (fun j => grp j = g), t.residual (t.addBackground proj) mask j ^ 2)) + t.dataDualDot dual none
  | .kl => ∑ i, |applyMask mask (fun i => match t.data with
      | some d => max (t.addBackground proj i) eps
          - max (d.get i) eps * (1 - Real.log (max (d.get i) eps) + Real.log (max (t.addBackground proj i) eps))
      | none => t.addBackground proj i) i|

/-- `initialize_dual` (src/corrct/data_terms.py:207-215). -/
def initializeDual (_t : DataTerm ι) : Arr ι := fun _ => 0

/-- `__getitem__` (src/corrct/data_terms.py:61-78): deep copy with every array attribute sliced;
`g` maps the selected pixels to the original ones.
Groupings (axis attributes) are plain integers in the code and are kept; only defined here for the
element-wise classes. -/
def slice (g : κ → ι) (t : DataTerm ι) : DataTerm κ where
  kind := match t.kind with
    | .l2 => .l2
    | .wl2 w => .wl2 (w.slice g)
    | .l2b e => .l2b (e.slice g)
    | .huber e grp _ => .huber (e.slice g) (grp.map (· ∘ g)) (fun _ => ∅)
    | .l1 => .l1
    | .l12 grp => .l12 (grp ∘ g)
    | .l1b e => .l1b (e.slice g)
    | .kl => .kl
  background := t.background.map (Attr.slice g)
  data := t.data.map (Attr.slice g)
  sigma := t.sigma.slice g
  sigmaData := t.sigmaData.map (Attr.slice g)
  sigma1 := t.sigma1.slice g
  sigmaSqrtError := t.sigmaSqrtError.slice g
  oneSigmaError := t.oneSigmaError.slice g
  cols := t.cols.map (· ∘ g)

/-- The classes whose operations act pixel by pixel. -/
def Elementwise (t : DataTerm ι) : Prop :=
  match t.kind with
  | .l12 _ => False
  | .huber _ (some _) _ => False
  | _ => True

end DataTerm
end Verif
