import Verif.Model.Nuclear
import Mathlib.Data.List.Sort

/-!
# Model of the axes bookkeeping of `TransformSVD` (src/corrct/operators.py:1015-1048, 1086-1106)

A NumPy array of any number of axes is a list of sizes and a value for every multi-index (a list).
-/

namespace Verif

/-- A NumPy array: shape and values; only the values at valid multi-indices count. -/
structure NdL where
  shape : List ℕ
  val : List ℕ → ℝ

/-- The multi-index is inside the shape. -/
def InShape : List ℕ → List ℕ → Prop
  | [], [] => True
  | n :: ns, i :: is => i < n ∧ InShape ns is
  | _, _ => False

/-- The position of a multi-index in C order (`np.reshape`, src/corrct/operators.py:1088, 1105). -/
def ravel : List ℕ → List ℕ → ℕ
  | _ :: ns, i :: is => i * ns.prod + ravel ns is
  | _, _ => 0

/-- The multi-index at a position in C order. -/
def unravel : List ℕ → ℕ → List ℕ
  | [], _ => []
  | _ :: ns, f => f / ns.prod :: unravel ns (f % ns.prod)

/-- `np.reshape(x, shape)` (src/corrct/operators.py:1088, 1105). -/
def NdL.reshape (shape : List ℕ) (x : NdL) : NdL := ⟨shape, fun q => x.val (unravel x.shape (ravel shape q))⟩

/-- `np.transpose(x, axes)` (src/corrct/operators.py:1087, 1106): axis `i` of the result is axis `axes[i]` of the argument. -/
def NdL.transpose (axes : List ℕ) (x : NdL) : NdL :=
  ⟨axes.map fun a => x.shape.getD a 0, fun q => x.val ((List.range x.shape.length).map fun a => q.getD (axes.idxOf a) 0)⟩

/-- `np.argsort` (src/corrct/operators.py:1030). -/
def argsort (l : List ℕ) : List ℕ := (List.range l.length).mergeSort fun i j => decide (l.getD i 0 ≤ l.getD j 0)

/-- `np.array(axes, ndmin=1) % len(dir_shape)` (src/corrct/operators.py:1015-1016). -/
def normAxes (nd : ℕ) (axes : List ℤ) : List ℕ := axes.map fun a : ℤ => (a % (nd : ℤ)).toNat

/-- `invariant_dims` (src/corrct/operators.py:1021-1022). -/
def svdInvariant (nd : ℕ) (rows cols : List ℕ) : List ℕ := (List.range nd).filter fun a => a ∉ rows ++ cols

/-- `fwd_transpose` (src/corrct/operators.py:1026). -/
def svdFwd (nd : ℕ) (rows cols : List ℕ) : List ℕ := svdInvariant nd rows cols ++ (rows ++ cols)

/-- The sizes of the given axes (src/corrct/operators.py:1023, 1031-1032). -/
def sizesOf (shape axes : List ℕ) : List ℕ := axes.map fun a => shape.getD a 0

/-- `fwd_shape` (src/corrct/operators.py:1033-1037). -/
def svdFwdShape (shape rows cols : List ℕ) : List ℕ :=
  sizesOf shape (svdInvariant shape.length rows cols) ++ [(sizesOf shape rows).prod, (sizesOf shape cols).prod]

/-- `bwd_shape` (src/corrct/operators.py:1039). -/
def svdBwdShape (shape rows cols : List ℕ) : List ℕ :=
  sizesOf shape (svdInvariant shape.length rows cols) ++ (sizesOf shape rows ++ sizesOf shape cols)

/-- The matrix that is decomposed for a multi-index of the invariant axes (src/corrct/operators.py:1087-1090). -/
def svdMatrix (rows cols : List ℕ) (x : NdL) (inv : List ℕ) :
    Fin (sizesOf x.shape rows).prod → Fin (sizesOf x.shape cols).prod → ℝ := fun i j =>
  ((x.transpose (svdFwd x.shape.length rows cols)).reshape (svdFwdShape x.shape rows cols)).val (inv ++ [i.val, j.val])

/-- The decompositions of `_op_direct` (src/corrct/operators.py:1086-1095): one per multi-index of the invariant axes. -/
noncomputable def svdStack (rescale : Bool) (svd : (r k : ℕ) → (Fin r → Fin k → ℝ) → Svd r k (min r k)) (rows cols : List ℕ)
    (x : NdL) (inv : List ℕ) : Svd (sizesOf x.shape rows).prod (sizesOf x.shape cols).prod
      (min (sizesOf x.shape rows).prod (sizesOf x.shape cols).prod) :=
  svdDirect rescale (svd _ _ (svdMatrix rows cols x inv))

/-- `_op_adjoint` of the stored arrays and the singular values `s` (src/corrct/operators.py:1099-1106), for an operator of direct
shape `shape`. -/
noncomputable def svdUnstack {R K q : ℕ} (shape rows cols : List ℕ) (S : List ℕ → Svd R K q) (s : List ℕ → Fin q → ℝ) : NdL :=
  let y : NdL := ⟨svdFwdShape shape rows cols, fun p =>
    let inv := p.dropLast.dropLast
    let i := p.getD inv.length 0
    let j := p.getD (inv.length + 1) 0
    if h : i < R ∧ j < K then inverseSvd (S inv).U (s inv) (S inv).Vt ⟨i, h.1⟩ ⟨j, h.2⟩ else 0⟩
  (y.reshape (svdBwdShape shape rows cols)).transpose (argsort (svdFwd shape.length rows cols))

end Verif
