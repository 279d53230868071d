import Verif.Model.Geometry

/-!
# Model of `set_detector_shifts_vu` and `set_source_shifts_vu` for arrays of any numbers of rows (`src/corrct/models.py`)

The functions change the geometry object; they return whether they succeeded, and the object afterwards, also if they raise.
-/

namespace Verif
open V3

/-- A two-dimensional array of shifts: `k` rows (the last is U, the one before V), `n` columns (the angles). -/
structure ShiftsVu where
  k : ℕ
  n : ℕ
  val : ℕ → ℕ → ℝ

/-- `shifts[-1, :]` with the optional position of the rotation axis (src/corrct/models.py:190-192). -/
def ShiftsVu.u (s : ShiftsVu) (cor : Option ℝ) : ℕ → ℝ := fun i => s.val (s.k - 1) i + cor.getD 0

/-- `shifts[-2, :]`. -/
def ShiftsVu.v (s : ShiftsVu) : ℕ → ℝ := s.val (s.k - 2)

/-- Can an array of `a` rows times (or plus) a column of length `n` be added in place to `n` rows? -/
def broadcasts (a n : ℕ) : Bool := a == 1 || a == n

/-- The row used for angle `i` when an array is broadcast: the only one, or its own. -/
def bRow {α : Type} [Inhabited α] (l : List α) (i : ℕ) : α := if l.length = 1 then l.headD default else l.getD i default

instance : Inhabited V3 := ⟨0⟩

/-- `det_pos += vecs * shifts.reshape([-1, 1])` (src/corrct/models.py:210, 212). -/
noncomputable def addScaled (pos vecs : List V3) (c : ℕ → ℝ) : List V3 := pos.mapIdx fun i p => p + smul (c i) (bRow vecs i)

/-- `set_detector_shifts_vu` (src/corrct/models.py:173-215). `distNdim` is the number of dimensions of `det_dist_y`, `dist` its elements. -/
noncomputable def setDetectorShiftsVu (g : PrjGeom) (s : ShiftsVu) (cor : Option ℝ) (dist : List ℝ) (distNdim : ℕ) : Bool × PrjGeom :=
  if 1 < dist.length ∧ (1 < distNdim ∨ (1 < s.n ∧ dist.length ≠ s.n)) then (false, g)
  else if 1 < g.detPos.length ∧ 1 < s.n ∧ g.detPos.length ≠ s.n then (false, g)
  else
    let pos : List V3 := List.replicate s.n 0
    if broadcasts g.detU.length s.n = false then (false, { g with detPos := pos })
    else
      let pos := addScaled pos g.detU (s.u cor)
      let vertical := g.geomType.ndim = 3 ∧ s.k = 2
      if vertical ∧ broadcasts g.detV.length s.n = false then (false, { g with detPos := pos })
      else
        let pos := if vertical then addScaled pos g.detV s.v else pos
        if broadcasts dist.length s.n = false then (false, { g with detPos := pos })
        else (true, { g with detPos := pos.mapIdx fun i p => ⟨p.x, p.y + bRow dist i, p.z⟩ })

/-- `set_source_shifts_vu` (src/corrct/models.py:217-240); `none` is the default argument. -/
noncomputable def setSourceShiftsVu (g : PrjGeom) (s : Option ShiftsVu) : Bool × PrjGeom :=
  match s with
  | none => (true, g)
  | some s =>
    if 1 < g.srcPos.length ∧ 1 < s.n ∧ g.srcPos.length ≠ s.n then (false, g)
    else
      let y := g.srcPos.map V3.y
      let pos : List V3 := (List.range s.n).map fun i => ⟨s.val (s.k - 1) i, 0, 0⟩
      if broadcasts y.length s.n = false then (false, { g with srcPos := pos })
      else
        let pos := pos.mapIdx fun i p => ⟨p.x, bRow y i, p.z⟩
        (true, { g with srcPos := if g.geomType.ndim = 3 ∧ s.k = 2 then pos.mapIdx fun i p => ⟨p.x, p.y, s.v i⟩ else pos })

end Verif
