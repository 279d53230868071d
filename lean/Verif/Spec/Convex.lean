import Verif.Model.Regularizers
import Verif.Spec.Prox
import Verif.Spec.Solvers
import Mathlib.Analysis.Convex.Function

/-! # Specification: the optimisation problem a primal-dual reconstruction stands for -/

namespace Verif.Spec
open Verif Finset

variable {ν ι : Type}

/-- The documented functional of a data term at one pixel, for the data value `b`. (The l2-ball term is divided by its
`ε`; the group terms and the l1-ball term have none here.) -/
noncomputable def pixelFunctional (kind : Kind ι) (b : ℝ) (i : ι) : Functional :=
  match kind with
  | .l2 => fL2 b
  | .wl2 w => fWL2 (w.get i) b
  | .l2b e => fL2bScaled (e.get i) b
  | .huber e _ _ => fHuber (e.get i) b
  | .l1 => fL1 1 b
  | .kl => fKL (max b 0)
  | _ => ⟨Set.univ, fun _ => 0⟩

/-- Data terms with such a functional, and sensible parameters: non-negative weights, positive tolerances. -/
def ConvexKind (kind : Kind ι) : Prop :=
  match kind with
  | .l2 => True
  | .wl2 w => ∀ i, 0 ≤ w.get i
  | .l2b e => ∀ i, 0 < e.get i
  | .huber e grp _ => (∀ i, 0 < e.get i) ∧ grp = none
  | .l1 => True
  | .kl => True
  | .l12 _ => False
  | .l1b _ => False

/-- A penalty `H (K x)` on the volume: the transform and its adjoint, and the (finite) functional. -/
structure Penalty (ν δ : Type) where
  K : Arr ν → Arr δ
  Kt : Arr δ → Arr ν
  H : Arr δ → ℝ

/-- The functional a solver minimises: the data functional of projection plus background, summed over the training
pixels, plus the penalties. -/
noncomputable def objective [Fintype ν] [Fintype ι] {δ Q : Type} (S : Solver ν ι Q) (M : ι → ν → ℝ) (a : Args ν ι) (b : Arr ι)
    (gs : List (Penalty ν δ)) (x : Arr ν) : ℝ :=
  ∑ i, trainWeight a i * (pixelFunctional S.term.kind (b i) i).val (S.term.addBackground (fun i => ∑ j, M i j * x j) i) +
    (gs.map fun g => g.H (g.K x)).sum

/-- The volume is admissible (limits, solution mask) and the data functional is finite on the training pixels. -/
def Feasible [Fintype ν] [Fintype ι] {Q : Type} (S : Solver ν ι Q) (M : ι → ν → ℝ) (a : Args ν ι) (b : Arr ι) (x : Arr ν) : Prop :=
  Admissible a x ∧ ∀ i, trainWeight a i ≠ 0 →
    S.term.addBackground (fun i => ∑ j, M i j * x j) i ∈ (pixelFunctional S.term.kind (b i) i).dom

/-- A solution of the reconstruction problem. -/
def IsSolution [Fintype ν] [Fintype ι] {δ Q : Type} (S : Solver ν ι Q) (M : ι → ν → ℝ) (a : Args ν ι) (b : Arr ι)
    (gs : List (Penalty ν δ)) (x : Arr ν) : Prop :=
  Feasible S M a b x ∧ ∀ z, Feasible S M a b z → objective S M a b gs x ≤ objective S M a b gs z

end Verif.Spec
