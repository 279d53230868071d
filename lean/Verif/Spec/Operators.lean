import Verif.Model.Basic

/-! Specification of adjoints, independent of the operators' code. -/

namespace Verif

/-- The inner product of two arrays of the same shape. -/
def dot {α : Type} [Fintype α] (x y : Arr α) : ℝ := ∑ i, x i * y i

/-- `At` is the adjoint of `A`: `⟨A x, y⟩ = ⟨x, At y⟩`. -/
def IsAdjoint {α β : Type} [Fintype α] [Fintype β] (A : Arr α → Arr β) (At : Arr β → Arr α) : Prop :=
  ∀ x y, dot (A x) y = dot x (At y)

/-- `A` is linear. -/
def IsLinear {α β : Type} (A : Arr α → Arr β) : Prop :=
  ∀ (a b : ℝ) (x y : Arr α), A (fun i => a * x i + b * y i) = fun i => a * A x i + b * A y i

end Verif
