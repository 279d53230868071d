import Verif.Model.Basic
import Mathlib.Data.EReal.Operations
import Mathlib.Analysis.SpecialFunctions.Log.Basic

/-!
# Specification: proximal operators and convex conjugates

Independent of the model of the code.  A (per-pixel) functional is given by its effective domain and its
values there; it is `+∞` outside of the domain.
-/

namespace Verif.Spec
open Verif

/-- A functional `ℝ → ℝ ∪ {+∞}`, described by its effective domain and its values there. -/
structure Functional where
  dom : Set ℝ
  val : ℝ → ℝ

/-- Convex (Fenchel) conjugate `F*(q) = sup_y (q y - F y)`. -/
noncomputable def Functional.conj (F : Functional) (q : ℝ) : EReal :=
  ⨆ y ∈ F.dom, ((q * y - F.val y : ℝ) : EReal)

/-- `p` is the unique minimiser of `F*(q) + (q - x)² / (2σ)`, i.e. `p = prox_{σ F*}(x)`. -/
def IsProxConj (F : Functional) (σ x p : ℝ) : Prop :=
  F.conj p ≠ ⊤ ∧ ∀ q, q ≠ p →
    F.conj p + (((p - x) ^ 2 / (2 * σ) : ℝ) : EReal) < F.conj q + (((q - x) ^ 2 / (2 * σ) : ℝ) : EReal)

/-- `p` is the unique minimiser of `τ F(y) + (y - x)² / 2`, i.e. `p = prox_{τ F}(x)`. -/
def IsProx (F : Functional) (τ x p : ℝ) : Prop :=
  p ∈ F.dom ∧ ∀ y ∈ F.dom, y ≠ p → τ * F.val p + (p - x) ^ 2 / 2 < τ * F.val y + (y - x) ^ 2 / 2

/-- `½ (y - b)²`. -/
noncomputable def fL2 (b : ℝ) : Functional := ⟨Set.univ, fun y => (y - b) ^ 2 / 2⟩
/-- `½ w (y - b)²`. -/
noncomputable def fWL2 (w b : ℝ) : Functional := ⟨Set.univ, fun y => w * (y - b) ^ 2 / 2⟩
/-- `w |y - b|`. -/
noncomputable def fL1 (w b : ℝ) : Functional := ⟨Set.univ, fun y => w * |y - b|⟩
/-- Huber function with parameter `a`, normalised to slope one: `(y-b)²/(2a)` for `|y-b| ≤ a`,
`|y-b| - a/2` beyond. -/
noncomputable def fHuber (a b : ℝ) : Functional :=
  ⟨Set.univ, fun y => if |y - b| ≤ a then (y - b) ^ 2 / (2 * a) else |y - b| - a / 2⟩
/-- `max(|y - b| - √ε, 0)² / 2`, as documented for the l2-ball term (src/corrct/data_terms.py:435). -/
noncomputable def fL2b (ε b : ℝ) : Functional := ⟨Set.univ, fun y => max (|y - b| - Real.sqrt ε) 0 ^ 2 / 2⟩
/-- The same divided by `ε`. -/
noncomputable def fL2bScaled (ε b : ℝ) : Functional :=
  ⟨Set.univ, fun y => max (|y - b| - Real.sqrt ε) 0 ^ 2 / (2 * ε)⟩
/-- `max(|y - b| - ε, 0)`, as documented for the l1-ball term (src/corrct/data_terms.py:651). -/
noncomputable def fL1b (ε b : ℝ) : Functional := ⟨Set.univ, fun y => max (|y - b| - ε) 0⟩
/-- Poisson / Kullback–Leibler functional `y - b log y` on `y > 0` (and at `y = 0` when `b = 0`). -/
noncomputable def fKL (b : ℝ) : Functional := ⟨{y | 0 < y ∨ (y = 0 ∧ b = 0)}, fun y => y - b * Real.log y⟩
/-- The functional evaluated at the projection plus a constant background. -/
noncomputable def Functional.shift (F : Functional) (bg : ℝ) : Functional :=
  ⟨{y | y + bg ∈ F.dom}, fun y => F.val (y + bg)⟩

end Verif.Spec
