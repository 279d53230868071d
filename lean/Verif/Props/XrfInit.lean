import Verif.Model.Projectors
import Mathlib.Tactic

/-! # C195: detector weights of the XRF projector -/

namespace Verif

/-- Specification: the weights that are meant by the argument: none for all ones, a single number for all the detectors, one
number per detector. Any other number of weights has no meaning. -/
def MeantWeights (nD : ℕ) : Option (List ℝ) → Option (List ℝ)
  | none => some (List.replicate nD 1)
  | some [w] => some (List.replicate nD w)
  | some ws => if ws.length = nD then some ws else none

/-- C195 is violated: one detector with two weights is accepted; the forward projection silently uses the first of them, and
the back-projection cannot take the sinogram. -/
theorem C195_single_detector_violated :
    ¬ (∀ (nD : ℕ) (ws : List ℝ), 0 < nD → MeantWeights nD (some ws) = none → xrfWeights nD (some ws) = none) ∧
    (∀ a b : ℝ, ∃ kept, xrfWeights 1 (some [a, b]) = some kept ∧ xrfLineWeights 1 kept = some [a] ∧
      ∀ n, 0 < n → ¬ xrfBackAccepts 1 n kept) := by
  constructor
  · intro h
    have := h 1 [1, 2] one_pos (by simp [MeantWeights])
    simp [xrfWeights] at this
  · intro a b
    refine ⟨[a, b], by simp [xrfWeights], by simp [xrfLineWeights], fun n hn h => ?_⟩
    simp [xrfBackAccepts] at h
    omega

/-- C195, what holds: arguments with a meaning are accepted, and the forward projection multiplies the line of each detector
with the weight that is meant, and the back-projection takes its result; with several detectors, and at least one weight, the
other arguments are rejected. Missing: several weights with one detector, and empty lists. -/
theorem C195_weights_partial (nD : ℕ) (hD : 0 < nD) (arg : Option (List ℝ)) :
    (∀ ws, MeantWeights nD arg = some ws →
      ∃ kept, xrfWeights nD arg = some kept ∧ xrfLineWeights nD kept = some ws ∧ ∀ n, xrfBackAccepts nD n kept) ∧
    (MeantWeights nD arg = none → 1 < nD → arg ≠ some [] → xrfWeights nD arg = none) := by
  have rep : ∀ w : ℝ, xrfLineWeights nD (List.replicate nD w) = some (List.replicate nD w) := by
    intro w
    by_cases h1 : nD = 1
    · subst h1; simp [xrfLineWeights]
    · simp [xrfLineWeights, h1]
  constructor
  · intro ws h
    match arg, h with
    | none, h =>
      simp only [MeantWeights, Option.some.injEq] at h
      subst h
      refine ⟨List.replicate nD 1, ?_, rep 1, fun n => by simp [xrfBackAccepts]⟩
      unfold xrfWeights
      by_cases h1 : 1 < nD
      · simp [h1, h1.ne']
      · simp [h1]
    | some [w], h =>
      simp only [MeantWeights, Option.some.injEq] at h
      subst h
      refine ⟨List.replicate nD w, ?_, rep w, fun n => by simp [xrfBackAccepts]⟩
      unfold xrfWeights
      by_cases h1 : 1 < nD
      · simp [h1]
      · obtain rfl : nD = 1 := by omega
        simp
    | some [], h => simp [MeantWeights] at h; omega
    | some (a :: b :: l), h =>
      simp only [MeantWeights] at h
      split_ifs at h with hl
      cases h
      refine ⟨a :: b :: l, ?_, ?_, fun n => by simp only [xrfBackAccepts, hl]⟩
      · subst hl; simp [xrfWeights]
      · subst hl; simp [xrfLineWeights]
  · intro h h1 he
    match arg, h with
    | none, h => simp [MeantWeights] at h
    | some [w], h => simp [MeantWeights] at h
    | some [], h => exact absurd rfl he
    | some (a :: b :: l), h =>
      simp only [MeantWeights] at h
      split_ifs at h with hl
      simp only [xrfWeights, h1, if_true]
      rw [if_neg (by simp), if_pos ⟨by simp, hl⟩]

/-- Three detectors with one weight each, with a common weight, and with two weights. -/
example : MeantWeights 3 (some [1, 2, 4]) = some [1, 2, 4] ∧ MeantWeights 3 (some [5]) = some [5, 5, 5] ∧
    MeantWeights 3 (some [1, 2]) = none := by
  refine ⟨by simp [MeantWeights], by simp [MeantWeights, List.replicate], by simp [MeantWeights]⟩

/-- Attenuation maps with the axes (angles, detectors, rows, columns) are accepted exactly if they have one map per detector
and the maps have the rows and columns of the volume, whatever the number of slices of the volume. -/
theorem C195_maps (nD nA k r c r' c' : ℕ) (pre : List ℕ) :
    xrfMapsAccepted nD [nA, k, r', c'] (pre ++ [r, c]) ↔ k = nD ∧ r' = r ∧ c' = c := by
  unfold xrfMapsAccepted
  simp

example : xrfMapsAccepted 2 [90, 2, 10, 12] [5, 10, 12] := by simp [xrfMapsAccepted]

end Verif
