import Verif.Lemmas.DataTerms

/-! # C194: the residual of the l2-ball term -/

namespace Verif
open DataTerm Verif.Spec

variable {ι : Type} [Fintype ι]

/-- C194 is violated: the residual of the l2-ball term with local error 4 (tolerance 2), data 0 and a projection of 3 is 1
in SIRT (step size 1) and 0 in PDHG with a step size 2. -/
theorem C194_step_size_violated :
    ¬ (∀ (e d : Attr (Fin 1)) (s s' : Attr (Fin 1)) (proj : Arr (Fin 1)), (∀ i, 0 < s.get i) → (∀ i, 0 < s'.get i) →
      ((DataTerm.new (.l2b e) none).assignData (some d) s).residual proj none =
        ((DataTerm.new (.l2b e) none).assignData (some d) s').residual proj none) := by
  intro h
  have h1 := congrFun (h (.scalar 4) (.scalar 0) (.scalar 1) (.scalar 2) (fun _ => 3) (by simp [Attr.get]) (by simp [Attr.get])) 0
  have h4 : Real.sqrt 4 = 2 := by rw [show (4 : ℝ) = 2 ^ 2 by norm_num, Real.sqrt_sq (by norm_num)]
  have e1 : ∀ s : ℝ, ((DataTerm.new (.l2b (.scalar 4)) none).assignData (some (.scalar 0)) (.scalar s) : DataTerm (Fin 1)).residual
      (fun _ => 3) none 0 = softThreshold (0 - 3) (s * Real.sqrt 4) := fun s => rfl
  rw [e1, e1, h4, softThreshold_of_le (by norm_num) (by norm_num), softThreshold_of_abs (by norm_num [abs_of_neg])] at h1
  norm_num at h1

/-- C194, what holds: for every step size the residual of a pixel is zero exactly if the data differ from the projection by at
most the step size times the square root of the local error, otherwise it is the difference moved towards zero by that amount.
Missing: the factor of the step size should not be there; with step size one (SIRT, SART, FISTA) it is not. -/
theorem C194_residual_partial (e d s : Attr ι) (bg : Option (Attr ι)) (proj : Arr ι) (i : ι) (hs : 0 ≤ s.get i) :
    let t := (DataTerm.new (.l2b e) bg).assignData (some d) s
    let diff := d.get i - (proj i + match bg with | some b => b.get i | none => 0)
    let tol := s.get i * Real.sqrt (e.get i)
    (t.residual proj none i = 0 ↔ |diff| ≤ tol) ∧
    (tol ≤ diff → t.residual proj none i = diff - tol) ∧ (diff ≤ -tol → t.residual proj none i = diff + tol) := by
  intro t diff tol
  have ht : 0 ≤ tol := mul_nonneg hs (Real.sqrt_nonneg _)
  have key : t.residual proj none i = softThreshold diff tol := by
    have e1 : t.sigmaSqrtError.get i = tol := by
      simp only [t, tol, assignData, DataTerm.new]
      cases s <;> cases e <;> rfl
    have e2 : ∀ f : Arr ι, applyMask none f = f := fun _ => rfl
    show softThreshold _ (t.sigmaSqrtError.get i) = _
    rw [e1]
    congr 1
    show d.get i - t.addBackground proj i = diff
    simp only [diff, addBackground, t, assignData, DataTerm.new]
    cases bg <;> simp
  rw [key]
  refine ⟨?_, fun h => softThreshold_of_ge ht h, fun h => softThreshold_of_le ht h⟩
  constructor
  · intro h
    by_contra hc
    push Not at hc
    rcases lt_abs.1 hc with h1 | h1
    · rw [softThreshold_of_ge ht h1.le] at h; linarith
    · rw [softThreshold_of_le ht (by linarith)] at h; linarith
  · intro h; exact softThreshold_of_abs h

/-- A pixel inside and a pixel outside of the tolerance. -/
example :
    let t := (DataTerm.new (.l2b (.scalar 1)) none : DataTerm (Fin 2)).assignData (some (.array ![1, 5])) (.scalar 1)
    t.residual (fun _ => 2) none 0 = 0 ∧ t.residual (fun _ => 2) none 1 = 2 := by
  intro t
  have h0 := C194_residual_partial (ι := Fin 2) (.scalar 1) (.array ![1, 5]) (.scalar 1) none (fun _ => 2) 0 (by simp [Attr.get])
  have h1 := C194_residual_partial (ι := Fin 2) (.scalar 1) (.array ![1, 5]) (.scalar 1) none (fun _ => 2) 1 (by simp [Attr.get])
  constructor
  · exact h0.1.2 (by norm_num [Attr.get])
  · rw [h1.2.1 (by norm_num [Attr.get])]; norm_num [Attr.get]

end Verif
