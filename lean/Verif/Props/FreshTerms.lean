import Verif.Lemmas.DataTerms

/-! # C243: a data term before any data are assigned acts as one without data -/

namespace Verif
open DataTerm Verif.Spec

variable {ι : Type} [Fintype ι]

/-- C243, what holds: the residual of a new term is that of the term after `assign_data(None)`, for every class, background and mask. -/
theorem C243_residual_partial (kind : Kind ι) (bg : Option (Attr ι)) (proj : Arr ι) (mask : Option (Arr ι)) :
    (DataTerm.new kind bg).residual proj mask = ((DataTerm.new kind bg).assignData none (.scalar 1)).residual proj mask := by
  cases kind with
  | l2b e =>
    funext i
    have : ((DataTerm.new (.l2b e) bg).assignData none (.scalar 1)).sigmaSqrtError.get i = (DataTerm.new (.l2b e) bg).sigmaSqrtError.get i := by
      simp only [assignData, DataTerm.new]
      cases e <;> simp [Attr.map₂, Attr.map, Attr.get]
    simp only [DataTerm.residual]
    show softThreshold _ _ = softThreshold _ (((DataTerm.new (.l2b e) bg).assignData none (.scalar 1)).sigmaSqrtError.get i)
    rw [this]
    rfl
  | _ => rfl

/-- C243, what holds: the dual step of a new term of the l1 family or of the KL term is that of the term after `assign_data(None)`. -/
theorem C243_dual_step_partial (kind : Kind ι) (bg : Option (Attr ι)) (dual : Arr ι) (weight : Attr ι)
    (h : match kind with | .l1 | .l12 _ | .l1b _ | .kl => True | _ => False) :
    (DataTerm.new kind bg).proxDual dual weight = ((DataTerm.new kind bg).assignData none (.scalar 1)).proxDual dual weight := by
  cases kind <;> first | rfl | exact h.elim

/-- C243: the dual steps of a new l2 or weighted l2 term leave the dual as it is, whereas after `assign_data(None)` it is divided by
two (for weights: by `1 + 1 / w`, and zero where the weight is zero). -/
theorem C243_l2_partial (bg : Option (Attr ι)) (w : Attr ι) (dual : Arr ι) (i : ι) :
    (DataTerm.new .l2 bg).proxDual dual (.scalar 1) i = dual i ∧
    ((DataTerm.new .l2 bg).assignData none (.scalar 1)).proxDual dual (.scalar 1) i = dual i / 2 ∧
    (DataTerm.new (.wl2 w) bg).proxDual dual (.scalar 1) i = dual i ∧
    ((DataTerm.new (.wl2 w) bg).assignData none (.scalar 1)).proxDual dual (.scalar 1) i =
      if w.get i = 0 then 0 else dual i / (1 + 1 / w.get i) := by
  refine ⟨?_, ?_, ?_, ?_⟩
  · simp [proxDual, DataTerm.new, subSigmaData, Attr.get]
  · simp [proxDual, DataTerm.new, assignData, computeSigma1, subSigmaData, Attr.get, Attr.map]
    ring
  · simp [proxDual, DataTerm.new, subSigmaData, Attr.get]
  · have e : ((DataTerm.new (.wl2 w) bg).assignData none (.scalar 1)).proxDual dual (.scalar 1) i =
        dual i * (computeSigma1 (.wl2 w) (.scalar 1) (.scalar 1)).get i := rfl
    rw [e]
    have e2 : (computeSigma1 (.wl2 w) (.scalar 1) (.scalar 1)).get i =
        1 / (1 + 1 / (w.get i + if w.get i = 0 then 1 else 0)) * (1 - if w.get i = 0 then 1 else 0) := by
      cases w <;> rfl
    rw [e2]
    split_ifs with h
    · simp
    · simp [div_eq_mul_inv]

/-- C243 is false: a new l2 term has another dual step than the one with no data. -/
theorem C243_violated : ¬ ∀ (kind : Kind (Fin 1)) (dual : Arr (Fin 1)),
    (DataTerm.new kind none).proxDual dual = ((DataTerm.new kind none).assignData none (.scalar 1)).proxDual dual := by
  intro h
  have h1 := congrFun (h .l2 fun _ => 2) 0
  obtain ⟨a, b, -, -⟩ := C243_l2_partial (ι := Fin 1) none (.scalar 1) (fun _ => 2) 0
  rw [a, b] at h1
  norm_num at h1

end Verif
