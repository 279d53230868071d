import Verif.Lemmas.DataTerms
import Verif.Model.Solvers
import Mathlib.Analysis.SpecialFunctions.Log.Basic

/-!
# Reported norms of the residuals of images (C147) and primal-dual gaps (C148)
-/

namespace Verif
open Classical DataTerm Finset
variable {ν ι : Type} [Fintype ν] [Fintype ι]

/-! ## C147 -/

/-- **C147 (one-dimensional data).** The norm reported by the l1 term is the sum of the absolute values. -/
theorem C147_l1_vector_partial (t : DataTerm ι) (hk : t.kind = .l1) (hc : t.cols = none) (d : Arr ι) :
    t.residualNorm d = ∑ i, |d i| := by
  simp [residualNorm, hk, hc, applyThreshold]

/-- **C147 (images).** For two-dimensional data it is the largest of the sums of the columns: every column is below it, and one of them
attains it. So it is at most the sum over the image, and it is zero only for a zero residual. -/
theorem C147_l1_image_partial [Nonempty ι] (t : DataTerm ι) (hk : t.kind = .l1) (c : ι → ℕ) (hc : t.cols = some c) (d : Arr ι) :
    (∀ i, ∑ k ∈ univ.filter (fun k => c k = c i), |d k| ≤ t.residualNorm d) ∧
    (∃ i, t.residualNorm d = ∑ k ∈ univ.filter (fun k => c k = c i), |d k|) ∧
    t.residualNorm d ≤ ∑ i, |d i| ∧ (t.residualNorm d = 0 → ∀ i, d i = 0) := by
  have e : t.residualNorm d = ⨆ i, ∑ k ∈ univ.filter (fun k => c k = c i), |d k| := by
    simp [residualNorm, hk, hc, applyThreshold]
  have h1 : ∀ i, ∑ k ∈ univ.filter (fun k => c k = c i), |d k| ≤ t.residualNorm d := by
    intro i
    rw [e]
    exact le_ciSup (f := fun i => ∑ k ∈ univ.filter (fun k => c k = c i), |d k|) (Set.finite_range _).bddAbove i
  obtain ⟨i, hi⟩ := exists_eq_ciSup_of_finite (f := fun i => ∑ k ∈ univ.filter (fun k => c k = c i), |d k|)
  refine ⟨h1, ⟨i, by rw [e, ← hi]⟩, ?_, fun h0 j => ?_⟩
  · rw [e, ← hi]
    exact sum_le_sum_of_subset_of_nonneg (filter_subset _ _) fun _ _ _ => abs_nonneg _
  · have h2 : |d j| ≤ ∑ k ∈ univ.filter (fun k => c k = c j), |d k| :=
      single_le_sum (f := fun k => |d k|) (fun _ _ => abs_nonneg _) (by simp)
    have := h1 j
    exact abs_eq_zero.1 (le_antisymm (by linarith) (abs_nonneg _))

/-- **C147 is violated by images**: one row of two pixels; the reported norm is not the sum of the absolute values
(src/corrct/data_terms.py:584, no `flatten`). -/
theorem C147_l1_image_violated : ¬ ∀ (t : DataTerm (Fin 2)) (d : Arr (Fin 2)), t.kind = .l1 → t.residualNorm d = ∑ i, |d i| := by
  intro h
  have h1 := h { DataTerm.new .l1 none with cols := some fun i => i } (fun _ => 1) rfl
  have h2 : (⨆ i : Fin 2, ∑ k ∈ univ.filter (fun k : Fin 2 => (k : ℕ) = i), |(1 : ℝ)|) = 1 := by
    rw [show (fun i : Fin 2 => ∑ k ∈ univ.filter (fun k : Fin 2 => (k : ℕ) = i), |(1 : ℝ)|) = fun _ => 1 from by
      funext i; simp [Fin.val_inj, filter_eq']]
    exact ciSup_const
  simp [residualNorm, DataTerm.new, applyThreshold] at h1
  simp at h2
  rw [h2] at h1
  norm_num at h1

/-- The squared norms of l2 and the norm of KL do not depend on the shape. -/
theorem C147_flattened_partial (t : DataTerm ι) (d : Arr ι) :
    (t.kind = .l2 → t.residualNorm d = ∑ i, d i ^ 2) ∧ (t.kind = .kl → t.residualNorm d = ∑ i, |d i|) := by
  constructor <;> intro h <;> simp [residualNorm, h]

/-! ## C148 -/

/-- `p` is orthogonal to all projections, i.e. `A.T(p) = 0`: the dual variable is feasible for an unconstrained reconstruction. -/
def DualFeasible (A : Operator ν ι) (p : Arr ι) : Prop := ∀ x, ∑ i, p i * A.fwd x i = 0

/-- **C148 (l1 without background).** For a dual variable between -1 and 1 that is feasible, the reported gap bounds how far the
functional is from its minimum; in particular, it is not negative. -/
theorem C148_l1_partial (A : Operator ν ι) (t : DataTerm ι) (hk : t.kind = .l1) (hb : t.background = none) (b : Attr ι)
    (hd : t.data = some b) (p : Arr ι) (hp : DualFeasible A p) (h1 : ∀ i, |p i| ≤ 1) (x x' : Arr ν) :
    (∑ i, |b.get i - A.fwd x i|) - ∑ i, |b.get i - A.fwd x' i| ≤ t.primalDualGap (A.fwd x) p none := by
  have e : t.primalDualGap (A.fwd x) p none = (∑ i, |b.get i - A.fwd x i|) + ∑ i, p i * b.get i := by
    simp [primalDualGap, hk, applyThreshold, DataTerm.residual, applyMask, addBackground, hb, hd, dataDualDot]
  have h2 : -∑ i, |b.get i - A.fwd x' i| ≤ ∑ i, p i * (b.get i - A.fwd x' i) := by
    rw [← sum_neg_distrib]
    refine sum_le_sum fun i _ => ?_
    have h3 : |p i * (b.get i - A.fwd x' i)| ≤ |b.get i - A.fwd x' i| := by
      rw [abs_mul]; exact mul_le_of_le_one_left (abs_nonneg _) (h1 i)
    have h4 := neg_abs_le (p i * (b.get i - A.fwd x' i))
    linarith
  have h3 : ∑ i, p i * (b.get i - A.fwd x' i) = ∑ i, p i * b.get i := by
    rw [← sub_zero (∑ i, p i * b.get i), ← hp x', ← sum_sub_distrib]
    exact sum_congr rfl fun i _ => by ring
  rw [e]
  linarith

/-- **C148 (KL).** The value returned by the KL term for a dual variable is the divergence of the projection from the data: it does not
depend on the dual variable, is not negative, and vanishes only if the projection reproduces the data. -/
theorem C148_kl_partial (t : DataTerm ι) (hk : t.kind = .kl) (b : Attr ι) (hd : t.data = some b) (hb : ∀ i, eps ≤ b.get i)
    (proj p : Arr ι) (hy : ∀ i, eps ≤ t.addBackground proj i) :
    t.primalDualGap proj p none = ∑ i, (t.addBackground proj i - b.get i - b.get i * Real.log (t.addBackground proj i / b.get i)) ∧
    0 ≤ t.primalDualGap proj p none ∧ (t.primalDualGap proj p none = 0 ↔ ∀ i, t.addBackground proj i = b.get i) := by
  have h0 : (0 : ℝ) < eps := by norm_num [eps]
  have hbp : ∀ i, 0 < b.get i := fun i => lt_of_lt_of_le h0 (hb i)
  have hyp : ∀ i, 0 < t.addBackground proj i := fun i => lt_of_lt_of_le h0 (hy i)
  have hl : ∀ i, 0 ≤ t.addBackground proj i - b.get i - b.get i * Real.log (t.addBackground proj i / b.get i) ∧
      (t.addBackground proj i - b.get i - b.get i * Real.log (t.addBackground proj i / b.get i) = 0 →
        t.addBackground proj i = b.get i) := by
    intro i
    have hr : 0 < t.addBackground proj i / b.get i := div_pos (hyp i) (hbp i)
    have e1 : t.addBackground proj i = b.get i * (t.addBackground proj i / b.get i) := by
      rw [mul_div_cancel₀ _ (hbp i).ne']
    generalize t.addBackground proj i / b.get i = r at *
    have e2 : t.addBackground proj i - b.get i - b.get i * Real.log r = b.get i * (r - 1 - Real.log r) := by rw [e1]; ring
    refine ⟨?_, fun h => ?_⟩
    · rw [e2]
      exact mul_nonneg (hbp i).le (by linarith [Real.log_le_sub_one_of_pos hr])
    · rw [e2] at h
      have h3 : r - 1 - Real.log r = 0 := (mul_eq_zero.1 h).resolve_left (hbp i).ne'
      have : r = 1 := by
        by_contra hne
        have := Real.log_lt_sub_one_of_pos hr hne
        linarith
      rw [e1, this, mul_one]
  have e : t.primalDualGap proj p none
      = ∑ i, (t.addBackground proj i - b.get i - b.get i * Real.log (t.addBackground proj i / b.get i)) := by
    simp only [primalDualGap, hk, applyMask, hd]
    refine sum_congr rfl fun i _ => ?_
    rw [max_eq_left (hy i), max_eq_left (hb i), ← abs_of_nonneg (hl i).1, Real.log_div (hyp i).ne' (hbp i).ne']
    congr 1
    ring
  refine ⟨e, ?_, ?_⟩
  · rw [e]; exact sum_nonneg fun i _ => (hl i).1
  · rw [e, sum_eq_zero_iff_of_nonneg fun i _ => (hl i).1]
    refine ⟨fun h i => (hl i).2 (h i (mem_univ i)), fun h i _ => ?_⟩
    rw [h i, div_self (hbp i).ne', Real.log_one]; ring

/-- The operator whose projections are all zero: every dual variable is feasible for it. -/
private def nullOp : Operator (Fin 1) ι := ⟨fun _ _ => 0, fun _ _ => 0, none, none⟩

private theorem null_feasible (p : Arr ι) : DualFeasible (nullOp (ι := ι)) p := fun x => by simp [nullOp]

/-- **C148 is violated by l2**: the norms are not squared, and the gap of a primal-dual solution is negative
(src/corrct/data_terms.py:326-331). -/
theorem C148_l2_violated : ¬ ∀ (A : Operator (Fin 1) (Fin 1)) (t : DataTerm (Fin 1)) (b : Attr (Fin 1)) (p : Arr (Fin 1)) (x : Arr (Fin 1)),
    t.kind = .l2 → t.background = none → t.data = some b → DualFeasible A p → p = (fun i => A.fwd x i - b.get i) →
    0 ≤ t.primalDualGap (A.fwd x) p none := by
  intro h
  have := h nullOp ((DataTerm.new .l2 none).assignData (some (.scalar 2)) (.scalar 1)) (.scalar 2) (fun _ => -2) (fun _ => 0) rfl rfl
    rfl (null_feasible _) (by funext i; simp [nullOp, Attr.get])
  simp [primalDualGap, DataTerm.new, assignData, DataTerm.residual, applyMask, addBackground, dataDualDot, nullOp, Attr.get] at this

/-- **C148 is violated by l1 with a background**: the background is added twice (src/corrct/data_terms.py:589-592). -/
theorem C148_l1_background_violated : ¬ ∀ (A : Operator (Fin 1) (Fin 1)) (t : DataTerm (Fin 1)) (p : Arr (Fin 1)) (x : Arr (Fin 1)),
    t.kind = .l1 → DualFeasible A p → (∀ i, |p i| ≤ 1) → 0 ≤ t.primalDualGap (A.fwd x) p none := by
  intro h
  have := h nullOp ((DataTerm.new .l1 (some (.scalar 1))).assignData (some (.scalar 2)) (.scalar 1)) (fun _ => -1) (fun _ => 0) rfl
    (null_feasible _) (by simp)
  norm_num [primalDualGap, DataTerm.new, assignData, DataTerm.residual, applyMask, addBackground, dataDualDot, nullOp, Attr.get,
    applyThreshold] at this

/-- **C148 is violated by l1 and Huber with a background**: the reported gap is that of the term without background at the projection plus
*twice* the background. -/
theorem C148_background_twice_violated (t : DataTerm ι) (hk : t.kind = .l1 ∨ ∃ e f g, t.kind = .huber e f g) (bg : Attr ι)
    (hb : t.background = some bg) (proj p : Arr ι) (mask : Option (Arr ι)) :
    t.primalDualGap proj p mask = ({ t with background := none } : DataTerm ι).primalDualGap (fun i => proj i + 2 * bg.get i) p mask := by
  have e : ∀ i, proj i + bg.get i + bg.get i = proj i + 2 * bg.get i := fun i => by ring
  obtain ⟨kind, background, data, σ, σd, σ1, σe, oσe, cols⟩ := t
  simp only at hk hb
  subst hb
  rcases hk with rfl | ⟨a, b, c, rfl⟩
  · simp only [primalDualGap, DataTerm.residual, addBackground, dataDualDot, applyThreshold, e]
  · simp only [primalDualGap, DataTerm.residual, addBackground, dataDualDot, e]

/-- **C148 is violated by the l1 ball**: the term for the radius of the ball is missing (src/corrct/data_terms.py:586-595). -/
theorem C148_l1b_violated : ¬ ∀ (A : Operator (Fin 1) (Fin 1)) (t : DataTerm (Fin 1)) (e : Attr (Fin 1)) (p : Arr (Fin 1)) (x : Arr (Fin 1)),
    t.kind = .l1b e → t.background = none → DualFeasible A p → (∀ i, |p i| ≤ 1) → 0 ≤ t.primalDualGap (A.fwd x) p none := by
  intro h
  have := h nullOp ((DataTerm.new (.l1b (.scalar 1)) none).assignData (some (.scalar 1)) (.scalar 1)) (.scalar 1) (fun _ => -1)
    (fun _ => 0) rfl rfl (null_feasible _) (by simp)
  norm_num [primalDualGap, DataTerm.new, assignData, DataTerm.residual, applyMask, addBackground, dataDualDot, nullOp, Attr.get,
    applyThreshold, softThreshold] at this

/-- **C148 is violated by every mask**: the product with the data ignores it (src/corrct/data_terms.py:326-331, 595), so that the gap of
the l1 term depends on data of pixels that are masked out. -/
theorem C148_mask_violated : ¬ ∀ (t t' : DataTerm (Fin 2)) (b b' : Arr (Fin 2)) (m proj p : Arr (Fin 2)),
    t = (DataTerm.new .l1 none).assignData (some (.array b)) (.scalar 1) →
    t' = (DataTerm.new .l1 none).assignData (some (.array b')) (.scalar 1) → (∀ i, m i ≠ 0 → b i = b' i) →
    t.primalDualGap proj p (some m) = t'.primalDualGap proj p (some m) := by
  intro h
  have := h _ _ ![0, 0] ![0, 1] ![1, 0] (fun _ => 0) (fun _ => 1) rfl rfl (by intro i; fin_cases i <;> simp)
  simp [primalDualGap, DataTerm.new, assignData, DataTerm.residual, applyMask, addBackground, dataDualDot, Attr.get,
    applyThreshold] at this

/-- A feasible dual variable that is not zero, for an operator that is not zero. -/
example : DualFeasible (⟨fun x _ => x 0, fun y _ => y 0 + y 1, none, none⟩ : Operator (Fin 1) (Fin 2)) ![1, -1] := fun x => by simp

end Verif
