import Verif.Model.Solvers

/-! Inequalities behind the diagonal scaling. -/

namespace Verif
open Classical DataTerm Finset

variable {ν ι Q : Type} [Fintype ν] [Fintype ι]

theorem le_npMax {α : Type} [Fintype α] (f : Arr α) (i : α) : f i ≤ npMax f :=
  le_ciSup (f := f) (Set.finite_range _).bddAbove i

theorem npMax_le {α : Type} [Fintype α] {f : Arr α} {K : ℝ} (hK : 0 ≤ K) (h : ∀ i, f i ≤ K) : npMax f ≤ K := by
  unfold npMax
  cases isEmpty_or_nonempty α
  · rw [Real.iSup_of_isEmpty]; exact hK
  · exact ciSup_le h

theorem npMax_nonneg {α : Type} [Fintype α] {f : Arr α} (h : ∀ i, 0 ≤ f i) : 0 ≤ npMax f := Real.iSup_nonneg h

/-- Properties of the thresholded sums. -/
theorem fixSmall_pos {α : Type} [Fintype α] {f : Arr α} (h0 : ∀ i, 0 ≤ f i) (hm : npMax f ≠ 0) (i : α) :
    0 < fixSmall f i := by
  have hpos : 0 < npMax f := lt_of_le_of_ne (npMax_nonneg h0) hm.symm
  unfold fixSmall
  split_ifs with h
  · norm_num
  · rw [not_lt, le_div_iff₀ hpos] at h
    linarith

theorem le_fixSmall {α : Type} [Fintype α] {f : Arr α} (h0 : ∀ i, 0 ≤ f i) (hm : npMax f ≠ 0)
    (hM : ∀ i, f i ≤ 100000) (i : α) : f i ≤ fixSmall f i := by
  have hpos : 0 < npMax f := lt_of_le_of_ne (npMax_nonneg h0) hm.symm
  have hle : npMax f ≤ 100000 := npMax_le (by norm_num) hM
  unfold fixSmall
  split_ifs with h
  · rw [div_lt_iff₀ hpos] at h
    linarith
  · exact le_rfl

theorem fixSmall_cases {α : Type} (f : Arr α) (i : α) : fixSmall f i = f i ∨ fixSmall f i = 1 := by
  unfold fixSmall; split_ifs <;> simp

/-- The Pock-Chambolle inequality for a matrix: row sums `R ≥ ∑ |M| m`, column sums `C ≥ ∑ |M| β`. -/
theorem pockChambolle (M : ι → ν → ℝ) (m : Arr ν) (β : Arr ι) (R : Arr ι) (C : Arr ν) (hβ : ∀ i, 0 ≤ β i)
    (hm : ∀ j, 0 ≤ m j)
    (hRpos : ∀ i, 0 < R i) (hR : ∀ i, ∑ j, |M i j| * m j ≤ R i) (hC : ∀ j, ∑ i, |M i j| * β i ≤ C j) (d : Arr ν)
    (hd : ∀ j, m j * d j ^ 2 = d j ^ 2) :
    ∑ i, β i / R i * (∑ j, M i j * d j) ^ 2 ≤ ∑ j, C j * d j ^ 2 := by
  have h1 : ∀ i, (∑ j, M i j * d j) ^ 2 ≤ (∑ j, |M i j| * m j) * ∑ j, |M i j| * d j ^ 2 := by
    intro i
    refine sum_sq_le_sum_mul_sum_of_sq_eq_mul _ (fun j _ => mul_nonneg (abs_nonneg _) (hm j))
      (fun j _ => by positivity) fun j _ => ?_
    have h2 := sq_abs (M i j)
    calc (M i j * d j) ^ 2 = |M i j| ^ 2 * (m j * d j ^ 2) := by rw [h2, hd]; ring
      _ = _ := by ring
  calc ∑ i, β i / R i * (∑ j, M i j * d j) ^ 2
      ≤ ∑ i, β i * ∑ j, |M i j| * d j ^ 2 := by
        refine sum_le_sum fun i _ => ?_
        have hs : 0 ≤ ∑ j, |M i j| * d j ^ 2 := sum_nonneg fun j _ => by positivity
        have : (∑ j, M i j * d j) ^ 2 ≤ R i * ∑ j, |M i j| * d j ^ 2 :=
          (h1 i).trans (mul_le_mul_of_nonneg_right (hR i) hs)
        calc β i / R i * (∑ j, M i j * d j) ^ 2 ≤ β i / R i * (R i * ∑ j, |M i j| * d j ^ 2) :=
              mul_le_mul_of_nonneg_left this (div_nonneg (hβ i) (hRpos i).le)
          _ = _ := by have := (hRpos i).ne'; field_simp
    _ = ∑ j, (∑ i, |M i j| * β i) * d j ^ 2 := by
        simp_rw [mul_sum, sum_mul]
        rw [sum_comm]
        exact sum_congr rfl fun j _ => sum_congr rfl fun i _ => by ring
    _ ≤ _ := sum_le_sum fun j _ => mul_le_mul_of_nonneg_right (hC j) (sq_nonneg _)

/-- Symmetry: `⟨e, Mᵀ u⟩ = ⟨M e, u⟩`. -/
theorem matrix_adjoint (M : ι → ν → ℝ) (e : Arr ν) (u : Arr ι) :
    ∑ j, e j * ∑ i, M i j * u i = ∑ i, (∑ j, M i j * e j) * u i := by
  simp_rw [mul_sum, sum_mul]
  rw [sum_comm]
  exact sum_congr rfl fun i _ => sum_congr rfl fun j _ => by ring

end Verif
