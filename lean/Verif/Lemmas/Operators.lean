import Verif.Model.Operators

/-! Summation lemmas for shifted arrays. -/

namespace Verif
open Finset

variable {κ : Type} [Fintype κ] [DecidableEq κ] {n : κ → ℕ}

/-- Exchange of a partial bijection between the two factors of a sum of products. -/
theorem sum_partial {α : Type} [Fintype α] (f g : α → Option α) (hfg : ∀ p q, f p = some q ↔ g q = some p)
    (x y : α → ℝ) :
    ∑ p, (f p).elim 0 x * y p = ∑ q, x q * (g q).elim 0 y := by
  classical
  have h1 : ∀ p, (f p).elim 0 x * y p = ∑ q, if f p = some q then x q * y p else 0 := by
    intro p
    cases h : f p with
    | none => simp
    | some q0 => simp [Option.some.injEq, eq_comm]
  have h2 : ∀ q, x q * (g q).elim 0 y = ∑ p, if g q = some p then x q * y p else 0 := by
    intro q
    cases h : g q with
    | none => simp
    | some q0 => simp [Option.some.injEq, eq_comm]
  simp_rw [h1, h2]
  rw [sum_comm]
  refine sum_congr rfl fun q _ => sum_congr rfl fun p _ => ?_
  simp only [hfg p q]

theorem shiftIdx_iff (s : κ → ℤ) (p q : Idx n) :
    shiftIdx p s = some q ↔ ∀ k, (q k : ℤ) = p k + s k := by
  unfold shiftIdx
  constructor
  · intro h
    split_ifs at h with hs
    simp only [Option.some.injEq] at h
    intro k
    have := hs k
    have e := congrFun h k
    rw [← e]
    simp only []
    omega
  · intro h
    have hs : ∀ k, 0 ≤ (p k : ℤ) + s k ∧ (p k : ℤ) + s k < n k := by
      intro k
      have h1 := h k
      have := (q k).isLt
      omega
    rw [dif_pos hs]
    simp only [Option.some.injEq]
    funext k
    apply Fin.ext
    have h1 := h k
    simp only []
    omega

theorem shift_inv (s : κ → ℤ) (p q : Idx n) : shiftIdx p s = some q ↔ shiftIdx q (fun k => -s k) = some p := by
  rw [shiftIdx_iff, shiftIdx_iff]
  constructor <;> intro h k <;> have := h k <;> omega

/-- Zero padding: shifting one factor by `s` is shifting the other by `-s`. -/
theorem sum_shift_constant (s : κ → ℤ) (x y : Arr (Idx n)) :
    ∑ p, padGet .constant x p s * y p = ∑ p, x p * padGet .constant y p (fun k => -s k) := by
  simpa only [padGet] using
    sum_partial (fun p => shiftIdx p s) (fun p => shiftIdx p fun k => -s k) (shift_inv s) x y

theorem wrap_wrap (s : κ → ℤ) (p : Idx n) : wrapIdx (wrapIdx p s) (fun k => -s k) = p := by
  funext k
  apply Fin.ext
  have h := (p k).isLt
  have h0 : (n k : ℤ) ≠ 0 := by omega
  have h1 := Int.emod_nonneg ((p k : ℤ) + s k) h0
  simp only [wrapIdx]
  rw [Int.toNat_of_nonneg h1, Int.add_neg_eq_sub, Int.emod_sub_emod, add_sub_cancel_right]
  rw [Int.emod_eq_of_lt (by omega) (by omega)]
  simp

/-- Periodic padding. -/
theorem sum_shift_wrap (s : κ → ℤ) (x y : Arr (Idx n)) :
    ∑ p, padGet .wrap x p s * y p = ∑ p, x p * padGet .wrap y p (fun k => -s k) := by
  simp only [padGet]
  let e : Idx n ≃ Idx n := ⟨fun p => wrapIdx p s, fun p => wrapIdx p fun k => -s k, wrap_wrap s, fun p => by
    have := wrap_wrap (fun k => -s k) p
    simpa using this⟩
  rw [← Equiv.sum_comp e (fun p => x p * y (wrapIdx p fun k => -s k))]
  refine sum_congr rfl fun p _ => ?_
  show x (wrapIdx p s) * y p = x (wrapIdx p s) * y (wrapIdx (wrapIdx p s) fun k => -s k)
  rw [wrap_wrap]

/-- Edge padding by at most one element along one axis: the shifted value or the value itself. -/
theorem padGet_edge_unit (x : Arr (Idx n)) (p : Idx n) (a : κ) (σ : ℤ) (hσ : σ = 1 ∨ σ = -1) :
    padGet .edge x p (fun k => σ * unitAx a k) =
      (shiftIdx p (fun k => σ * unitAx a k)).elim (x p) x := by
  simp only [padGet]
  cases h : shiftIdx p (fun k => σ * unitAx a k) with
  | some q =>
    rw [shiftIdx_iff] at h
    simp only [Option.elim]
    congr 1
    funext k
    apply Fin.ext
    have := h k
    have := (q k).isLt
    simp only [clampIdx]
    omega
  | none =>
    simp only [Option.elim]
    congr 1
    have hn : ¬ (0 ≤ (p a : ℤ) + σ ∧ (p a : ℤ) + σ < n a) := by
      intro hh
      unfold shiftIdx at h
      split_ifs at h with hs
      apply hs
      intro k
      by_cases hk : k = a
      · subst hk; simpa [unitAx] using hh
      · have := (p k).isLt
        simp only [unitAx, if_neg hk, mul_zero, add_zero]
        omega
    funext k
    apply Fin.ext
    have hp := (p k).isLt
    simp only [clampIdx]
    by_cases hk : k = a
    · subst hk
      simp only [unitAx, if_true, mul_one]
      rcases hσ with rfl | rfl <;> omega
    · simp only [unitAx, if_neg hk, mul_zero, add_zero]
      omega

end Verif
