import Verif.Model.Alignment
import Verif.Props.Fits

/-!
# Shifts of the projections: C40 and the violated claim C95 (order of the projections)
-/

namespace Verif

/-! ## Specification -/

/-- `order` is a possible result of `np.argsort(angles)`. -/
def IsArgsort {n : ℕ} (angles : Fin n → ℝ) (order : Equiv.Perm (Fin n)) : Prop :=
  ∀ i j, i < j → angles (order i) ≤ angles (order j)

/-- The pairwise shifts are those of projections with displacements `drift`. -/
def IsDrift {n : ℕ} (find : Fin n → Fin n → ℝ) (drift : Fin n → ℝ) : Prop := ∀ i j, find i j = drift j - drift i

/-! ## Lemmas -/

theorem accumShift_drift {n : ℕ} (order : Equiv.Perm (Fin n)) (find : Fin n → Fin n → ℝ) (drift : Fin n → ℝ)
    (h : IsDrift find drift) (i : ℕ) (hi : i < n) (h0 : 0 < n) :
    accumShift order find i hi = drift (order ⟨i, hi⟩) - drift (order ⟨0, h0⟩) := by
  induction i with
  | zero => simp [accumShift]
  | succ i ih => rw [accumShift, ih, h]; ring

theorem fitVSorted_drift {n : ℕ} (order : Equiv.Perm (Fin n)) (find : Fin n → Fin n → ℝ) (drift : Fin n → ℝ)
    (h : IsDrift find drift) (d : ℕ) (i : Fin n) :
    fitVSorted order find d i = around d (drift (order i) - meanOf drift) := by
  have h0 : 0 < n := lt_of_le_of_lt (Nat.zero_le _) i.2
  unfold fitVSorted
  congr 1
  have hn : (n : ℝ) ≠ 0 := by exact_mod_cast h0.ne'
  have : meanOf (fun k : Fin n => accumShift order find k k.2) = meanOf drift - drift (order ⟨0, h0⟩) := by
    unfold meanOf
    have e : ∀ k : Fin n, accumShift order find k k.2 = drift (order k) - drift (order ⟨0, h0⟩) :=
      fun k => accumShift_drift order find drift h k k.2 h0
    simp only [e, Finset.sum_sub_distrib, Finset.sum_const, Finset.card_univ, Fintype.card_fin, nsmul_eq_mul]
    rw [Equiv.sum_comp order drift]
    field_simp
  rw [this, accumShift_drift order find drift h i i.2 h0]
  ring

/-! ## C40 -/

/-- **C40.** `fit_vu`: if the projections are ordered by angle (or if their order is its own inverse, as for a list in descending
order), the vertical shift of every projection is that projection's displacement from the mean, rounded: independent of the
number of projections and of errors that add up along the chain. -/
theorem C40_vertical_shifts {n : ℕ} (order : Equiv.Perm (Fin n)) (hinv : ∀ j, order (order j) = j)
    (find : Fin n → Fin n → ℝ) (drift : Fin n → ℝ) (h : IsDrift find drift) (d : ℕ) (j : Fin n) :
    |shiftsReturned order (fitVSorted order find d) j - (drift j - meanOf drift)| ≤ 1 / (2 * 10 ^ d) := by
  unfold shiftsReturned
  rw [fitVSorted_drift order find drift h, hinv]
  exact around_error _ _

/-- The order of strictly increasing angles is the identity, the one of strictly decreasing ones the reversal: both are their own
inverse. -/
theorem C40_increasing_angles {n : ℕ} (angles : Fin n → ℝ) (hm : StrictMono angles) (order : Equiv.Perm (Fin n))
    (ho : IsArgsort angles order) (j : Fin n) : order (order j) = j := by
  have mono : StrictMono order := by
    intro a b hab
    have h1 := ho a b hab
    rcases lt_trichotomy (order a) (order b) with h | h | h
    · exact h
    · exact absurd (order.injective h) hab.ne
    · exact absurd (hm h) (not_lt.2 h1)
  have : ⇑order = id := by
    funext x
    exact DFunLike.congr_fun (Subsingleton.elim (mono.orderIsoOfSurjective order order.surjective) (OrderIso.refl (Fin n))) x
  rw [this]; rfl

theorem C40_decreasing_angles {n : ℕ} (angles : Fin n → ℝ) (hm : StrictAnti angles) (order : Equiv.Perm (Fin n))
    (ho : IsArgsort angles order) (j : Fin n) : order (order j) = j := by
  have anti : StrictAnti order := by
    intro a b hab
    have h1 := ho a b hab
    rcases lt_trichotomy (order a) (order b) with h | h | h
    · exact absurd (hm h) (not_lt.2 h1)
    · exact absurd (order.injective h) hab.ne
    · exact h
  have mono : StrictMono (order.trans Fin.revPerm) := by
    intro a b hab
    simpa using anti hab
  have key : ⇑(order.trans Fin.revPerm) = id := by
    funext x
    exact DFunLike.congr_fun (Subsingleton.elim (mono.orderIsoOfSurjective _ (order.trans Fin.revPerm).surjective)
      (OrderIso.refl (Fin n))) x
  have hr : ∀ x, order x = Fin.rev x := by
    intro x
    have := congrFun key x
    simp only [Equiv.trans_apply, Fin.revPerm_apply, id] at this
    rw [← this, Fin.rev_rev]
    rw [this]
  rw [hr, hr, Fin.rev_rev]

/-- **C40.** No returned horizontal shift is larger than the maximum (but for the rounding), whatever the fits found. -/
theorem C40_bounded {n : ℕ} (order : Equiv.Perm (Fin n)) (find : Fin n → Fin n → ℝ) (motion : Fin n → ℝ) (maxShift : ℝ)
    (hm : 0 ≤ maxShift) (d : ℕ) (j : Fin n) :
    |shiftsReturned order (fitUSorted order find motion maxShift d) j| ≤ maxShift + 1 / (2 * 10 ^ d) := by
  unfold shiftsReturned fitUSorted
  simp only
  have h1 := around_error d (if maxShift < |accumShift order find ↑(order j) (order j).2 - motion (order j)| then 0
    else accumShift order find ↑(order j) (order j).2 - motion (order j))
  have h2 : |if maxShift < |accumShift order find ↑(order j) (order j).2 - motion (order j)| then 0
    else accumShift order find ↑(order j) (order j).2 - motion (order j)| ≤ maxShift := by
    split_ifs with h
    · simpa using hm
    · exact not_lt.1 h
  rw [abs_le] at h1 h2 ⊢
  constructor <;> linarith [h1.1, h1.2, h2.1, h2.2]

/-- **C40.** The horizontal shifts, where the fitted sinusoid is the motion of the rotating object: what remains is the
displacement of each projection (up to the rounding), if it is not larger than the maximum. -/
theorem C40_horizontal_shifts {n : ℕ} (order : Equiv.Perm (Fin n)) (hinv : ∀ j, order (order j) = j)
    (find : Fin n → Fin n → ℝ) (drift motion : Fin n → ℝ) (c maxShift : ℝ) (d : ℕ)
    (h : IsDrift find (fun i => drift i + motion i)) (hc : ∀ h0 : 0 < n, c = drift (order ⟨0, h0⟩) + motion (order ⟨0, h0⟩))
    (hmax : ∀ j, |drift j| ≤ maxShift) (j : Fin n) :
    |shiftsReturned order (fitUSorted order find (fun i => motion (order i) - c) maxShift d) j - drift j| ≤ 1 / (2 * 10 ^ d) := by
  have h0 : 0 < n := lt_of_le_of_lt (Nat.zero_le _) j.2
  unfold shiftsReturned fitUSorted
  simp only
  have e : accumShift order find ↑(order j) (order j).2 - (motion (order (order j)) - c) = drift j := by
    rw [accumShift_drift order find _ h _ (order j).2 h0, hc h0]
    simp only [Fin.eta, hinv]
    ring
  rw [e, if_neg (not_lt.2 (hmax j))]
  exact around_error _ _

/-- Non-vacuity of C40: three projections with displacements 0, 1, 5 at increasing angles. -/
example : ∃ (angles drift : Fin 3 → ℝ) (order : Equiv.Perm (Fin 3)) (find : Fin 3 → Fin 3 → ℝ),
    IsArgsort angles order ∧ StrictMono angles ∧ IsDrift find drift ∧ drift 1 ≠ drift 2 ∧ ∀ j, order (order j) = j :=
  ⟨fun i => (i : ℕ), ![0, 1, 5], Equiv.refl _, fun i j => (![0, 1, 5] : Fin 3 → ℝ) j - (![0, 1, 5] : Fin 3 → ℝ) i,
    fun i j h => by
      have : (i : ℕ) < j := h
      simp only [Equiv.refl_apply]
      exact_mod_cast this.le,
    fun i j h => by
      have : (i : ℕ) < j := h
      show ((i : ℕ) : ℝ) < ((j : ℕ) : ℝ)
      exact_mod_cast this, fun _ _ => rfl, by simp, fun _ => rfl⟩

/-! ## C95: other orders -/

/-- **C95 (violated).** The shifts are returned in the order of the projections: not if the angles are not sorted, as the last
line uses `angles_order` and not its inverse. -/
theorem C95_unsorted_angles_violated :
    ¬ ∀ (n : ℕ) (angles : Fin n → ℝ) (order : Equiv.Perm (Fin n)) (find : Fin n → Fin n → ℝ) (drift : Fin n → ℝ) (d : ℕ),
      IsArgsort angles order → IsDrift find drift →
      ∀ j, |shiftsReturned order (fitVSorted order find d) j - (drift j - meanOf drift)| ≤ 1 / (2 * 10 ^ d) := by
  intro h
  -- angles 1, 2, 0: sorted by projections 2, 0, 1
  let order : Equiv.Perm (Fin 3) := ⟨![2, 0, 1], ![1, 2, 0], by decide, by decide⟩
  let drift : Fin 3 → ℝ := ![0, 3, 6]
  have ho : IsArgsort (![1, 2, 0] : Fin 3 → ℝ) order := by
    intro i j hij
    fin_cases i <;> fin_cases j <;> simp [order] at hij ⊢
  have := h 3 ![1, 2, 0] order (fun i j => drift j - drift i) drift 0 ho (fun _ _ => rfl) 0
  unfold shiftsReturned at this
  rw [fitVSorted_drift order _ drift (fun _ _ => rfl)] at this
  have hm : meanOf drift = 3 := by
    unfold meanOf
    simp [Fin.sum_univ_three, drift]
    norm_num
  have e : order (order 0) = 1 := by decide
  have r0 : around 0 0 = 0 := by
    unfold around
    simp
  rw [hm, e] at this
  have e2 : drift 1 - 3 = 0 := by simp [drift]
  have e3 : drift 0 = 0 := by simp [drift]
  rw [e2, r0, e3] at this
  norm_num at this

/-- **C95 (partial).** What is true for any order of the angles: the returned list holds the right shifts, up to their order:
the value at `j` is that of projection `order (order j)`. -/
theorem C95_unsorted_angles_partial {n : ℕ} (order : Equiv.Perm (Fin n))
    (find : Fin n → Fin n → ℝ) (drift : Fin n → ℝ) (h : IsDrift find drift) (d : ℕ) (j : Fin n) :
    |shiftsReturned order (fitVSorted order find d) j - (drift (order (order j)) - meanOf drift)| ≤ 1 / (2 * 10 ^ d) := by
  unfold shiftsReturned
  rw [fitVSorted_drift order find drift h]
  exact around_error _ _

end Verif
