import Verif.Model.Processing

/-!
# SNIP background (C48), and how it follows the signal (C104)
-/

namespace Verif

open Finset

variable {d : ℕ}

/-- Position inside an image. -/
def Inside (shape : Fin d → ℕ) (i : Fin d → ℤ) : Prop := ∀ a, 0 ≤ i a ∧ i a < shape a

theorem snipKernel_nonneg (w : ℕ) (k : Fin d → Fin w) : 0 ≤ snipKernel w k := by
  unfold snipKernel
  split_ifs <;> norm_num

theorem snipKernel_sum_pos (w : ℕ) (hw : 0 < w) (hd : 0 < d) : 0 < ∑ k : Fin d → Fin w, snipKernel w k := by
  refine lt_of_lt_of_le (b := snipKernel w (fun _ : Fin d => (⟨0, hw⟩ : Fin w))) ?_ (single_le_sum (fun k _ => snipKernel_nonneg w k) (mem_univ _))
  unfold snipKernel
  rw [if_neg]
  · norm_num
  · intro h
    have := (h ⟨0, hd⟩).1
    simp at this

theorem clampPos_inside (n : ℕ) (hn : 0 < n) (i : ℤ) : 0 ≤ clampPos n i ∧ clampPos n i < n := by
  unfold clampPos
  omega

/-- The convolution is an average: bounds pass to it. -/
theorem snipConvolve_ge (w : ℕ) (hw : 0 < w) (hd : 0 < d) (shape : Fin d → ℕ) (hs : ∀ a, 0 < shape a) (x : (Fin d → ℤ) → ℝ) (m : ℝ)
    (h : ∀ i, Inside shape i → m ≤ x i) (i : Fin d → ℤ) : m ≤ snipConvolve w shape x i := by
  unfold snipConvolve
  rw [le_div_iff₀ (snipKernel_sum_pos w hw hd), mul_sum]
  refine sum_le_sum fun k _ => ?_
  rw [mul_comm]
  exact mul_le_mul_of_nonneg_left (h _ fun a => clampPos_inside _ (hs a) _) (snipKernel_nonneg w k)

theorem snipConvolve_mono (w : ℕ) (shape : Fin d → ℕ) (hs : ∀ a, 0 < shape a) (x y : (Fin d → ℤ) → ℝ)
    (h : ∀ i, Inside shape i → x i ≤ y i) (i : Fin d → ℤ) : snipConvolve w shape x i ≤ snipConvolve w shape y i := by
  unfold snipConvolve
  refine div_le_div_of_nonneg_right (sum_le_sum fun k _ => ?_) (sum_nonneg fun k _ => snipKernel_nonneg w k)
  exact mul_le_mul_of_nonneg_left (h _ fun a => clampPos_inside _ (hs a) _) (snipKernel_nonneg w k)

theorem snipConvolve_affine (w : ℕ) (hw : 0 < w) (hd : 0 < d) (shape : Fin d → ℕ) (x : (Fin d → ℤ) → ℝ) (a c : ℝ) (i : Fin d → ℤ) :
    snipConvolve w shape (fun j => a * x j + c) i = a * snipConvolve w shape x i + c := by
  have hp := (snipKernel_sum_pos w hw hd).ne'
  unfold snipConvolve
  have : ∀ k : Fin d → Fin w, snipKernel w k *
      (a * x (fun a => clampPos (shape a) (i a + (w / 2 : ℕ) - (k a : ℕ))) + c) =
      a * (snipKernel w k * x (fun a => clampPos (shape a) (i a + (w / 2 : ℕ) - (k a : ℕ)))) + snipKernel w k * c := by
    intro k; ring
  simp only [this]
  rw [sum_add_distrib, ← mul_sum, ← sum_mul]
  field_simp

/-! ## C48 -/

/-- **C48.** For any signal, window, number of dimensions of the kernel and of iterations: the background is nowhere above the signal,
nowhere below a lower bound of the signal (in particular, its minimum), and it does not increase with the number of iterations. -/
theorem C48_snip_bounds (w : ℕ) (hw : 0 < w) (hd : 0 < d) (shape : Fin d → ℕ) (img : (Fin d → ℤ) → ℝ) :
    (∀ n i, snip w shape n img i ≤ img i) ∧
    (∀ m : ℝ, (∀ i, Inside shape i → m ≤ img i) → ∀ n i, Inside shape i → m ≤ snip w shape n img i) ∧
    (∀ n n' i, n ≤ n' → snip w shape n' img i ≤ snip w shape n img i) := by
  have step : ∀ n i, snip w shape (n + 1) img i ≤ snip w shape n img i := fun n i => min_le_right _ _
  have anti : ∀ n n' i, n ≤ n' → snip w shape n' img i ≤ snip w shape n img i := by
    intro n n' i h
    induction h with
    | refl => exact le_rfl
    | step _ ih => exact le_trans (step _ i) ih
  refine ⟨fun n i => anti 0 n i (Nat.zero_le n), ?_, anti⟩
  intro m hm n
  induction n with
  | zero => exact hm
  | succ n ih =>
    intro i hi
    refine le_min ?_ (ih i hi)
    refine snipConvolve_ge w hw hd shape (fun a => ?_) _ m ih i
    have := hi a
    omega

/-- Not vacuous: one iteration on `0, 2, 0` lowers the peak to the mean of its neighbours, which is the minimum. -/
example : ∃ img : (Fin 1 → ℤ) → ℝ, img (fun _ => 1) = 2 ∧ (∀ i, Inside (fun _ => 3) i → 0 ≤ img i) ∧
    snip 3 (fun _ : Fin 1 => 3) 1 img (fun _ => 1) = 0 := by
  refine ⟨fun i => if i 0 = 1 then 2 else 0, by simp, fun i _ => by dsimp only; split_ifs <;> norm_num, ?_⟩
  show min (snipConvolve 3 (fun _ : Fin 1 => 3) _ (fun _ => 1)) _ = 0
  have : snipConvolve 3 (fun _ : Fin 1 => 3) (snip 3 (fun _ : Fin 1 => 3) 0 (fun i => if i 0 = 1 then 2 else 0)) (fun _ => 1) = 0 := by
    unfold snipConvolve snipKernel
    rw [Finset.sum_eq_zero, zero_div]
    intro k _
    have h3 := (k 0).isLt
    by_cases h : (k 0 : ℕ) = 1
    · rw [if_pos (by intro a; have : a = 0 := Subsingleton.elim _ _; subst this; omega), zero_mul]
    · have : clampPos 3 (1 + ((3 - 1) / 2 : ℕ) - ((k 0 : ℕ) : ℤ)) ≠ 1 := by unfold clampPos; omega
      show _ * (if clampPos 3 (1 + ((3 - 1) / 2 : ℕ) - ((k 0 : ℕ) : ℤ)) = 1 then (2 : ℝ) else 0) = 0
      rw [if_neg this, mul_zero]
  rw [this]
  simp [snip]

/-! ## C104 -/

/-- **C104.** The background commutes with changes of scale and offset of the signal, is monotone in the signal, and depends only on
the pixels of the image; a constant signal is its own background. -/
theorem C104_snip_equivariant (w : ℕ) (hw : 0 < w) (hd : 0 < d) (shape : Fin d → ℕ) (hs : ∀ a, 0 < shape a) (n : ℕ) :
    (∀ (img : (Fin d → ℤ) → ℝ) (a c : ℝ), 0 ≤ a → ∀ i, snip w shape n (fun j => a * img j + c) i = a * snip w shape n img i + c) ∧
    (∀ (x y : (Fin d → ℤ) → ℝ), (∀ i, Inside shape i → x i ≤ y i) → ∀ i, Inside shape i → snip w shape n x i ≤ snip w shape n y i) ∧
    (∀ (x y : (Fin d → ℤ) → ℝ), (∀ i, Inside shape i → x i = y i) → ∀ i, Inside shape i → snip w shape n x i = snip w shape n y i) ∧
    (∀ (c : ℝ) i, snip w shape n (fun _ => c) i = c) := by
  have haff : ∀ (img : (Fin d → ℤ) → ℝ) (a c : ℝ), 0 ≤ a → snip w shape n (fun j => a * img j + c) = fun i => a * snip w shape n img i + c := by
    intro img a c ha
    induction n with
    | zero => rfl
    | succ n ih =>
      funext i
      show min (snipConvolve w shape (snip w shape n _) i) (snip w shape n _ i) = a * min _ _ + c
      rw [ih, snipConvolve_affine w hw hd, mul_min_of_nonneg _ _ ha, min_add_add_right]
  have hmono : ∀ (x y : (Fin d → ℤ) → ℝ), (∀ i, Inside shape i → x i ≤ y i) → ∀ i, Inside shape i →
      snip w shape n x i ≤ snip w shape n y i := by
    intro x y hxy
    clear haff
    induction n with
    | zero => exact hxy
    | succ n ih =>
      intro i hi
      exact min_le_min (snipConvolve_mono w shape hs _ _ ih i) (ih i hi)
  refine ⟨fun img a c ha i => congrFun (haff img a c ha) i, hmono, ?_, ?_⟩
  · intro x y h i hi
    exact le_antisymm (hmono x y (fun j hj => (h j hj).le) i hi) (hmono y x (fun j hj => (h j hj).ge) i hi)
  · intro c i
    have := congrFun (haff (fun _ => 0) 0 c le_rfl) i
    simpa using this

/-- Not vacuous: an image of 2 by 2 pixels and a window of 3. -/
example (img : (Fin 2 → ℤ) → ℝ) (i : Fin 2 → ℤ) : snip 3 (fun _ => 2) 7 (fun j => 5 * img j + 1) i = 5 * snip 3 (fun _ => 2) 7 img i + 1 :=
  (C104_snip_equivariant 3 (by norm_num) (by norm_num) (fun _ => 2) (fun _ => by norm_num) 7).1 img 5 1 (by norm_num) i

end Verif
