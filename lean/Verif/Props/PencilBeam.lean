import Verif.Model.Physics

/-!
# Pencil beam profiles: C117
-/

namespace Verif

open Real Finset

theorem beamIntensity_even (s : BeamShape) (fwhm x : ℝ) : beamIntensity s fwhm (-x) = beamIntensity s fwhm x := by
  cases s <;> simp [beamIntensity, neg_div, cosh_neg]

theorem beamIntensity_nonneg (s : BeamShape) (fwhm x : ℝ) : 0 ≤ beamIntensity s fwhm x := by
  cases s <;> simp only [beamIntensity] <;> positivity

theorem beamIntensity_zero (s : BeamShape) (fwhm : ℝ) (h : 0 < fwhm) : beamIntensity s fwhm 0 = 1 := by
  cases s
  · simp [beamIntensity]
  · simp only [beamIntensity]
    rw [zero_pow two_ne_zero, zero_add, div_self (by positivity)]
  · simp [beamIntensity]

/-- Sums over `range n` reversed. -/
theorem sum_reflect (n : ℕ) (f : ℕ → ℝ) : ∑ i ∈ range n, f i = ∑ i ∈ range n, f (n - 1 - i) := (Finset.sum_range_reflect f n).symm

/-- The convolution of two symmetric arrays is symmetric. -/
theorem convSame_symm (m : ℕ) (a b : ℕ → ℝ) (ha : ∀ i, i ≤ 2 * m → a (2 * m - i) = a i) (hb : ∀ i, i ≤ 2 * m → b (2 * m - i) = b i)
    (i : ℕ) (hi : i ≤ 2 * m) : convSame (2 * m + 1) a b (2 * m - i) = convSame (2 * m + 1) a b i := by
  unfold convSame
  rw [sum_reflect]
  refine sum_congr rfl fun j hj => ?_
  rw [sum_reflect]
  refine sum_congr rfl fun k hk => ?_
  rw [mem_range] at hj hk
  have e1 : 2 * m + 1 - 1 = 2 * m := by omega
  have e2 : 2 * m / 2 = m := by omega
  rw [e1, e2, ha j (by omega), hb k (by omega)]
  have : (2 * m - j + (2 * m - k) = 2 * m - i + m) ↔ (j + k = i + m) := by omega
  simp only [this]

theorem convSame_nonneg (n : ℕ) (a b : ℕ → ℝ) (ha : ∀ i, 0 ≤ a i) (hb : ∀ i, 0 ≤ b i) (i : ℕ) : 0 ≤ convSame n a b i := by
  unfold convSame
  refine sum_nonneg fun j _ => sum_nonneg fun k _ => ?_
  split_ifs
  · exact mul_nonneg (ha j) (hb k)
  · exact le_rfl

theorem convSame_center (m : ℕ) (a b : ℕ → ℝ) (ha : ∀ i, 0 ≤ a i) (hb : ∀ i, 0 ≤ b i) :
    a m * b m ≤ convSame (2 * m + 1) a b m := by
  unfold convSame
  have e1 : (2 * m + 1 - 1) / 2 = m := by omega
  simp only [e1]
  have h1 : (∑ k ∈ range (2 * m + 1), if m + k = m + m then a m * b k else 0) ≤
      ∑ j ∈ range (2 * m + 1), ∑ k ∈ range (2 * m + 1), if j + k = m + m then a j * b k else 0 := by
    refine single_le_sum (f := fun j => ∑ k ∈ range (2 * m + 1), if j + k = m + m then a j * b k else 0) (fun j _ =>
      sum_nonneg fun k _ => ?_) (mem_range.2 (by omega))
    split_ifs
    · exact mul_nonneg (ha j) (hb k)
    · exact le_rfl
  refine le_trans ?_ h1
  have h2 : (if m + m = m + m then a m * b m else 0) ≤ ∑ k ∈ range (2 * m + 1), if m + k = m + m then a m * b k else 0 := by
    refine single_le_sum (f := fun k => if m + k = m + m then a m * b k else 0) (fun k _ => ?_) (mem_range.2 (by omega))
    split_ifs
    · exact mul_nonneg (ha m) (hb k)
    · exact le_rfl
  simpa using h2

theorem beamGrid_symm (e : ℝ) (m : ℕ) (hm : 0 < m) (i : ℕ) (hi : i ≤ 2 * m) : beamGrid e (2 * m + 1) (2 * m - i) = -beamGrid e (2 * m + 1) i := by
  unfold beamGrid
  rw [if_neg (by omega), if_neg (by omega), Nat.cast_sub hi]
  have : (0 : ℝ) < m := by exact_mod_cast hm
  have e1 : ((2 * m + 1 - 1 : ℕ) : ℝ) = 2 * m := by rw [Nat.add_sub_cancel]; push_cast; ring
  rw [e1]
  push_cast
  field_simp
  ring

theorem beamGrid_mid (e : ℝ) (m : ℕ) (hm : 0 < m) : beamGrid e (2 * m + 1) m = 0 := by
  have h := beamGrid_symm e m hm m (by omega)
  rw [show 2 * m - m = m by omega] at h
  linarith

/-- **C117 (violated).** The profile of a pencil beam is an array of numbers: for voxels of 1/30 of a micron, and less, there is one
sampling point only, outside the voxel. -/
theorem C117_pencil_beam_violated :
    ¬ ∀ (eps voxel fwhm : ℝ) (p : ℕ) (s : BeamShape), 0 < eps → eps < 1 / 10 ^ 6 → 0 < voxel → 0 < fwhm →
      ∃ y, pencilBeam eps voxel fwhm p s = some y := by
  intro h
  obtain ⟨y, hy⟩ := h (1 / 10 ^ 7) (1 / 30) 1 1 .gaussian (by norm_num) (by norm_num) (by norm_num) one_pos
  have hn : beamPoints (((2 * 1 + 1 : ℕ) : ℝ) * (1 / 30)) = 1 := by
    unfold beamPoints
    rw [show (((2 * 1 + 1 : ℕ) : ℝ) * (1 / 30) * 10) = 1 by norm_num]
    simp
  unfold pencilBeam at hy
  simp only at hy
  rw [if_pos] at hy
  · simp at hy
  · left
    have hx : ∀ i, beamGrid (((2 * 1 + 1 : ℕ) : ℝ) * (1 / 30)) 1 i = -(1 / 20) := by
      intro i; unfold beamGrid; norm_num
    have hb : ¬ (|(-(1 / 20) : ℝ)| < 1 / 30 / 2 ∨ |(|(-(1 / 20) : ℝ)| - 1 / 30 / 2)| ≤ 1 / 10 ^ 7) := by
      rw [abs_neg, abs_of_pos (by norm_num : (0 : ℝ) < 1 / 20)]
      norm_num [abs_of_pos]
    refine le_antisymm (Finset.sup'_le _ _ fun i _ => ?_) ?_
    · unfold convSame
      refine (sum_eq_zero fun j _ => sum_eq_zero fun k _ => ?_).le
      rw [hn]
      dsimp only
      simp only [hx]
      rw [if_neg hb]
      simp
    · refine le_trans ?_ (Finset.le_sup' _ (mem_range.2 (by rw [hn]; exact zero_lt_one) : (0 : ℕ) ∈ _))
      refine convSame_nonneg _ _ _ (fun i => ?_) (fun i => beamIntensity_nonneg _ _ _) _
      split_ifs <;> norm_num

/-- **C117 (partial).** If the extent of the profile is more than a tenth of a micron, it is an array of non-negative numbers, that is
symmetric, positive at its centre, and sums to one. -/
theorem C117_pencil_beam_partial (eps voxel fwhm : ℝ) (p : ℕ) (s : BeamShape) (heps : 0 < eps) (hv : 0 < voxel) (hf : 0 < fwhm)
    (hext : 1 / 10 < (2 * p + 1) * voxel) :
    ∃ y, pencilBeam eps voxel fwhm p s = some y ∧ (∀ i, 0 ≤ y i) ∧ ∑ i ∈ range (2 * p + 1), y i = 1 ∧ 0 < y p ∧
      ∀ i, i ≤ 2 * p → y (2 * p - i) = y i := by
  obtain ⟨m, hm, hn⟩ : ∃ m, 0 < m ∧ beamPoints (((2 * p + 1 : ℕ) : ℝ) * voxel) = 2 * m + 1 := by
    refine ⟨⌈((2 * p + 1 : ℕ) : ℝ) * voxel * 10⌉₊ / 2, ?_, by unfold beamPoints; ring⟩
    have : 1 < ⌈((2 * p + 1 : ℕ) : ℝ) * voxel * 10⌉₊ := by
      rw [Nat.lt_ceil]; push_cast; linarith
    omega
  unfold pencilBeam
  simp only
  set E := ((2 * p + 1 : ℕ) : ℝ) * voxel with hE
  set x := beamGrid E (beamPoints E) with hx
  set yb : ℕ → ℝ := fun i => if |x i| < voxel / 2 ∨ |(|x i| - voxel / 2)| ≤ eps then (1 : ℝ) else 0 with hyb
  set cv := convSame (beamPoints E) yb fun i => beamIntensity s fwhm (x i) with hcv
  set top := (range (beamPoints E)).sup' ⟨0, by simp [beamPoints]⟩ cv with htop
  set y : ℕ → ℝ := fun ii : ℕ => ∑ i ∈ range (beamPoints E), cv i / top *
    if |x i - ((ii : ℝ) - p) * voxel| < voxel / 2 ∨ |x i - ((ii : ℝ) - p) * voxel| - voxel / 2 < eps then (1 : ℝ) else 0 with hy
  have xs : ∀ i, i ≤ 2 * m → x (2 * m - i) = -x i := by
    intro i hi; rw [hx, hn]; exact beamGrid_symm E m hm i hi
  have xm : x m = 0 := by rw [hx, hn]; exact beamGrid_mid E m hm
  have ybn : ∀ i, 0 ≤ yb i := fun i => by simp only [hyb]; split_ifs <;> norm_num
  have gn : ∀ i, 0 ≤ beamIntensity s fwhm (x i) := fun i => beamIntensity_nonneg _ _ _
  have cvn : ∀ i, 0 ≤ cv i := fun i => convSame_nonneg _ _ _ ybn gn i
  have cvs : ∀ i, i ≤ 2 * m → cv (2 * m - i) = cv i := by
    intro i hi
    rw [hcv, hn]
    refine convSame_symm m _ _ (fun j hj => ?_) (fun j hj => ?_) i hi
    · simp only [hyb]; rw [xs j hj, abs_neg]
    · rw [xs j hj, beamIntensity_even]
  have cvm : 0 < cv m := by
    have h := convSame_center m yb (fun i => beamIntensity s fwhm (x i)) ybn gn
    rw [hcv, hn]
    refine lt_of_lt_of_le ?_ h
    simp only [hyb, xm, beamIntensity_zero s fwhm hf, abs_zero]
    rw [if_pos (Or.inl (by positivity))]
    norm_num
  have topp : 0 < top := lt_of_lt_of_le cvm (Finset.le_sup' cv (mem_range.2 (by rw [hn]; omega)))
  have win : ∀ (ii : ℕ) (i : ℕ), (0 : ℝ) ≤ if |x i - ((ii : ℝ) - p) * voxel| < voxel / 2 ∨ |x i - ((ii : ℝ) - p) * voxel| - voxel / 2 < eps
      then (1 : ℝ) else 0 := fun ii i => by split_ifs <;> norm_num
  have yn : ∀ ii, 0 ≤ y ii := fun ii => sum_nonneg fun i _ => mul_nonneg (div_nonneg (cvn i) topp.le) (win ii i)
  have yp : 0 < y p := by
    refine sum_pos' (fun i _ => mul_nonneg (div_nonneg (cvn i) topp.le) (win p i)) ⟨m, mem_range.2 (by rw [hn]; omega), ?_⟩
    rw [xm, sub_self, zero_mul, sub_zero, abs_zero, if_pos (Or.inl (by positivity)), mul_one]
    exact div_pos cvm topp
  have ys : ∀ ii, ii ≤ 2 * p → y (2 * p - ii) = y ii := by
    intro ii hii
    simp only [hy]
    rw [hn, sum_reflect]
    refine sum_congr rfl fun i hi => ?_
    rw [mem_range] at hi
    rw [show 2 * m + 1 - 1 - i = 2 * m - i by omega, cvs i (by omega), xs i (by omega), Nat.cast_sub hii]
    have : |(-x i) - ((((2 * p : ℕ) : ℝ) - ii) - p) * voxel| = |x i - ((ii : ℝ) - p) * voxel| := by
      rw [← abs_neg]; congr 1; push_cast; ring
    rw [this]
  have tot : 0 < ∑ ii ∈ range (2 * p + 1), y ii := sum_pos' (fun i _ => yn i) ⟨p, mem_range.2 (by omega), yp⟩
  rw [if_neg (by push Not; exact ⟨topp.ne', tot.ne'⟩)]
  refine ⟨_, rfl, fun i => div_nonneg (yn i) tot.le, ?_, div_pos yp tot, fun i hi => congrArg (· / _) (ys i hi)⟩
  rw [← sum_div, div_self tot.ne']

example : ∃ y, pencilBeam (1 / 10 ^ 7) 1 2 1 .sech2 = some y ∧ ∑ i ∈ range 3, y i = 1 := by
  obtain ⟨y, h, -, h2, -⟩ := C117_pencil_beam_partial (1 / 10 ^ 7) 1 2 1 .sech2 (by norm_num) one_pos two_pos (by norm_num)
  exact ⟨y, h, h2⟩

end Verif
