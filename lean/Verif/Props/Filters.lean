import Verif.Model.Filters
import Verif.Props.CrossCorrelation

/-!
# FBP filters: padding and convolution (C51), self-adjointness (C112), the real-space representation (C113)
-/

namespace Verif

open ZMod Complex

/-! ## Padding -/

theorem paddingSize_spec (N : ℕ) : (∃ k, paddingSize N = 2 ^ k) ∧ 64 ≤ paddingSize N ∧ 2 * N ≤ paddingSize N ∧
    (paddingSize N = 64 ∨ paddingSize N < 4 * N) := by
  unfold paddingSize
  have h2 : 2 * N ≤ 2 ^ ⌈Real.logb 2 (2 * N)⌉₊ := by
    rcases Nat.eq_zero_or_pos N with rfl | hN
    · simp
    have hpos : (0 : ℝ) < 2 * N := by positivity
    have := Nat.le_ceil (Real.logb 2 (2 * N))
    rw [Real.logb_le_iff_le_rpow (by norm_num) hpos, Real.rpow_natCast] at this
    exact_mod_cast this
  refine ⟨?_, le_max_left _ _, h2.trans (le_max_right _ _), ?_⟩
  · rcases le_total 64 (2 ^ ⌈Real.logb 2 (2 * N)⌉₊) with h | h
    · exact ⟨_, max_eq_right h⟩
    · exact ⟨6, by rw [max_eq_left h]; norm_num⟩
  · by_cases h : 2 ^ ⌈Real.logb 2 (2 * N)⌉₊ ≤ 64
    · exact Or.inl (max_eq_left h)
    right
    push Not at h
    rw [max_eq_right h.le]
    have hN : 0 < N := by
      rcases Nat.eq_zero_or_pos N with rfl | hN
      · simp at h
      · exact hN
    have hpos : (0 : ℝ) < 2 * N := by positivity
    have hl : 0 ≤ Real.logb 2 (2 * N) := Real.logb_nonneg (by norm_num) (by
      have : (1 : ℝ) ≤ N := by exact_mod_cast hN
      linarith)
    have := Nat.ceil_lt_add_one hl
    have h3 : ((2 : ℝ) ^ ⌈Real.logb 2 (2 * N)⌉₊) < 4 * N := by
      rw [← Real.rpow_natCast]
      calc (2 : ℝ) ^ ((⌈Real.logb 2 (2 * N)⌉₊ : ℕ) : ℝ) < 2 ^ (Real.logb 2 (2 * N) + 1) :=
            Real.rpow_lt_rpow_of_exponent_lt (by norm_num) this
        _ = 4 * N := by
            rw [Real.rpow_add (by norm_num), Real.rpow_logb (by norm_num) (by norm_num) hpos, Real.rpow_one]
            ring
    exact_mod_cast h3

theorem padRoll_data (mode : RowPad) (P N : ℕ) (hP : 2 * N ≤ P) (data : ℕ → ℝ) (j : ℕ) (hj : j < N) :
    padRoll mode P N data j = data j := by
  unfold padRoll
  have h : (j + (P - N + 1) / 2) % P = j + (P - N + 1) / 2 := Nat.mod_eq_of_lt (by omega)
  simp only [h]
  rw [if_neg (by omega), if_pos (by omega), Nat.add_sub_cancel]

theorem padRoll_zero (P N : ℕ) (hP : 2 * N ≤ P) (data : ℕ → ℝ) (j : ℕ) (hj : N ≤ j) (hj' : j < P) :
    padRoll .constant P N data j = 0 := by
  unfold padRoll
  simp only
  by_cases h : j + (P - N + 1) / 2 < P
  · rw [Nat.mod_eq_of_lt h, if_neg (by omega), if_neg (by omega)]
  · have : (j + (P - N + 1) / 2) % P = j + (P - N + 1) / 2 - P := by
      rw [Nat.mod_eq_sub_mod (by omega), Nat.mod_eq_of_lt (by omega)]
    rw [this, if_pos (by omega)]

/-- The filter over all the frequencies of a padded row: with `use_rfft` the entries of the negative frequencies are those of the positive
ones. -/
noncomputable def fullFilter (rfft : Bool) (P : ℕ) (F : ℕ → ℝ) (l : ZMod P) : ℝ := if rfft then F (min l.val (P - l.val)) else F l.val

/-- The kernel of a filter. -/
noncomputable def filterKernel (rfft : Bool) (P : ℕ) [NeZero P] (F : ℕ → ℝ) (s : ZMod P) : ℝ :=
  ((∑ l : ZMod P, (fullFilter rfft P F l : ℂ) * stdAddChar (l * s)) / P).re

theorem dft1_neg (P : ℕ) [NeZero P] (x : ZMod P → ℝ) (k : ZMod P) : dft1 P x (-k) = starRingEnd ℂ (dft1 P x k) := by
  unfold dft1
  rw [map_sum]
  refine Finset.sum_congr rfl fun i _ => ?_
  rw [map_mul (starRingEnd ℂ), conj_ofReal, conj_char, neg_mul]

theorem irfftDefault_congr (n : ℕ) (Y Y' : ℕ → ℂ) (h : ∀ l, l ≤ n / 2 → Y l = Y' l) (j : ℕ) : irfftDefault n Y j = irfftDefault n Y' j := by
  unfold irfftDefault
  rw [h 0 (Nat.zero_le _), h (n / 2) le_rfl]
  congr 3
  refine Finset.sum_congr rfl fun l hl => ?_
  rw [h l (Finset.mem_Ico.1 hl).2.le]

theorem fullFilter_neg (P : ℕ) [NeZero P] (F : ℕ → ℝ) (l : ZMod P) : fullFilter true P F (-l) = fullFilter true P F l := by
  unfold fullFilter
  simp only [if_true]
  by_cases h : l = 0
  · rw [h, neg_zero]
  · have := ZMod.val_lt l
    rw [ZMod.neg_val, if_neg h]
    congr 1
    omega

theorem toReal_eq (rfft : Bool) (P : ℕ) [NeZero P] (hP : Even P) (Y : ZMod P → ℂ) (hY : ∀ l, Y (-l) = starRingEnd ℂ (Y l)) (j : ℕ) :
    toReal rfft P (fun l => Y (l : ZMod P)) j = ((∑ l : ZMod P, Y l * stdAddChar (l * (j : ZMod P))) / P).re := by
  cases rfft with
  | false => simp only [toReal, Bool.false_eq_true, if_false, ZMod.natCast_val, ZMod.cast_id', id]
  | true =>
    obtain ⟨h, hh⟩ := hP
    have hh2 : P = 2 * h := by omega
    subst hh2
    have h0 : 0 < h := by have := NeZero.pos (2 * h); omega
    simp only [toReal, if_true]
    exact irfft_even h0 Y hY j

/-- Filtering is a circular convolution with the kernel. -/
theorem applyFilterAt_eq (P : ℕ) [NeZero P] (hP : Even P) (rfft : Bool) (mode : RowPad) (N : ℕ) (F : ℕ → ℝ) (data : ℕ → ℝ) (j : ℕ) :
    applyFilterAt P rfft mode N F data j = ∑ i : ZMod P, padRoll mode P N data i.val * filterKernel rfft P F ((j : ZMod P) - i) := by
  set x : ZMod P → ℝ := fun i => padRoll mode P N data i.val with hx
  have key : ((∑ l : ZMod P, dft1 P x l * (fullFilter rfft P F l : ℂ) * stdAddChar (l * (j : ZMod P))) / P).re =
      ∑ i : ZMod P, x i * filterKernel rfft P F ((j : ZMod P) - i) := by
    unfold filterKernel
    have e : ∑ l : ZMod P, dft1 P x l * (fullFilter rfft P F l : ℂ) * stdAddChar (l * (j : ZMod P)) =
        ∑ i : ZMod P, (x i : ℂ) * ∑ l : ZMod P, (fullFilter rfft P F l : ℂ) * stdAddChar (l * ((j : ZMod P) - i)) := by
      unfold dft1
      simp only [Finset.sum_mul, Finset.mul_sum]
      rw [Finset.sum_comm]
      refine Finset.sum_congr rfl fun i _ => Finset.sum_congr rfl fun l _ => ?_
      have : (stdAddChar (l * ((j : ZMod P) - i)) : ℂ) = stdAddChar (-(l * i)) * stdAddChar (l * (j : ZMod P)) := by
        rw [← AddChar.map_add_eq_mul]; congr 1; ring
      rw [this]; ring
    rw [e, Finset.sum_div, re_sum]
    refine Finset.sum_congr rfl fun i _ => ?_
    rw [mul_div_assoc, re_ofReal_mul]
  rw [← key]
  unfold applyFilterAt
  cases rfft with
  | false =>
    simp only [toReal, Bool.false_eq_true, if_false, ZMod.natCast_val, ZMod.cast_id', id, fullFilter]
    rfl
  | true =>
    rw [← toReal_eq true P hP (fun l => dft1 P x l * (fullFilter true P F l : ℂ))]
    · simp only [toReal, if_true]
      refine irfftDefault_congr _ _ _ (fun l hl => ?_) j
      have hlt : l < P := by have := NeZero.pos P; omega
      unfold fullFilter
      simp only [if_true]
      rw [ZMod.val_natCast, Nat.mod_eq_of_lt hlt, min_eq_left (by omega)]
    · intro l
      rw [dft1_neg, fullFilter_neg, map_mul (starRingEnd ℂ), conj_ofReal]

theorem paddingSize_even (N : ℕ) : Even (paddingSize N) := by
  obtain ⟨⟨k, hk⟩, h64, -⟩ := paddingSize_spec N
  rw [hk] at h64 ⊢
  have : k ≠ 0 := by rintro rfl; norm_num at h64
  exact Nat.even_pow.2 ⟨even_two, this⟩

/-- Sum over a padded row: only the data contribute. -/
theorem sum_padRoll (P : ℕ) [NeZero P] (N : ℕ) (hP : 2 * N ≤ P) (data : ℕ → ℝ) (g : ZMod P → ℝ) :
    ∑ i : ZMod P, padRoll .constant P N data i.val * g i = ∑ i ∈ Finset.range N, data i * g (i : ZMod P) := by
  have h1 : ∑ i : ZMod P, padRoll .constant P N data i.val * g i = ∑ i ∈ Finset.range P, padRoll .constant P N data i * g (i : ZMod P) := by
    have := sum_zmod (fun i : ZMod P => ((padRoll .constant P N data i.val * g i : ℝ) : ℂ))
    rw [← ofReal_sum, ← ofReal_sum] at this
    rw [ofReal_inj.1 this]
    refine Finset.sum_congr rfl fun i hi => ?_
    rw [ZMod.val_natCast, Nat.mod_eq_of_lt (Finset.mem_range.1 hi)]
  rw [h1]
  have hs : Finset.range N ⊆ Finset.range P := by
    intro i hi
    rw [Finset.mem_range] at hi ⊢
    omega
  rw [← Finset.sum_subset hs]
  · refine Finset.sum_congr rfl fun i hi => ?_
    rw [padRoll_data _ _ _ hP _ _ (Finset.mem_range.1 hi)]
  · intro i hi hi'
    rw [padRoll_zero P N hP data i (by simpa using hi') (Finset.mem_range.1 hi), zero_mul]

/-! ## C51 -/

/-- **C51 (padding).** The padded size is a power of two, at least 64 and at least twice the size of the data; and it is the smallest such
number, up to the factor two: below four times the size, unless it is 64. -/
theorem C51_padding_size (N : ℕ) : (∃ k, paddingSize N = 2 ^ k) ∧ 64 ≤ paddingSize N ∧ 2 * N ≤ paddingSize N ∧
    (paddingSize N = 64 ∨ paddingSize N < 4 * N) := paddingSize_spec N

theorem linear_convolution_at (P : ℕ) [NeZero P] (hev : Even P) (rfft : Bool) (N : ℕ) (hP : 2 * N ≤ P) (h : ℤ → ℝ)
    (heven : ∀ t, h (-t) = h t) (data : ℕ → ℝ) (j : ℕ) (hj : j < N) :
    applyFilterAt P rfft .constant N (fun l => ∑ t ∈ Finset.Ioo (-(N : ℤ)) N, h t * Real.cos (2 * Real.pi * l * t / P)) data j =
      ∑ i ∈ Finset.range N, data i * h (j - i) := by
  rw [applyFilterAt_eq P hev, sum_padRoll P N hP]
  refine Finset.sum_congr rfl fun i hi => ?_
  rw [Finset.mem_range] at hi
  congr 1
  set F : ℕ → ℝ := fun l => ∑ t ∈ Finset.Ioo (-(N : ℤ)) N, h t * Real.cos (2 * Real.pi * l * t / P) with hF
  have hP0 : (P : ℝ) ≠ 0 := by exact_mod_cast NeZero.ne P
  have hP0' : (P : ℂ) ≠ 0 := by exact_mod_cast NeZero.ne P
  -- The filter is the transform of the kernel
  have hchar : ∀ (l : ZMod P) (t : ℤ), (stdAddChar (l * (t : ZMod P)) : ℂ).re = Real.cos (2 * Real.pi * l.val * t / P) := by
    intro l t
    have h1 : l * (t : ZMod P) = (((l.val : ℤ) * t : ℤ) : ZMod P) := by
      push_cast
      rw [ZMod.natCast_val, ZMod.cast_id', id]
    rw [h1, stdAddChar_coe]
    have : (2 * Real.pi * I * ((l.val : ℤ) * t : ℤ) / P : ℂ) = ((2 * Real.pi * l.val * t / P : ℝ) : ℂ) * I := by
      push_cast; ring
    rw [this, exp_ofReal_mul_I_re]
  have hper : ∀ l : ZMod P, F (P - l.val) = F l.val := by
    intro l
    simp only [hF]
    refine Finset.sum_congr rfl fun t _ => ?_
    congr 1
    rw [Nat.cast_sub (ZMod.val_lt l).le]
    have : 2 * Real.pi * ((P : ℝ) - l.val) * t / P = (t : ℤ) * (2 * Real.pi) - 2 * Real.pi * l.val * t / P := by
      field_simp
    rw [this, Real.cos_int_mul_two_pi_sub]
  have hfull : ∀ l : ZMod P, fullFilter rfft P F l = F l.val := by
    intro l
    unfold fullFilter
    split_ifs
    · rcases le_total l.val (P - l.val) with h | h
      · rw [min_eq_left h]
      · rw [min_eq_right h, hper]
    · rfl
  have hFc : ∀ l : ZMod P, (F l.val : ℂ) = ∑ t ∈ Finset.Ioo (-(N : ℤ)) N, (h t : ℂ) * stdAddChar (-(l * (t : ZMod P))) := by
    intro l
    apply Complex.ext
    · rw [ofReal_re, re_sum]
      refine Finset.sum_congr rfl fun t _ => ?_
      rw [re_ofReal_mul, ← conj_char, conj_re, hchar]
    · rw [ofReal_im, im_sum]
      have hs : ∑ t ∈ Finset.Ioo (-(N : ℤ)) N, ((h t : ℂ) * stdAddChar (-(l * (t : ZMod P)))).im =
          ∑ t ∈ Finset.Ioo (-(N : ℤ)) N, -((h t : ℂ) * stdAddChar (-(l * (t : ZMod P)))).im := by
        refine Finset.sum_nbij' (fun t => -t) (fun t => -t) ?_ ?_ ?_ ?_ ?_
        · intro t ht; rw [Finset.mem_Ioo] at ht ⊢; omega
        · intro t ht; rw [Finset.mem_Ioo] at ht ⊢; omega
        · intro t _; simp
        · intro t _; simp
        · intro t _
          have hc : (stdAddChar (-(l * ((-t : ℤ) : ZMod P))) : ℂ).im = -(stdAddChar (-(l * (t : ZMod P))) : ℂ).im := by
            rw [← conj_im, conj_char]
            congr 2
            push_cast
            ring
          rw [im_ofReal_mul, im_ofReal_mul, heven, hc]
          ring
      rw [Finset.sum_neg_distrib] at hs
      linarith
  unfold filterKernel
  simp only [hfull, hFc, Finset.sum_mul]
  rw [Finset.sum_comm]
  have hin : ∀ t ∈ Finset.Ioo (-(N : ℤ)) N, ∑ l : ZMod P, (h t : ℂ) * stdAddChar (-(l * (t : ZMod P))) * stdAddChar (l * ((j : ZMod P) - (i : ZMod P))) =
      if t = (j : ℤ) - i then (P : ℂ) * h t else 0 := by
    intro t ht
    have e : ∀ l : ZMod P, (h t : ℂ) * stdAddChar (-(l * (t : ZMod P))) * stdAddChar (l * ((j : ZMod P) - (i : ZMod P))) =
        (h t : ℂ) * stdAddChar (l * ((j : ZMod P) - (i : ZMod P) - (t : ZMod P))) := by
      intro l
      rw [mul_assoc, ← AddChar.map_add_eq_mul]
      congr 2
      ring
    simp only [e]
    rw [← Finset.mul_sum, char_sum]
    have hiff : ((j : ZMod P) - (i : ZMod P) - (t : ZMod P) = 0) ↔ t = (j : ℤ) - i := by
      have h1 : ((j : ZMod P) - (i : ZMod P) - (t : ZMod P)) = (((j : ℤ) - i - t : ℤ) : ZMod P) := by push_cast; ring
      rw [h1, ZMod.intCast_zmod_eq_zero_iff_dvd, Int.dvd_iff_emod_eq_zero]
      rw [Finset.mem_Ioo] at ht
      constructor
      · intro h0
        obtain ⟨q, hq⟩ := Int.dvd_of_emod_eq_zero h0
        have hlt : |(j : ℤ) - i - t| < P := by rw [abs_lt]; constructor <;> omega
        have : (j : ℤ) - i - t = 0 := Int.eq_zero_of_abs_lt_dvd (Int.dvd_of_emod_eq_zero h0) hlt
        omega
      · rintro rfl
        simp
    by_cases ht' : t = (j : ℤ) - i
    · rw [if_pos (hiff.2 ht'), if_pos ht', mul_comm]
    · rw [if_neg (fun h => ht' (hiff.1 h)), if_neg ht', mul_zero]
  rw [Finset.sum_congr rfl hin, Finset.sum_ite_eq' , if_pos (by rw [Finset.mem_Ioo]; omega), mul_div_cancel_left₀ _ hP0', ofReal_re]

/-- **C51 (no wrap-around).** Filtering a row of `N` pixels with the transform of any even kernel `h`, given at the offsets between `-N` and
`N`, is the linear convolution of the data and the kernel: nothing wraps around the borders. This is with either type of transform, and
the default padding. -/
theorem C51_linear_convolution (rfft : Bool) (N : ℕ) (h : ℤ → ℝ) (heven : ∀ t, h (-t) = h t) (data : ℕ → ℝ) (j : ℕ) (hj : j < N) :
    applyFilter rfft .constant N
        (some fun l => ∑ t ∈ Finset.Ioo (-(N : ℤ)) N, h t * Real.cos (2 * Real.pi * l * t / (paddingSize N : ℕ))) data j =
      ∑ i ∈ Finset.range N, data i * h (j - i) := by
  obtain ⟨-, -, hP, -⟩ := paddingSize_spec N
  exact linear_convolution_at (paddingSize N) (paddingSize_even N) rfft N hP h heven data j hj

/-- **C51 (identity).** The unit filter, and no filter at all, return the data: for either type of transform and either padding. -/
theorem C51_unit_filter (rfft : Bool) (mode : RowPad) (N : ℕ) (data : ℕ → ℝ) (j : ℕ) (hj : j < N) :
    applyFilter rfft mode N none data j = data j ∧ applyFilter rfft mode N (some fun _ => 1) data j = data j := by
  have main : applyFilter rfft mode N none data j = data j := by
    obtain ⟨-, -, hP, -⟩ := paddingSize_spec N
    have hev := paddingSize_even N
    unfold applyFilter
    rw [Option.getD_none, applyFilterAt_eq _ hev]
    have hk : ∀ s, filterKernel rfft (paddingSize N) (fun _ => 1) s = if s = 0 then 1 else 0 := by
      intro s
      unfold filterKernel fullFilter
      simp only [ite_self, ofReal_one, one_mul]
      rw [char_sum]
      split_ifs
      · rw [div_self (by exact_mod_cast NeZero.ne (paddingSize N)), one_re]
      · simp
    simp only [hk, sub_eq_zero, mul_ite, mul_one, mul_zero]
    rw [Finset.sum_ite_eq, if_pos (Finset.mem_univ _), ZMod.val_natCast, Nat.mod_eq_of_lt (by omega), padRoll_data _ _ _ hP _ _ hj]
  exact ⟨main, main⟩

/-- Not vacuous: the kernel `2` at zero and `-1` at the neighbours; the first pixel of the output does not see the last one of the data. -/
example (rfft : Bool) (data : ℕ → ℝ) :
    applyFilter rfft .constant 100 (some fun l => ∑ t ∈ Finset.Ioo (-(100 : ℕ) : ℤ) (100 : ℕ),
      (if t = 0 then 2 else if t.natAbs = 1 then -1 else 0 : ℝ) * Real.cos (2 * Real.pi * l * t / (paddingSize 100 : ℕ))) data 0 =
      2 * data 0 - data 1 := by
  rw [C51_linear_convolution rfft 100 (fun t => if t = 0 then 2 else if t.natAbs = 1 then -1 else 0) (by intro t; simp) data 0 (by norm_num)]
  have e : Finset.range 100 = insert 0 (insert 1 (Finset.Ico 2 100)) := by decide
  rw [e, Finset.sum_insert (by decide), Finset.sum_insert (by decide), Finset.sum_eq_zero]
  · simp; ring
  · intro i hi
    rw [Finset.mem_Ico] at hi
    have h1 : ((0 : ℕ) : ℤ) - i ≠ 0 := by omega
    have h2 : (((0 : ℕ) : ℤ) - i).natAbs ≠ 1 := by omega
    rw [if_neg h1, if_neg h2, mul_zero]

/-! ## C112 -/

/-- **C112.** Filtering is linear in the data and in the filter; and it is its own transpose, for any filter with `use_rfft`, and for any
filter with the same values at opposite frequencies otherwise (with the default padding). -/
theorem C112_filter_linear_selfadjoint (rfft : Bool) (mode : RowPad) (N : ℕ) (F G : ℕ → ℝ) (x y : ℕ → ℝ) (a b : ℝ) :
    (∀ j, applyFilter rfft mode N (some F) (fun i => a * x i + b * y i) j =
      a * applyFilter rfft mode N (some F) x j + b * applyFilter rfft mode N (some F) y j) ∧
    (∀ j, applyFilter rfft mode N (some fun l => a * F l + b * G l) x j =
      a * applyFilter rfft mode N (some F) x j + b * applyFilter rfft mode N (some G) x j) ∧
    ((rfft = true ∨ ∀ l, 0 < l → l < paddingSize N → F (paddingSize N - l) = F l) →
      ∑ j ∈ Finset.range N, applyFilter rfft .constant N (some F) x j * y j =
        ∑ j ∈ Finset.range N, x j * applyFilter rfft .constant N (some F) y j) := by
  obtain ⟨-, -, hP, -⟩ := paddingSize_spec N
  have hev := paddingSize_even N
  unfold applyFilter
  simp only [Option.getD_some, applyFilterAt_eq _ hev]
  refine ⟨fun j => ?_, fun j => ?_, fun hsym => ?_⟩
  · rw [Finset.mul_sum, Finset.mul_sum, ← Finset.sum_add_distrib]
    refine Finset.sum_congr rfl fun i _ => ?_
    unfold padRoll
    cases mode <;> simp only <;> split_ifs <;> ring
  · rw [Finset.mul_sum, Finset.mul_sum, ← Finset.sum_add_distrib]
    refine Finset.sum_congr rfl fun i _ => ?_
    have : ∀ s, filterKernel rfft (paddingSize N) (fun l => a * F l + b * G l) s =
        a * filterKernel rfft (paddingSize N) F s + b * filterKernel rfft (paddingSize N) G s := by
      intro s
      unfold filterKernel
      have e : ∀ l : ZMod (paddingSize N), ((fullFilter rfft (paddingSize N) (fun l => a * F l + b * G l) l : ℝ) : ℂ) * stdAddChar (l * s) =
          (a : ℂ) * ((fullFilter rfft (paddingSize N) F l : ℂ) * stdAddChar (l * s)) +
          (b : ℂ) * ((fullFilter rfft (paddingSize N) G l : ℂ) * stdAddChar (l * s)) := by
        intro l
        unfold fullFilter
        split_ifs <;> push_cast <;> ring
      simp only [e]
      rw [Finset.sum_add_distrib, ← Finset.mul_sum, ← Finset.mul_sum, add_div, mul_div_assoc, mul_div_assoc, add_re, re_ofReal_mul,
        re_ofReal_mul]
    rw [this]
    ring
  · simp only [sum_padRoll _ N hP]
    have hk : ∀ s, filterKernel rfft (paddingSize N) F (-s) = filterKernel rfft (paddingSize N) F s := by
      intro s
      have hfull : ∀ l : ZMod (paddingSize N), fullFilter rfft (paddingSize N) F (-l) = fullFilter rfft (paddingSize N) F l := by
        intro l
        rcases hsym with h | h
        · rw [h]; exact fullFilter_neg _ F l
        · cases rfft with
          | true => exact fullFilter_neg _ F l
          | false =>
            unfold fullFilter
            simp only [Bool.false_eq_true, if_false]
            by_cases hl : l = 0
            · rw [hl, neg_zero]
            · rw [ZMod.neg_val, if_neg hl]
              exact h _ (Nat.pos_of_ne_zero fun h0 => hl ((ZMod.val_eq_zero l).1 h0)) (ZMod.val_lt l)
      unfold filterKernel
      congr 2
      rw [← Equiv.sum_comp (Equiv.neg _)]
      refine Finset.sum_congr rfl fun l _ => ?_
      rw [Equiv.neg_apply, hfull, neg_mul_neg]
    simp only [Finset.sum_mul, Finset.mul_sum]
    rw [Finset.sum_comm]
    refine Finset.sum_congr rfl fun i _ => Finset.sum_congr rfl fun j _ => ?_
    rw [← hk, neg_sub]
    ring

/-- Not vacuous: the ramp on the frequencies of the real transform. -/
example (x y : ℕ → ℝ) : ∑ j ∈ Finset.range 50, applyFilter true .constant 50 (some fun l => (l : ℝ)) x j * y j =
    ∑ j ∈ Finset.range 50, x j * applyFilter true .constant 50 (some fun l => (l : ℝ)) y j :=
  (C112_filter_linear_selfadjoint true .constant 50 (fun l => l) (fun l => l) x y 1 1).2.2 (Or.inl rfl)

/-! ## C113 -/

theorem dft1_toReal (rfft : Bool) (P : ℕ) [NeZero P] (hP : Even P) (Y : ZMod P → ℂ) (hY : ∀ l, Y (-l) = starRingEnd ℂ (Y l)) (c : ZMod P)
    (l : ZMod P) : dft1 P (fun j => toReal rfft P (fun l => Y (l : ZMod P)) (j - c : ZMod P).val) l = stdAddChar (-(l * c)) * Y l := by
  have hreal : ∀ j : ZMod P, ((toReal rfft P (fun l => Y (l : ZMod P)) (j - c : ZMod P).val : ℝ) : ℂ) =
      (∑ k : ZMod P, Y k * stdAddChar (k * (j - c))) / P := by
    intro j
    rw [toReal_eq rfft P hP Y hY, ZMod.natCast_val, ZMod.cast_id', id]
    refine (conj_eq_iff_re.1 ?_)
    rw [map_div₀, map_natCast, map_sum, ← Equiv.sum_comp (Equiv.neg _)]
    congr 1
    refine Finset.sum_congr rfl fun k _ => ?_
    rw [Equiv.neg_apply, map_mul (starRingEnd ℂ), conj_char, hY, conj_conj, neg_mul, neg_neg]
  unfold dft1
  simp only [hreal]
  have hP0 : (P : ℂ) ≠ 0 := by exact_mod_cast NeZero.ne P
  have e : ∀ j : ZMod P, (∑ k : ZMod P, Y k * stdAddChar (k * (j - c))) / P * stdAddChar (-(l * j)) =
      (∑ k : ZMod P, Y k * stdAddChar (-(k * c)) * stdAddChar (j * (k - l))) / P := by
    intro j
    rw [div_mul_eq_mul_div, Finset.sum_mul]
    congr 1
    refine Finset.sum_congr rfl fun k _ => ?_
    rw [mul_assoc, mul_assoc, ← AddChar.map_add_eq_mul, ← AddChar.map_add_eq_mul]
    congr 2
    ring
  simp only [e]
  rw [← Finset.sum_div, Finset.sum_comm]
  have : ∀ k : ZMod P, ∑ j : ZMod P, Y k * stdAddChar (-(k * c)) * stdAddChar (j * (k - l)) = if k = l then Y l * stdAddChar (-(l * c)) * P else 0 := by
    intro k
    rw [← Finset.mul_sum, char_sum]
    by_cases h : k = l
    · rw [if_pos h, if_pos (sub_eq_zero.2 h), h]
    · rw [if_neg h, if_neg (fun h0 => h (sub_eq_zero.1 h0)), mul_zero]
  simp only [this]
  rw [Finset.sum_ite_eq', if_pos (Finset.mem_univ _), mul_div_cancel_right₀ _ hP0, mul_comm]

/-- A filter of a padded size that is the transform of something real, over all the frequencies. -/
def Hermitian (P : ℕ) [NeZero P] (F : ZMod P → ℂ) : Prop := ∀ l, F (-l) = starRingEnd ℂ (F l)

/-- **C113 (violated).** Assigning to `filter_real` the value that it has leaves the filter as it is. -/
theorem C113_filter_real_violated :
    ¬ ∀ (rfft : Bool) (P : ℕ) (inst : NeZero P) (F : ZMod P → ℂ), Even P → Hermitian P F →
      ∀ l : ℕ, l ≤ P / 2 → filterRealSet P (filterRealGet rfft P (fun l => F (l : ZMod P))) l = F (l : ZMod P) := by
  intro h
  have h1 := h false 2 inferInstance (fun _ => 1) even_two (fun l => by simp) 1 le_rfl
  have h2 := dft1_toReal false 2 even_two (fun _ => 1) (fun l => by simp) ((2 / 2 : ℕ) : ZMod 2) ((1 : ℕ) : ZMod 2)
  unfold filterRealSet filterRealGet at h1
  rw [h2] at h1
  have h3 : (stdAddChar (-(((1 : ℕ) : ZMod 2) * ((2 / 2 : ℕ) : ZMod 2))) : ℂ) = -1 := by
    have : (-(((1 : ℕ) : ZMod 2) * ((2 / 2 : ℕ) : ZMod 2))) = ((1 : ℤ) : ZMod 2) := by decide
    rw [this, stdAddChar_coe]
    have : (2 * Real.pi * I * (1 : ℤ) / (2 : ℕ) : ℂ) = Real.pi * I := by push_cast; ring
    rw [this, exp_pi_mul_I]
  rw [h3] at h1
  norm_num at h1

/-- **C113 (partial).** It multiplies the entry of frequency `l` by `(-1)^l`, as the getter moves the centre to the middle and the setter
expects it at the first pixel; doing it twice gives the filter back. -/
theorem C113_filter_real_partial (rfft : Bool) (P : ℕ) [NeZero P] (hP : Even P) (F : ZMod P → ℂ) (hF : Hermitian P F) :
    (∀ l : ℕ, filterRealSet P (filterRealGet rfft P (fun l => F (l : ZMod P))) l = (-1) ^ l * F (l : ZMod P)) ∧
    (∀ l : ℕ, filterRealSet P (filterRealGet rfft P (filterRealSet P (filterRealGet rfft P (fun l => F (l : ZMod P))))) l = F (l : ZMod P)) := by
  obtain ⟨h, hh⟩ := hP
  have hev : Even P := ⟨h, hh⟩
  have h0 : 0 < h := by have := NeZero.pos P; omega
  have hchar : ∀ l : ℕ, (stdAddChar (-((l : ZMod P) * ((P / 2 : ℕ) : ZMod P))) : ℂ) = (-1) ^ l := by
    intro l
    have hP2 : P / 2 = h := by omega
    have : -((l : ZMod P) * ((P / 2 : ℕ) : ZMod P)) = ((-(l * h : ℕ) : ℤ) : ZMod P) := by push_cast [hP2]; ring
    rw [this, stdAddChar_coe]
    have hne : (h : ℂ) ≠ 0 := by exact_mod_cast h0.ne'
    have : (2 * Real.pi * I * ((-(l * h : ℕ) : ℤ) : ℂ) / (P : ℕ) : ℂ) = -((l : ℕ) * (Real.pi * I)) := by
      rw [hh]; push_cast; field_simp; ring
    rw [this, exp_neg, exp_nat_mul, exp_pi_mul_I, ← inv_pow]
    norm_num
  have step : ∀ F : ZMod P → ℂ, Hermitian P F → ∀ l : ℕ,
      filterRealSet P (filterRealGet rfft P (fun l => F (l : ZMod P))) l = (-1) ^ l * F (l : ZMod P) := by
    intro F hF l
    unfold filterRealSet filterRealGet
    rw [dft1_toReal rfft P hev F hF, hchar]
  refine ⟨step F hF, fun l => ?_⟩
  have hG : Hermitian P (fun l => stdAddChar (-(l * ((P / 2 : ℕ) : ZMod P))) * F l) := by
    intro l
    dsimp only
    rw [hF l, map_mul (starRingEnd ℂ), conj_char]
    congr 2
    ring
  have e : filterRealSet P (filterRealGet rfft P (fun l => F (l : ZMod P))) =
      fun l : ℕ => (fun l : ZMod P => stdAddChar (-(l * ((P / 2 : ℕ) : ZMod P))) * F l) (l : ZMod P) := by
    funext l
    rw [step F hF l, ← hchar]
  rw [e, step _ hG l]
  rw [hchar, ← mul_assoc, ← mul_pow]
  norm_num

end Verif
