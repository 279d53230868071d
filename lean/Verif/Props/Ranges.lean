import Verif.Props.Fits

/-!
# Ranges of hyper-parameters (C100) and refinement of minima (C99)
-/

namespace Verif

open Real

/-! ## C99 -/

/-- **C99 (violated).** `refine_max_position_1d` returns the position of a maximum, or raises: for the values `1, 0, 1` it returns that
of the minimum of the parabola. -/
theorem C99_refined_is_maximum_violated :
    ¬ ∀ (y0 y1 y2 : ℝ) (d : ℕ) (r : ℝ), refineMax3 y0 y1 y2 d = some r →
      ∃ p : Parab, p.eval (-1) = y0 ∧ p.eval 0 = y1 ∧ p.eval 1 = y2 ∧ ∃ v, |r - v| ≤ 1 / (2 * 10 ^ d) ∧ ∀ t, p.eval t ≤ p.eval v := by
  intro h
  have hr : refineMax3 1 0 1 2 = some 0 := by
    have ha : (parab3 (-1) 0 1 1 0 1).a = 1 := by unfold parab3; simp only; norm_num
    have hb : (parab3 (-1) 0 1 1 0 1).b = 0 := by unfold parab3; simp only; norm_num
    have hv : (parab3 (-1) 0 1 1 0 1).vertex = 0 := by unfold Parab.vertex; rw [hb]; simp
    have r0 : around 2 0 = 0 := by unfold around; simp
    unfold refineMax3
    simp only
    rw [hv, r0, ha, if_pos ⟨one_ne_zero, by norm_num, by norm_num⟩]
  obtain ⟨p, h1, h2, h3, v, -, hm⟩ := h 1 0 1 2 0 hr
  unfold Parab.eval at h1 h2 h3 hm
  have hc : p.c = 0 := by linarith
  have hb : p.b = 0 := by linarith
  have ha : p.a = 1 := by linarith
  have := hm (|v| + 1)
  rw [hc, hb, ha] at this
  have h4 : v ^ 2 = |v| ^ 2 := (sq_abs v).symm
  nlinarith [abs_nonneg v]

/-- **C99 (partial).** What is true: the returned position is that of a stationary point of the parabola through the values, up to
rounding, strictly between the two neighbours; and it is a maximum if the middle value is the largest. -/
theorem C99_refined_is_maximum_partial (y0 y1 y2 : ℝ) (d : ℕ) (r : ℝ) (h : refineMax3 y0 y1 y2 d = some r) :
    ∃ (p : Parab) (v : ℝ), p.eval (-1) = y0 ∧ p.eval 0 = y1 ∧ p.eval 1 = y2 ∧ |r - v| ≤ 1 / (2 * 10 ^ d) ∧ -1 < r ∧ r < 1 ∧
      p.b + 2 * p.a * v = 0 ∧ (y0 ≤ y1 → y2 ≤ y1 → ∀ t, p.eval t ≤ p.eval v) := by
  obtain ⟨i0, i1, i2⟩ := parab3_interpolates (-1) 0 1 y0 y1 y2 (by norm_num) (by norm_num)
  unfold refineMax3 at h
  simp only at h
  split_ifs at h with hc
  have hr := (Option.some.inj h).symm
  subst hr
  have ha : (parab3 (-1) 0 1 y0 y1 y2).a = (y2 - 2 * y1 + y0) / 2 := by unfold parab3; simp only; ring
  refine ⟨_, (parab3 (-1) 0 1 y0 y1 y2).vertex, i0, i1, i2, around_error _ _, hc.2.1, hc.2.2, ?_, ?_⟩
  · unfold Parab.vertex
    have := hc.1
    field_simp
    ring
  · intro h0 h2 t
    have hneg : (parab3 (-1) 0 1 y0 y1 y2).a < 0 := lt_of_le_of_ne (by rw [ha]; linarith) hc.1
    generalize parab3 (-1) 0 1 y0 y1 y2 = p at *
    unfold Parab.eval Parab.vertex
    have h : p.a ≠ 0 := hneg.ne
    have : p.c + p.b * (-p.b / (2 * p.a)) + p.a * (-p.b / (2 * p.a)) ^ 2 - (p.c + p.b * t + p.a * t ^ 2) =
        -p.a * (t + p.b / (2 * p.a)) ^ 2 := by field_simp; ring
    have h2 : 0 ≤ -p.a * (t + p.b / (2 * p.a)) ^ 2 := mul_nonneg (by linarith) (sq_nonneg _)
    linarith

/-! ## C100 -/

theorem step_pow (n i : ℕ) : ((10 : ℝ) ^ (1 / (n : ℝ))) ^ (i : ℝ) = 10 ^ ((i : ℝ) / n) := by
  rw [← rpow_mul (by norm_num)]; congr 1; ring

/-- The grid of the aligned range, before the selection. -/
theorem aligned_grid (start stop : ℝ) (n : ℕ) (hn : 0 < n) :
    lambdaRange start stop n true =
      ((List.range (n * (⌈logb 10 stop⌉ - ⌊logb 10 start⌋) + 1).toNat).map fun i : ℕ =>
        (10 : ℝ) ^ (((n * ⌊logb 10 start⌋ + (i : ℤ) : ℤ) : ℝ) / n)).filter fun x =>
          decide (start ≤ x) && decide (x * (1 - 1 / 1000) ≤ stop) := by
  unfold lambdaRange
  simp only [if_true]
  have hn' : (n : ℝ) ≠ 0 := by exact_mod_cast hn.ne'
  have hnum : ⌈(n : ℝ) * logb 10 ((10 : ℝ) ^ ((⌈logb 10 stop⌉ : ℤ) : ℝ) / (10 : ℝ) ^ ((⌊logb 10 start⌋ : ℤ) : ℝ)) - 1 / 1000⌉ =
      n * (⌈logb 10 stop⌉ - ⌊logb 10 start⌋) := by
    rw [← rpow_sub (by norm_num), logb_rpow (by norm_num) (by norm_num), Int.ceil_eq_iff]
    push_cast
    constructor <;> linarith
  rw [hnum]
  congr 1
  apply List.map_congr_left
  intro i _
  rw [step_pow, ← rpow_add (by norm_num)]
  congr 1
  push_cast
  field_simp

/-- **C100.** `get_lambda_range` with `aligned_order` (the default): all the values are between the limits (with a tolerance of 0.1 %
above), they are the powers `10^(k / num)`, in increasing order, and all such powers between the limits are there. -/
theorem C100_aligned (start stop : ℝ) (n : ℕ) (hn : 0 < n) :
    (∀ x ∈ lambdaRange start stop n true, start ≤ x ∧ x * (1 - 1 / 1000) ≤ stop ∧ ∃ k : ℤ, x = (10 : ℝ) ^ ((k : ℝ) / n)) ∧
    (0 < start → ∀ k : ℤ, start ≤ (10 : ℝ) ^ ((k : ℝ) / n) → (10 : ℝ) ^ ((k : ℝ) / n) ≤ stop →
      (10 : ℝ) ^ ((k : ℝ) / n) ∈ lambdaRange start stop n true) ∧
    (lambdaRange start stop n true).Pairwise (· < ·) := by
  rw [aligned_grid start stop n hn]
  have hn' : (0 : ℝ) < n := by exact_mod_cast hn
  refine ⟨?_, ?_, ?_⟩
  · intro x hx
    rw [List.mem_filter, List.mem_map, Bool.and_eq_true, decide_eq_true_iff, decide_eq_true_iff] at hx
    obtain ⟨⟨i, -, rfl⟩, h1, h2⟩ := hx
    exact ⟨h1, h2, _, rfl⟩
  · intro hs k h1 h2
    have hpos : (0 : ℝ) < 10 ^ ((k : ℝ) / n) := by positivity
    have hst : 0 < stop := lt_of_lt_of_le hpos h2
    have l1 : logb 10 start ≤ k / n := by
      rw [← logb_rpow (b := 10) (x := (k : ℝ) / n) (by norm_num) (by norm_num)]
      exact logb_le_logb_of_le (by norm_num) hs h1
    have l2 : (k : ℝ) / n ≤ logb 10 stop := by
      rw [← logb_rpow (b := 10) (x := (k : ℝ) / n) (by norm_num) (by norm_num)]
      exact logb_le_logb_of_le (by norm_num) hpos h2
    have b1 : n * ⌊logb 10 start⌋ ≤ k := by
      have h : ((⌊logb 10 start⌋ : ℤ) : ℝ) ≤ k / n := (Int.floor_le _).trans l1
      rw [le_div_iff₀ hn'] at h
      have h' : ((n * ⌊logb 10 start⌋ : ℤ) : ℝ) ≤ k := by push_cast; linarith
      exact_mod_cast h'
    have b2 : k ≤ n * ⌈logb 10 stop⌉ := by
      have h : (k : ℝ) / n ≤ ((⌈logb 10 stop⌉ : ℤ) : ℝ) := l2.trans (Int.le_ceil _)
      rw [div_le_iff₀ hn'] at h
      have h' : (k : ℝ) ≤ ((n * ⌈logb 10 stop⌉ : ℤ) : ℝ) := by push_cast; linarith
      exact_mod_cast h'
    rw [List.mem_filter, List.mem_map, Bool.and_eq_true, decide_eq_true_iff, decide_eq_true_iff]
    refine ⟨⟨(k - n * ⌊logb 10 start⌋).toNat, ?_, ?_⟩, h1, by nlinarith⟩
    · rw [List.mem_range]
      have : (n : ℤ) * (⌈logb 10 stop⌉ - ⌊logb 10 start⌋) = n * ⌈logb 10 stop⌉ - n * ⌊logb 10 start⌋ := by ring
      omega
    · congr 2
      rw [Int.toNat_of_nonneg (by omega)]
      push_cast
      ring
  · apply List.Pairwise.filter
    rw [List.pairwise_map]
    refine List.pairwise_lt_range.imp ?_
    intro a b hab
    have : (a : ℝ) < b := by exact_mod_cast hab
    apply rpow_lt_rpow_of_exponent_lt (by norm_num)
    rw [div_lt_div_iff_of_pos_right hn']
    push_cast
    linarith

/-- **C100.** Without `aligned_order`: the first value is `start`, each next one is larger by the factor `10^(1 / num)`, the last one is not
below `stop` (up to the tolerance of 0.001 of a step), and the one before is below it. -/
theorem C100_not_aligned (start stop : ℝ) (n : ℕ) (hn : 0 < n) (hs : 0 < start) (hss : start ≤ stop) :
    ∃ N : ℕ, (lambdaRange start stop n false).length = N + 1 ∧
      (∀ i, i ≤ N → (lambdaRange start stop n false)[i]? = some (start * (10 : ℝ) ^ ((i : ℝ) / n))) ∧
      stop * (10 : ℝ) ^ (-(1 / 1000) / (n : ℝ)) ≤ start * (10 : ℝ) ^ ((N : ℝ) / n) ∧
      ∀ i, i + 1 ≤ N → start * (10 : ℝ) ^ ((i : ℝ) / n) < stop := by
  have hn' : (0 : ℝ) < n := by exact_mod_cast hn
  have hlog : 0 ≤ logb 10 (stop / start) := logb_nonneg (by norm_num) ((one_le_div hs).2 hss)
  have hstop : stop = start * 10 ^ logb 10 (stop / start) := by
    rw [rpow_logb (by norm_num) (by norm_num) (by have := hs.trans_le hss; positivity)]; field_simp
  set L := logb 10 (stop / start) with hL
  set c := ⌈(n : ℝ) * L - 1 / 1000⌉ with hc
  have hc0 : 0 ≤ c := by
    have h1 : (-1 : ℤ) < c := by
      rw [hc, Int.lt_ceil]
      push_cast
      nlinarith
    omega
  have e : lambdaRange start stop n false = (List.range (c + 1).toNat).map fun i : ℕ => start * (10 : ℝ) ^ ((i : ℝ) / n) := by
    unfold lambdaRange
    simp only [Bool.false_eq_true, if_false]
    apply List.map_congr_left
    intro i _
    rw [step_pow]
  refine ⟨c.toNat, ?_, ?_, ?_, ?_⟩
  · rw [e]; simp; omega
  · intro i hi
    rw [e]
    rw [List.getElem?_map, List.getElem?_range (by omega)]
    rfl
  · rw [hstop, mul_assoc, ← rpow_add (by norm_num)]
    apply mul_le_mul_of_nonneg_left _ hs.le
    apply rpow_le_rpow_of_exponent_le (by norm_num)
    have h1 := Int.le_ceil ((n : ℝ) * L - 1 / 1000)
    have h2 : ((c.toNat : ℕ) : ℝ) = (c : ℝ) := by exact_mod_cast Int.toNat_of_nonneg hc0
    rw [h2, le_div_iff₀ hn', add_mul, div_mul_cancel₀ _ hn'.ne']
    rw [hc]; linarith
  · intro i hi
    rw [hstop]
    apply mul_lt_mul_of_pos_left _ hs
    apply rpow_lt_rpow_of_exponent_lt (by norm_num)
    rw [div_lt_iff₀ hn']
    have h1 : ((i : ℤ) : ℝ) + 1 ≤ c := by
      have : (i : ℤ) + 1 ≤ c := by omega
      exact_mod_cast this
    have h2 : (c : ℝ) < (n : ℝ) * L - 1 / 1000 + 1 := Int.ceil_lt_add_one _
    push_cast at h1
    linarith

/-- Non-vacuity of C100: the value 1 is in the range from 0.5 to 2. -/
example : (1 : ℝ) ∈ lambdaRange (1 / 2) 2 4 true := by
  have := (C100_aligned (1 / 2) 2 4 (by norm_num)).2.1 (by norm_num) 0 (by norm_num) (by norm_num)
  simpa using this

end Verif
