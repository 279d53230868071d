import Verif.Model.Processing

/-!
# Binning (C45, C102) and background from the margins (C103)
-/

namespace Verif

open Finset

/-! ## C45 -/

/-- The cropped axis: where it starts, and how many pixels are left out on each side. -/
theorem crop_spec (n b : ℕ) : cropHi n b - cropLo n b = b * (n / b) ∧ cropLo n b + b * (n / b) ≤ n ∧
    n - (cropLo n b + b * (n / b)) ≤ cropLo n b ∧ cropLo n b ≤ n - (cropLo n b + b * (n / b)) + 1 := by
  have h := Nat.div_add_mod n b
  unfold cropHi cropLo
  split_ifs with h0 <;> omega

theorem ceil_div_mul (b m : ℕ) (hb : 0 < b) : (b * m + b - 1) / b = m := by
  have : b * m + b - 1 = b * m + (b - 1) := by omega
  rw [this, Nat.mul_add_div hb, Nat.div_eq_of_lt (by omega), add_zero]

/-- Sum over blocks. -/
theorem sum_blocks (b m : ℕ) (f : ℕ → ℝ) :
    ∑ p ∈ range (b * m), f p = ∑ i ∈ range m, ∑ d ∈ range b, f (b * i + d) := by
  induction m with
  | zero => simp
  | succ m ih => rw [Nat.mul_succ, sum_range_add, ih, sum_range_succ]

/-- **C45.** Binning with the automatic crop by any factor `b ≥ 1`: there is a window of the image, centred up to one pixel, that each
axis of size `n` leaves less than `b` pixels out of; the output has `n / b` bins per axis; each pixel of the window is in exactly one
bin; each bin is the average of its `b²` pixels; and the mean of the output is the mean of the window. -/
theorem C45_binning (x : Image2) (b : ℕ) (hb : 0 < b) :
    ∃ v0 u0, let y := binImgs x b true
      y.nv = x.nv / b ∧ y.nu = x.nu / b ∧
      v0 + b * y.nv ≤ x.nv ∧ x.nv < b * y.nv + b ∧ u0 + b * y.nu ≤ x.nu ∧ x.nu < b * y.nu + b ∧
      (x.nv - (v0 + b * y.nv) ≤ v0 ∧ v0 ≤ x.nv - (v0 + b * y.nv) + 1) ∧
      (x.nu - (u0 + b * y.nu) ≤ u0 ∧ u0 ≤ x.nu - (u0 + b * y.nu) + 1) ∧
      (∀ p q, v0 ≤ p → p < v0 + b * y.nv → u0 ≤ q → q < u0 + b * y.nu →
        ∃! ij : ℕ × ℕ, ij.1 < y.nv ∧ ij.2 < y.nu ∧
          p ∈ Ico (v0 + b * ij.1) (v0 + b * (ij.1 + 1)) ∧ q ∈ Ico (u0 + b * ij.2) (u0 + b * (ij.2 + 1))) ∧
      (∀ i j, i < y.nv → j < y.nu → y.val i j =
        (∑ p ∈ Ico (v0 + b * i) (v0 + b * (i + 1)), ∑ q ∈ Ico (u0 + b * j) (u0 + b * (j + 1)), x.val p q) / (b ^ 2 : ℕ)) ∧
      (∑ i ∈ range y.nv, ∑ j ∈ range y.nu, y.val i j) / (y.nv * y.nu : ℕ) =
        (∑ p ∈ Ico v0 (v0 + b * y.nv), ∑ q ∈ Ico u0 (u0 + b * y.nu), x.val p q) / (b * y.nv * (b * y.nu) : ℕ) := by
  obtain ⟨v1, v2, v3, v4⟩ := crop_spec x.nv b
  obtain ⟨u1, u2, u3, u4⟩ := crop_spec x.nu b
  have hnv : (binImgs x b true).nv = x.nv / b := by
    show (cropHi x.nv b - cropLo x.nv b + b - 1) / b = _
    rw [v1, ceil_div_mul _ _ hb]
  have hnu : (binImgs x b true).nu = x.nu / b := by
    show (cropHi x.nu b - cropLo x.nu b + b - 1) / b = _
    rw [u1, ceil_div_mul _ _ hb]
  have hval : ∀ i j, i < x.nv / b → j < x.nu / b → (binImgs x b true).val i j =
      (∑ di ∈ range b, ∑ dj ∈ range b, x.val (cropLo x.nv b + (b * i + di)) (cropLo x.nu b + (b * j + dj))) / (b ^ 2 : ℕ) := by
    intro i j hi hj
    show blockMean (cropHi x.nv b - cropLo x.nv b) (cropHi x.nu b - cropLo x.nu b) b _ i j = _
    unfold blockMean
    rw [v1, u1]
    have hp : (b * b : ℝ) = (b ^ 2 : ℕ) := by push_cast; ring
    rw [hp]
    congr 1
    refine sum_congr rfl fun di hdi => sum_congr rfl fun dj hdj => ?_
    rw [mem_range] at hdi hdj
    have a1 : b * (i + 1) ≤ b * (x.nv / b) := Nat.mul_le_mul_left _ hi
    have a2 : b * (j + 1) ≤ b * (x.nu / b) := Nat.mul_le_mul_left _ hj
    rw [if_pos ⟨by rw [Nat.mul_succ] at a1; omega, by rw [Nat.mul_succ] at a2; omega⟩]
    rfl
  have hex : ∀ s m p, s ≤ p → p < s + b * m → ∃ i, i < m ∧ p ∈ Ico (s + b * i) (s + b * (i + 1)) := by
    intro s m p h1 h2
    refine ⟨(p - s) / b, Nat.div_lt_of_lt_mul (by omega), ?_⟩
    have := Nat.div_add_mod (p - s) b
    have := Nat.mod_lt (p - s) hb
    rw [mem_Ico, Nat.mul_succ]
    omega
  have hun : ∀ s p i i', p ∈ Ico (s + b * i) (s + b * (i + 1)) → p ∈ Ico (s + b * i') (s + b * (i' + 1)) → i = i' := by
    intro s p i i' h1 h2
    rw [mem_Ico] at h1 h2
    have l1 : b * i < b * (i' + 1) := by omega
    have l2 : b * i' < b * (i + 1) := by omega
    have := lt_of_mul_lt_mul_left l1 (Nat.zero_le b)
    have := lt_of_mul_lt_mul_left l2 (Nat.zero_le b)
    omega
  have mv := Nat.div_add_mod x.nv b
  have mu := Nat.div_add_mod x.nu b
  have lv := Nat.mod_lt x.nv hb
  have lu := Nat.mod_lt x.nu hb
  have hval' : ∀ i j, i < x.nv / b → j < x.nu / b → (binImgs x b true).val i j =
      (∑ p ∈ Ico (cropLo x.nv b + b * i) (cropLo x.nv b + b * (i + 1)),
        ∑ q ∈ Ico (cropLo x.nu b + b * j) (cropLo x.nu b + b * (j + 1)), x.val p q) / (b ^ 2 : ℕ) := by
    intro i j hi hj
    rw [hval i j hi hj, sum_Ico_eq_sum_range]
    have e1 : cropLo x.nv b + b * (i + 1) - (cropLo x.nv b + b * i) = b := by rw [Nat.mul_succ]; omega
    rw [e1]
    congr 1
    refine sum_congr rfl fun di _ => ?_
    rw [sum_Ico_eq_sum_range]
    have e2 : cropLo x.nu b + b * (j + 1) - (cropLo x.nu b + b * j) = b := by rw [Nat.mul_succ]; omega
    rw [e2]
    refine sum_congr rfl fun dj _ => ?_
    rw [add_assoc, add_assoc]
  refine ⟨cropLo x.nv b, cropLo x.nu b, hnv, hnu, ?_⟩
  rw [hnv, hnu]
  refine ⟨v2, by omega, u2, by omega, ⟨v3, v4⟩, ⟨u3, u4⟩, ?_, hval', ?_⟩
  · intro p q p1 p2 q1 q2
    obtain ⟨i, hi, hpi⟩ := hex _ _ _ p1 p2
    obtain ⟨j, hj, hqj⟩ := hex _ _ _ q1 q2
    refine ⟨(i, j), ⟨hi, hj, hpi, hqj⟩, ?_⟩
    rintro ⟨i', j'⟩ ⟨-, -, h3, h4⟩
    exact Prod.ext (hun _ _ _ _ h3 hpi) (hun _ _ _ _ h4 hqj)
  · have hs : ∑ i ∈ range (x.nv / b), ∑ j ∈ range (x.nu / b), (binImgs x b true).val i j =
        (∑ p ∈ Ico (cropLo x.nv b) (cropLo x.nv b + b * (x.nv / b)),
          ∑ q ∈ Ico (cropLo x.nu b) (cropLo x.nu b + b * (x.nu / b)), x.val p q) / (b ^ 2 : ℕ) := by
      rw [sum_Ico_eq_sum_range, Nat.add_sub_cancel_left, sum_blocks, sum_div]
      refine sum_congr rfl fun i hi => ?_
      have : ∀ j ∈ range (x.nu / b), (binImgs x b true).val i j = (∑ di ∈ range b, ∑ dj ∈ range b,
          x.val (cropLo x.nv b + (b * i + di)) (cropLo x.nu b + (b * j + dj))) / (b ^ 2 : ℕ) :=
        fun j hj => hval i j (mem_range.1 hi) (mem_range.1 hj)
      rw [sum_congr rfl this, ← sum_div, sum_comm]
      congr 1
      refine sum_congr rfl fun di _ => ?_
      rw [sum_Ico_eq_sum_range, Nat.add_sub_cancel_left, sum_blocks]
    rw [hs, div_div]
    congr 1
    push_cast
    ring

/-- Not vacuous: a 5 by 4 image with bins of 2 gives 2 by 2 bins, and loses one row, at the top. -/
example : (binImgs ⟨5, 4, fun i _ => i⟩ 2 true).nv = 2 ∧ (binImgs ⟨5, 4, fun i _ => i⟩ 2 true).nu = 2 ∧
    (binImgs ⟨5, 4, fun i _ => i⟩ 2 true).val 0 0 = 3 / 2 := by
  refine ⟨rfl, rfl, ?_⟩
  show blockMean 4 4 2 (fun i _ => ((1 + i : ℕ) : ℝ)) 0 0 = 3 / 2
  unfold blockMean
  norm_num [sum_range_succ]

/-! ## C102 -/

/-- **C102 (violated).** Without the automatic crop the values of the bins are averages of the pixels of the image that they cover:
the incomplete bins at the border are averaged with zeros. -/
theorem C102_binning_border_violated :
    ¬ ∀ (x : Image2) (b : ℕ), 0 < b → ∀ i j, i < (binImgs x b false).nv → j < (binImgs x b false).nu →
      ∀ m M : ℝ, (∀ p q, p < x.nv → q < x.nu → m ≤ x.val p q ∧ x.val p q ≤ M) →
        m ≤ (binImgs x b false).val i j ∧ (binImgs x b false).val i j ≤ M := by
  intro h
  have := (h ⟨3, 2, fun _ _ => 1⟩ 2 (by norm_num) 1 0 (by decide) (by decide) 1 1 (fun _ _ _ _ => ⟨le_rfl, le_rfl⟩)).1
  have e : (binImgs ⟨3, 2, fun _ _ => 1⟩ 2 false).val 1 0 = 1 / 2 := by
    show blockMean 3 2 2 (fun _ _ => (1 : ℝ)) 1 0 = 1 / 2
    unfold blockMean
    simp only [sum_range_succ, sum_range_zero]
    norm_num
  rw [e] at this
  norm_num at this

/-- **C102 (partial).** It is true of the bins that the image covers completely, in particular of all bins if the factor divides the
sizes; and the sum of `b²` times all bins is the sum of all pixels in any case. -/
theorem C102_binning_border_partial (x : Image2) (b : ℕ) (hb : 0 < b) :
    (∀ i j, b * (i + 1) ≤ x.nv → b * (j + 1) ≤ x.nu → (binImgs x b false).val i j =
        (∑ p ∈ Ico (b * i) (b * (i + 1)), ∑ q ∈ Ico (b * j) (b * (j + 1)), x.val p q) / (b ^ 2 : ℕ)) ∧
    (∑ i ∈ range (binImgs x b false).nv, ∑ j ∈ range (binImgs x b false).nu, (b ^ 2 : ℕ) * (binImgs x b false).val i j) =
      ∑ p ∈ range x.nv, ∑ q ∈ range x.nu, x.val p q := by
  have hp : (b * b : ℝ) = (b ^ 2 : ℕ) := by push_cast; ring
  have hb' : ((b ^ 2 : ℕ) : ℝ) ≠ 0 := by positivity
  refine ⟨fun i j hi hj => ?_, ?_⟩
  · show blockMean x.nv x.nu b x.val i j = _
    unfold blockMean
    rw [hp, sum_Ico_eq_sum_range]
    have e1 : b * (i + 1) - (b * i) = b := by rw [Nat.mul_succ]; omega
    rw [e1]
    congr 1
    refine sum_congr rfl fun di hdi => ?_
    rw [sum_Ico_eq_sum_range]
    have e2 : b * (j + 1) - (b * j) = b := by rw [Nat.mul_succ]; omega
    rw [e2]
    refine sum_congr rfl fun dj hdj => ?_
    rw [mem_range] at hdi hdj
    rw [Nat.mul_succ] at hi hj
    rw [if_pos ⟨by omega, by omega⟩]
  · have hz : ∀ n : ℕ, n ≤ b * ((n + b - 1) / b) := by
      intro n
      have := Nat.div_add_mod (n + b - 1) b
      have := Nat.mod_lt (n + b - 1) hb
      omega
    have ext : ∀ (n : ℕ) (f : ℕ → ℝ), ∑ p ∈ range n, f p = ∑ p ∈ range (b * ((n + b - 1) / b)), if p < n then f p else 0 := by
      intro n f
      rw [← sum_filter]
      refine sum_congr ?_ fun _ _ => rfl
      ext p
      have := hz n
      rw [mem_filter, mem_range, mem_range]
      omega
    show ∑ i ∈ range ((x.nv + b - 1) / b), ∑ j ∈ range ((x.nu + b - 1) / b), ((b ^ 2 : ℕ) : ℝ) * blockMean x.nv x.nu b x.val i j = _
    rw [ext x.nv, sum_blocks]
    refine sum_congr rfl fun i _ => ?_
    have : ∀ j, ((b ^ 2 : ℕ) : ℝ) * blockMean x.nv x.nu b x.val i j = ∑ di ∈ range b, ∑ dj ∈ range b,
        if b * i + di < x.nv ∧ b * j + dj < x.nu then x.val (b * i + di) (b * j + dj) else 0 := by
      intro j
      unfold blockMean
      rw [hp, mul_div_cancel₀ _ hb']
    simp only [this]
    rw [sum_comm]
    refine sum_congr rfl fun di _ => ?_
    rw [ext x.nu, sum_blocks]
    split_ifs with hd
    · simp [hd]
    · simp [hd]

/-! ## C103 -/

/-- **C103 (violated).** The background of order zero is the average of the pixels of the margins: with an empty right margin the whole
row is summed. -/
theorem C103_background_margins_violated :
    ¬ ∀ (n : ℕ) (row : ℕ → ℝ) (m0 m1 : ℕ) (v : ℝ), 0 < m0 + m1 → backgroundFromMargin n row m0 m1 = .background v →
      v = (∑ u ∈ range n with u < m0 ∨ n - m1 ≤ u, row u) / (m0 + m1 : ℕ) := by
  intro h
  have h1 := h 2 (fun _ => 1) 1 0 3 (by norm_num) (by
    unfold backgroundFromMargin pyTailStart
    norm_num)
  have e : (range 2).filter (fun u => u < 1 ∨ 2 - 0 ≤ u) = {0} := by decide
  rw [e] at h1
  norm_num at h1

/-- **C103 (partial).** It is true if the right margin is not empty; margins that overlap raise an error, and the others are accepted. -/
theorem C103_background_margins_partial (n : ℕ) (row : ℕ → ℝ) (m0 m1 : ℕ) :
    (m0 + m1 ≤ n → 0 < m1 → backgroundFromMargin n row m0 m1 =
      .background ((∑ u ∈ range n with u < m0 ∨ n - m1 ≤ u, row u) / (m0 + m1 : ℕ))) ∧
    (n < m0 + m1 → backgroundFromMargin n row m0 m1 = .valueError) := by
  refine ⟨fun hm h1 => ?_, fun hm => by unfold backgroundFromMargin; rw [if_pos hm]⟩
  unfold backgroundFromMargin pyTailStart
  rw [if_neg (by omega), if_neg (by omega)]
  congr 2
  rw [range_eq_Ico, ← sum_union]
  · refine sum_congr ?_ fun _ _ => rfl
    ext u
    simp only [mem_union, mem_Ico, mem_filter, zero_le, true_and, ← range_eq_Ico, mem_range]
    omega
  · rw [disjoint_left]
    intro u h2 h3
    rw [mem_Ico] at h2 h3
    omega

/-- Not vacuous: margins of one pixel on both sides of `1, 5, 3`. -/
example : backgroundFromMargin 3 (fun u => [1, 5, 3].getD u 0) 1 1 = .background 2 := by
  rw [(C103_background_margins_partial 3 (fun u => [1, 5, 3].getD u 0) 1 1).1 (by norm_num) (by norm_num)]
  have e : (range 3).filter (fun u => u < 1 ∨ 3 - 1 ≤ u) = {0, 2} := by decide
  rw [e]
  norm_num

end Verif
