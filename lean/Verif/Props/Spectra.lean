import Verif.Model.Spectra
import Verif.Props.CrossCorrelation

/-!
# Properties of the normalised cross-correlation of `src/corrct/processing/misc.py`
-/

namespace Verif

open Finset

/-! ## C174: normalised cross-correlation -/

/-- The correlation of two images at a lag: the sum of the products of the first with the second displaced by `(u, v)`. -/
noncomputable def Spec.lagCorr (m n : ℕ) (x y : ℕ → ℕ → ℝ) (u v : ℤ) : ℝ :=
  ∑ a ∈ range m, ∑ b ∈ range n, x a b *
    if 0 ≤ (a : ℤ) - u ∧ (a : ℤ) - u < m ∧ 0 ≤ (b : ℤ) - v ∧ (b : ℤ) - v < n then y ((a : ℤ) - u).toNat ((b : ℤ) - v).toNat else 0

/-- The length of an image. -/
noncomputable def Spec.imgNorm (m n : ℕ) (x : ℕ → ℕ → ℝ) : ℝ := Real.sqrt (∑ a ∈ range m, ∑ b ∈ range n, x a b ^ 2)

theorem corrFull_lag (m n : ℕ) (x y : ℕ → ℕ → ℝ) (i j : ℕ) (u v : ℤ) (hu : (i : ℤ) = u + (m - 1)) (hv : (j : ℤ) = v + (n - 1)) :
    corrFull m n x y i j = Spec.lagCorr m n x y u v := by
  unfold corrFull Spec.lagCorr
  refine sum_congr rfl fun a ha => sum_congr rfl fun b hb => ?_
  rw [mem_range] at ha hb
  congr 1
  unfold flipGet
  by_cases h : 0 ≤ (a : ℤ) - u ∧ (a : ℤ) - u < m ∧ 0 ≤ (b : ℤ) - v ∧ (b : ℤ) - v < n
  · rw [if_pos h, if_pos (by omega), show m - 1 - ((i : ℤ) - a).toNat = ((a : ℤ) - u).toNat by omega,
      show n - 1 - ((j : ℤ) - b).toNat = ((b : ℤ) - v).toNat by omega]
  · rw [if_neg h, if_neg (by omega)]

theorem corr_position (full : Bool) (m i : ℕ) (hm : 0 < m) (hi : i < corrSize full m) :
    ((ifftshiftPos (corrSize full m) i + corrStart full m : ℕ) : ℤ) = fftfreq (corrSize full m) i + (m - 1) := by
  unfold ifftshiftPos corrStart fftfreq
  unfold corrSize at *
  cases full with
  | true =>
    simp only [if_true] at *
    have h2 : (2 * m - 1) / 2 = m - 1 := by omega
    rw [h2]
    by_cases h : i + (m - 1) < 2 * m - 1
    · rw [Nat.mod_eq_of_lt h, if_pos (by omega)]; omega
    · rw [Nat.mod_eq_sub_mod (by omega), Nat.mod_eq_of_lt (by omega), if_neg (by omega)]; omega
  | false =>
    simp only [Bool.false_eq_true, if_false] at *
    by_cases h : i + m / 2 < m
    · rw [Nat.mod_eq_of_lt h, if_pos (by omega)]; omega
    · rw [Nat.mod_eq_sub_mod (by omega), Nat.mod_eq_of_lt (by omega), if_neg (by omega)]; omega

/-- A sum over a window of the positions of an axis is at most the sum over the axis. -/
theorem window_sum_le (m : ℕ) (g : ℤ → ℝ) (h0 : ∀ p, 0 ≤ g p) (hz : ∀ p : ℤ, ¬ (0 ≤ p ∧ p < m) → g p = 0) (i : ℤ) :
    ∑ a ∈ range m, g (i - a) ≤ ∑ p ∈ range m, g p := by
  have e1 : ∑ a ∈ range m, g (i - a) = ∑ a ∈ (range m).filter (fun a : ℕ => 0 ≤ i - (a : ℤ) ∧ i - (a : ℤ) < m), g (i - a) := by
    rw [Finset.sum_filter]
    refine sum_congr rfl fun a _ => ?_
    split_ifs with h
    · rfl
    · exact hz _ h
  have e2 : ∑ a ∈ (range m).filter (fun a : ℕ => 0 ≤ i - (a : ℤ) ∧ i - (a : ℤ) < m), g (i - a) =
      ∑ p ∈ ((range m).filter (fun a : ℕ => 0 ≤ i - (a : ℤ) ∧ i - (a : ℤ) < m)).image (fun a : ℕ => (i - (a : ℤ)).toNat), g p := by
    rw [Finset.sum_image]
    · refine sum_congr rfl fun a ha => ?_
      rw [mem_filter] at ha
      rw [Int.toNat_of_nonneg ha.2.1]
    · intro a ha b hb hab
      rw [mem_coe, mem_filter] at ha hb
      have h : (i - (a : ℤ)).toNat = (i - (b : ℤ)).toNat := hab
      omega
  rw [e1, e2]
  refine Finset.sum_le_sum_of_subset_of_nonneg (fun p hp => ?_) fun p _ _ => h0 p
  rw [mem_image] at hp
  obtain ⟨a, ha, rfl⟩ := hp
  rw [mem_filter] at ha
  rw [mem_range]
  omega

theorem flip_sum (m n : ℕ) (y : ℕ → ℕ → ℝ) :
    ∑ p ∈ range m, ∑ q ∈ range n, flipGet m n y p q ^ 2 = ∑ a ∈ range m, ∑ b ∈ range n, y a b ^ 2 := by
  rw [← Finset.sum_range_reflect (fun a => ∑ b ∈ range n, y a b ^ 2)]
  refine sum_congr rfl fun p hp => ?_
  rw [← Finset.sum_range_reflect (fun b => y (m - 1 - p) b ^ 2)]
  refine sum_congr rfl fun q hq => ?_
  rw [mem_range] at hp hq
  unfold flipGet
  rw [if_pos (by omega)]
  simp

theorem window_energy (m n : ℕ) (y : ℕ → ℕ → ℝ) (i j : ℤ) :
    ∑ a ∈ range m, ∑ b ∈ range n, flipGet m n y (i - a) (j - b) ^ 2 ≤ ∑ a ∈ range m, ∑ b ∈ range n, y a b ^ 2 := by
  rw [← flip_sum m n y]
  refine le_trans (window_sum_le m (fun p => ∑ b ∈ range n, flipGet m n y p (j - b) ^ 2) (fun p => sum_nonneg fun b _ => sq_nonneg _) ?_ i) ?_
  · intro p hp
    refine sum_eq_zero fun b _ => ?_
    unfold flipGet
    rw [if_neg (by tauto)]
    ring
  · refine sum_le_sum fun p _ => ?_
    refine window_sum_le n (fun q => flipGet m n y p q ^ 2) (fun q => sq_nonneg _) ?_ j
    intro q hq
    show flipGet m n y p q ^ 2 = 0
    unfold flipGet
    rw [if_neg (by tauto)]
    ring

theorem corrFull_le (m n : ℕ) (x y : ℕ → ℕ → ℝ) (i j : ℕ) : |corrFull m n x y i j| ≤ Spec.imgNorm m n x * Spec.imgNorm m n y := by
  unfold Spec.imgNorm
  rw [← Real.sqrt_mul (sum_nonneg fun a _ => sum_nonneg fun b _ => sq_nonneg _)]
  refine Real.abs_le_sqrt ?_
  have cs := Finset.sum_mul_sq_le_sq_mul_sq (range m ×ˢ range n) (fun p => x p.1 p.2) (fun p => flipGet m n y ((i : ℤ) - p.1) ((j : ℤ) - p.2))
  rw [Finset.sum_product, Finset.sum_product, Finset.sum_product] at cs
  refine le_trans cs (mul_le_mul_of_nonneg_left (window_energy m n y i j) ?_)
  exact sum_nonneg fun a _ => sum_nonneg fun b _ => sq_nonneg _

/-- **C174, violated part.** For a stack of images: the auto-correlation at no displacement is not 1 (it is divided by the length of the
whole stack), and the images of the result are not in the order of the input (the `ifftshift` acts on the axis of the stack too): with
two images of one pixel, 1 and 2, the result is 4/5, then 1/5. -/
theorem C174_cross_correlation_violated :
    (¬ ∀ (S m n : ℕ) (x : ℕ → ℕ → ℕ → ℝ) (full : Bool) (s : ℕ), s < S → Spec.imgNorm m n (x s) ≠ 0 →
      normCrossCorr S m n x x full s 0 0 = some 1) ∧
    (∀ full, normCrossCorr 2 1 1 (fun s _ _ => (s : ℝ) + 1) (fun s _ _ => (s : ℝ) + 1) full 0 0 0 = some (4 / 5) ∧
      normCrossCorr 2 1 1 (fun s _ _ => (s : ℝ) + 1) (fun s _ _ => (s : ℝ) + 1) full 1 0 0 = some (1 / 5)) := by
  have hn : stackNorm 2 1 1 (fun s _ _ => (s : ℝ) + 1) * stackNorm 2 1 1 (fun s _ _ => (s : ℝ) + 1) = 5 := by
    unfold stackNorm
    rw [Real.mul_self_sqrt (sum_nonneg fun s _ => sum_nonneg fun a _ => sum_nonneg fun b _ => sq_nonneg _)]
    norm_num [Finset.sum_range_succ]
  have main : ∀ full, normCrossCorr 2 1 1 (fun s _ _ => (s : ℝ) + 1) (fun s _ _ => (s : ℝ) + 1) full 0 0 0 = some (4 / 5) ∧
      normCrossCorr 2 1 1 (fun s _ _ => (s : ℝ) + 1) (fun s _ _ => (s : ℝ) + 1) full 1 0 0 = some (1 / 5) := by
    intro full
    unfold normCrossCorr
    rw [hn]
    cases full <;> simp only [ifftshiftPos, corrSize, corrStart, corrFull, flipGet, Finset.sum_range_one] <;> norm_num
  refine ⟨fun h => ?_, main⟩
  have := h 2 1 1 (fun s _ _ => (s : ℝ) + 1) true 0 (by norm_num) (by simp [Spec.imgNorm])
  rw [(main true).1] at this
  norm_num at this

/-- **C174, proved part.** For two images of the same shape, neither of them zero: the result at `[i, j]` is their correlation at the
displacement with the signed frequencies `i` and `j` of the size of the result (so no displacement is at `[0, 0]`), over the product of
their lengths; it is between -1 and 1; the auto-correlation is 1 at `[0, 0]`. With the full or with the same size. -/
theorem C174_cross_correlation_partial (m n : ℕ) (hm : 0 < m) (hn : 0 < n) (x y : ℕ → ℕ → ℝ) (full : Bool)
    (hx : Spec.imgNorm m n x ≠ 0) (hy : Spec.imgNorm m n y ≠ 0) :
    (∀ i j, i < corrSize full m → j < corrSize full n → ∃ c, normCrossCorr 1 m n (fun _ => x) (fun _ => y) full 0 i j = some c ∧
      c = Spec.lagCorr m n x y (fftfreq (corrSize full m) i) (fftfreq (corrSize full n) j) / (Spec.imgNorm m n x * Spec.imgNorm m n y) ∧ |c| ≤ 1) ∧
    normCrossCorr 1 m n (fun _ => x) (fun _ => x) full 0 0 0 = some 1 := by
  have hs : ∀ z : ℕ → ℕ → ℝ, stackNorm 1 m n (fun _ => z) = Spec.imgNorm m n z := by
    intro z
    unfold stackNorm Spec.imgNorm
    rw [Finset.sum_range_one]
  have val : ∀ (z : ℕ → ℕ → ℝ), Spec.imgNorm m n z ≠ 0 → ∀ i j, i < corrSize full m → j < corrSize full n →
      normCrossCorr 1 m n (fun _ => x) (fun _ => z) full 0 i j =
        some (Spec.lagCorr m n x z (fftfreq (corrSize full m) i) (fftfreq (corrSize full n) j) / (Spec.imgNorm m n x * Spec.imgNorm m n z)) := by
    intro z hz i j hi hj
    unfold normCrossCorr
    simp only [hs]
    rw [if_neg (mul_ne_zero hx hz)]
    rw [corrFull_lag m n x z _ _ _ _ (corr_position full m i hm hi) (corr_position full n j hn hj)]
  constructor
  · intro i j hi hj
    refine ⟨_, val y hy i j hi hj, rfl, ?_⟩
    have hp : 0 < Spec.imgNorm m n x * Spec.imgNorm m n y :=
      mul_pos (lt_of_le_of_ne (Real.sqrt_nonneg _) (Ne.symm hx)) (lt_of_le_of_ne (Real.sqrt_nonneg _) (Ne.symm hy))
    rw [← corrFull_lag m n x y _ _ _ _ (corr_position full m i hm hi) (corr_position full n j hn hj), abs_div, abs_of_pos hp, div_le_one hp]
    exact corrFull_le m n x y _ _
  · have h0 : ∀ k, 0 < k → 0 < corrSize full k := by intro k hk; unfold corrSize; split_ifs <;> omega
    have hf : ∀ k, 0 < k → fftfreq (corrSize full k) 0 = 0 := by
      intro k hk
      unfold fftfreq
      rw [if_pos (by have := h0 k hk; omega)]
      rfl
    rw [val x hx 0 0 (h0 m hm) (h0 n hn), hf m hm, hf n hn]
    have : Spec.lagCorr m n x x 0 0 = Spec.imgNorm m n x * Spec.imgNorm m n x := by
      unfold Spec.imgNorm
      rw [Real.mul_self_sqrt (sum_nonneg fun a _ => sum_nonneg fun b _ => sq_nonneg _)]
      unfold Spec.lagCorr
      refine sum_congr rfl fun a ha => sum_congr rfl fun b hb => ?_
      rw [mem_range] at ha hb
      rw [if_pos (by omega)]
      simp [sq]
    rw [this, div_self (mul_ne_zero hx hx)]

/-- Not vacuous: the row `1, 2` with itself, displaced by one: `2 / 5`. -/
example : normCrossCorr 1 1 2 (fun _ _ b => (b : ℝ) + 1) (fun _ _ b => (b : ℝ) + 1) true 0 0 1 = some (2 / 5) := by
  have hsq : ∑ a ∈ range 1, ∑ b ∈ range 2, ((fun (_ b : ℕ) => (b : ℝ) + 1) a b) ^ 2 = 5 := by norm_num [Finset.sum_range_succ]
  have hne : Spec.imgNorm 1 2 (fun _ b => (b : ℝ) + 1) ≠ 0 := by
    unfold Spec.imgNorm
    rw [hsq]
    exact (Real.sqrt_pos.2 (by norm_num)).ne'
  obtain ⟨c, h1, h2, -⟩ := (C174_cross_correlation_partial 1 2 one_pos two_pos (fun _ b => (b : ℝ) + 1) (fun _ b => (b : ℝ) + 1) true
    hne hne).1 0 1 (by simp [corrSize]) (by simp [corrSize])
  rw [h1, h2]
  have : Spec.imgNorm 1 2 (fun _ b => (b : ℝ) + 1) * Spec.imgNorm 1 2 (fun _ b => (b : ℝ) + 1) = 5 := by
    unfold Spec.imgNorm
    rw [Real.mul_self_sqrt (by rw [hsq]; norm_num), hsq]
  rw [this]
  norm_num [Spec.lagCorr, fftfreq, corrSize, Finset.sum_range_succ]

/-! ## C175: template matching -/

/-- The local sum of an axis: the sum over the window of the last `n` positions. -/
theorem localSum1_eq (n : ℕ) (f : ℕ → ℝ) (t : ℕ) :
    localSum1 n f t = ∑ a ∈ range n, if 0 ≤ (t : ℤ) - a ∧ (t : ℤ) - a < n then f ((t : ℤ) - a).toNat else 0 := by
  unfold localSum1
  simp only
  rw [show n + t + 1 = t + 1 + n by ring, Finset.sum_range_add, add_sub_cancel_left, ← Finset.sum_range_reflect]
  refine sum_congr rfl fun a ha => ?_
  rw [mem_range] at ha
  by_cases h : 0 ≤ (t : ℤ) - a ∧ (t : ℤ) - a < n
  · rw [if_pos h, if_pos (by omega)]
    congr 1
    omega
  · rw [if_neg h, if_neg (by omega)]

theorem localSum2_eq (m n : ℕ) (y : ℕ → ℕ → ℝ) (g : ℝ → ℝ) (hg : g 0 = 0) (i j : ℕ) :
    localSum2 m n (fun a b => g (y (m - 1 - a) (n - 1 - b))) i j =
      ∑ a ∈ range m, ∑ b ∈ range n, g (flipGet m n y ((i : ℤ) - a) ((j : ℤ) - b)) := by
  unfold localSum2
  rw [localSum1_eq, Finset.sum_comm]
  refine sum_congr rfl fun b _ => ?_
  by_cases hb : 0 ≤ (j : ℤ) - b ∧ (j : ℤ) - b < n
  · rw [if_pos hb, localSum1_eq]
    refine sum_congr rfl fun a _ => ?_
    unfold flipGet
    by_cases ha : 0 ≤ (i : ℤ) - a ∧ (i : ℤ) - a < m
    · rw [if_pos ha, if_pos ⟨ha.1, ha.2, hb.1, hb.2⟩]
    · rw [if_neg ha, if_neg (by tauto), hg]
  · rw [if_neg hb]
    symm
    refine sum_eq_zero fun a _ => ?_
    unfold flipGet
    rw [if_neg (by tauto), hg]

/-- The inequality of Cauchy and Schwarz for centred values. -/
theorem centred_cs {ι : Type} (s : Finset ι) (N : ℝ) (hN : N = s.card) (h0 : 0 < N) (x w : ι → ℝ) :
    (∑ p ∈ s, x p * w p - (∑ p ∈ s, w p) * ((∑ p ∈ s, x p) / N)) ^ 2 ≤
      (∑ p ∈ s, (x p - (∑ p ∈ s, x p) / N) ^ 2) * (∑ p ∈ s, w p ^ 2 - (∑ p ∈ s, w p) ^ 2 / N) := by
  set mx := (∑ p ∈ s, x p) / N with hmx
  set mw := (∑ p ∈ s, w p) / N with hmw
  have hNe : N ≠ 0 := h0.ne'
  have sx : ∑ p ∈ s, x p = N * mx := by rw [hmx]; field_simp
  have sw : ∑ p ∈ s, w p = N * mw := by rw [hmw]; field_simp
  have e1 : ∑ p ∈ s, (x p - mx) * (w p - mw) = ∑ p ∈ s, x p * w p - (∑ p ∈ s, w p) * mx := by
    have : ∀ p, (x p - mx) * (w p - mw) = x p * w p - mw * x p - mx * w p + mx * mw := fun p => by ring
    simp only [this, Finset.sum_add_distrib, Finset.sum_sub_distrib, ← Finset.mul_sum, Finset.sum_const, nsmul_eq_mul, ← hN, sx, sw]
    ring
  have e2 : ∑ p ∈ s, (w p - mw) ^ 2 = ∑ p ∈ s, w p ^ 2 - (∑ p ∈ s, w p) ^ 2 / N := by
    have : ∀ p, (w p - mw) ^ 2 = w p ^ 2 - 2 * mw * w p + mw ^ 2 := fun p => by ring
    simp only [this, Finset.sum_add_distrib, Finset.sum_sub_distrib, ← Finset.mul_sum, Finset.sum_const, nsmul_eq_mul, ← hN, sw]
    field_simp
    ring
  rw [← e1, ← e2]
  exact Finset.sum_mul_sq_le_sq_mul_sq s _ _

/-- The correlation coefficient of two images (Pearson). -/
noncomputable def Spec.pearson (m n : ℕ) (x y : ℕ → ℕ → ℝ) : ℝ :=
  let mean (z : ℕ → ℕ → ℝ) : ℝ := (∑ a ∈ range m, ∑ b ∈ range n, z a b) / (m * n)
  (∑ a ∈ range m, ∑ b ∈ range n, (x a b - mean x) * (y a b - mean y)) /
    (Real.sqrt (∑ a ∈ range m, ∑ b ∈ range n, (x a b - mean x) ^ 2) * Real.sqrt (∑ a ∈ range m, ∑ b ∈ range n, (y a b - mean y) ^ 2))

/-- **C175.** Template matching of two images of the same shape: wherever it is defined (the first image is not constant, nor is the
second one in the window) the result is between -1 and 1, and at no displacement it is the correlation coefficient of the two images; so
it is 1 for an image with itself. -/
theorem C175_template_matching (m n : ℕ) (hm : 0 < m) (hn : 0 < n) (x y : ℕ → ℕ → ℝ) (full : Bool) :
    (∀ i j c, templateCorr m n x y full i j = some c → |c| ≤ 1) ∧
    (∀ c, templateCorr m n x y full 0 0 = some c → c = Spec.pearson m n x y) ∧
    (∀ c, templateCorr m n x x full 0 0 = some c → c = 1) := by
  have hN : (0 : ℝ) < m * n := by positivity
  have hcard : (m * n : ℝ) = ((range m ×ˢ range n).card : ℝ) := by simp
  have d1 : ∀ z : ℕ → ℕ → ℝ, Real.sqrt ((∑ a ∈ range m, ∑ b ∈ range n, (z a b - (∑ a ∈ range m, ∑ b ∈ range n, z a b) / (m * n)) ^ 2) / (m * n)) *
      Real.sqrt (m * n) = Real.sqrt (∑ a ∈ range m, ∑ b ∈ range n, (z a b - (∑ a ∈ range m, ∑ b ∈ range n, z a b) / (m * n)) ^ 2) := by
    intro z
    rw [← Real.sqrt_mul (div_nonneg (sum_nonneg fun a _ => sum_nonneg fun b _ => sq_nonneg _) hN.le), div_mul_cancel₀ _ hN.ne']
  have hls : ∀ (z : ℕ → ℕ → ℝ) i j, localSum2 m n (fun a b => z (m - 1 - a) (n - 1 - b)) i j =
      ∑ a ∈ range m, ∑ b ∈ range n, flipGet m n z ((i : ℤ) - a) ((j : ℤ) - b) := fun z i j => localSum2_eq m n z (fun t => t) rfl i j
  have hls2 : ∀ (z : ℕ → ℕ → ℝ) i j, localSum2 m n (fun a b => z (m - 1 - a) (n - 1 - b) ^ 2) i j =
      ∑ a ∈ range m, ∑ b ∈ range n, flipGet m n z ((i : ℤ) - a) ((j : ℤ) - b) ^ 2 := fun z i j => localSum2_eq m n z (fun t => t ^ 2) (by norm_num) i j
  have pear : ∀ (z : ℕ → ℕ → ℝ) c, templateCorr m n x z full 0 0 = some c → c = Spec.pearson m n x z := by
    intro z c hc
    unfold templateCorr at hc
    simp only at hc
    split_ifs at hc with hd
    obtain rfl := Option.some.inj hc
    have h0 : ∀ k, 0 < k → 0 < corrSize full k := by intro k hk; unfold corrSize; split_ifs <;> omega
    have hf : ∀ k, 0 < k → ((ifftshiftPos (corrSize full k) 0 + corrStart full k : ℕ) : ℤ) = (k : ℤ) - 1 := by
      intro k hk
      rw [corr_position full k 0 hk (h0 k hk)]
      unfold fftfreq
      rw [if_pos (by have := h0 k hk; omega)]
      simp
    have hw : ∀ a ∈ range m, ∀ b ∈ range n, flipGet m n z ((ifftshiftPos (corrSize full m) 0 + corrStart full m : ℕ) - (a : ℤ))
        ((ifftshiftPos (corrSize full n) 0 + corrStart full n : ℕ) - (b : ℤ)) = z a b := by
      intro a ha b hb
      rw [mem_range] at ha hb
      rw [hf m hm, hf n hn]
      unfold flipGet
      rw [if_pos (by omega)]
      congr 1 <;> omega
    rw [hls, hls2, d1]
    unfold corrFull
    have q1 : ∑ a ∈ range m, ∑ b ∈ range n, x a b * flipGet m n z ((ifftshiftPos (corrSize full m) 0 + corrStart full m : ℕ) - (a : ℤ))
        ((ifftshiftPos (corrSize full n) 0 + corrStart full n : ℕ) - (b : ℤ)) = ∑ a ∈ range m, ∑ b ∈ range n, x a b * z a b :=
      sum_congr rfl fun a ha => sum_congr rfl fun b hb => by rw [hw a ha b hb]
    have q2 : ∑ a ∈ range m, ∑ b ∈ range n, flipGet m n z ((ifftshiftPos (corrSize full m) 0 + corrStart full m : ℕ) - (a : ℤ))
        ((ifftshiftPos (corrSize full n) 0 + corrStart full n : ℕ) - (b : ℤ)) = ∑ a ∈ range m, ∑ b ∈ range n, z a b :=
      sum_congr rfl fun a ha => sum_congr rfl fun b hb => by rw [hw a ha b hb]
    have q3 : ∑ a ∈ range m, ∑ b ∈ range n, flipGet m n z ((ifftshiftPos (corrSize full m) 0 + corrStart full m : ℕ) - (a : ℤ))
        ((ifftshiftPos (corrSize full n) 0 + corrStart full n : ℕ) - (b : ℤ)) ^ 2 = ∑ a ∈ range m, ∑ b ∈ range n, z a b ^ 2 :=
      sum_congr rfl fun a ha => sum_congr rfl fun b hb => by rw [hw a ha b hb]
    rw [q1, q2, q3]
    unfold Spec.pearson
    simp only
    set mx := (∑ a ∈ range m, ∑ b ∈ range n, x a b) / (m * n : ℝ) with hmx
    set mz := (∑ a ∈ range m, ∑ b ∈ range n, z a b) / (m * n : ℝ) with hmz
    have sx : ∑ a ∈ range m, ∑ b ∈ range n, x a b = (m * n) * mx := by rw [hmx]; field_simp
    have sz : ∑ a ∈ range m, ∑ b ∈ range n, z a b = (m * n) * mz := by rw [hmz]; field_simp
    have e1 : ∑ a ∈ range m, ∑ b ∈ range n, (x a b - mx) * (z a b - mz) =
        ∑ a ∈ range m, ∑ b ∈ range n, x a b * z a b - (∑ a ∈ range m, ∑ b ∈ range n, z a b) * mx := by
      have : ∀ a b, (x a b - mx) * (z a b - mz) = x a b * z a b - mz * x a b - mx * z a b + mx * mz := fun a b => by ring
      simp only [this, Finset.sum_add_distrib, Finset.sum_sub_distrib, ← Finset.mul_sum, Finset.sum_const, nsmul_eq_mul, sx, sz, card_range]
      ring
    have e2 : ∑ a ∈ range m, ∑ b ∈ range n, (z a b - mz) ^ 2 =
        ∑ a ∈ range m, ∑ b ∈ range n, z a b ^ 2 - (∑ a ∈ range m, ∑ b ∈ range n, z a b) ^ 2 / (m * n) := by
      have : ∀ a b, (z a b - mz) ^ 2 = z a b ^ 2 - 2 * mz * z a b + mz ^ 2 := fun a b => by ring
      simp only [this, Finset.sum_add_distrib, Finset.sum_sub_distrib, ← Finset.mul_sum, Finset.sum_const, nsmul_eq_mul, sz, card_range]
      field_simp
      ring
    rw [e1, ← e2, max_eq_left (sum_nonneg fun a _ => sum_nonneg fun b _ => sq_nonneg _), div_div]
  refine ⟨?_, pear y, ?_⟩
  · intro i j c hc
    unfold templateCorr at hc
    simp only at hc
    rw [hls, hls2, d1] at hc
    split_ifs at hc with hd
    obtain rfl := Option.some.inj hc
    push Not at hd
    set i' := ifftshiftPos (corrSize full m) i + corrStart full m
    set j' := ifftshiftPos (corrSize full n) j + corrStart full n
    have cs := centred_cs (range m ×ˢ range n) (m * n) hcard hN (fun p => x p.1 p.2) (fun p => flipGet m n y ((i' : ℤ) - p.1) ((j' : ℤ) - p.2))
    simp only [Finset.sum_product] at cs
    set A := ∑ a ∈ range m, ∑ b ∈ range n, (x a b - (∑ a ∈ range m, ∑ b ∈ range n, x a b) / (m * n)) ^ 2
    set B := ∑ a ∈ range m, ∑ b ∈ range n, flipGet m n y ((i' : ℤ) - a) ((j' : ℤ) - b) ^ 2 -
      (∑ a ∈ range m, ∑ b ∈ range n, flipGet m n y ((i' : ℤ) - a) ((j' : ℤ) - b)) ^ 2 / (m * n)
    have p1 : 0 < Real.sqrt A := lt_of_le_of_ne (Real.sqrt_nonneg _) (Ne.symm hd.1)
    have p2 : 0 < Real.sqrt (max B 0) := lt_of_le_of_ne (Real.sqrt_nonneg _) (Ne.symm hd.2)
    have hA : 0 < A := Real.sqrt_pos.1 p1
    have hB : 0 < B := by
      have := Real.sqrt_pos.1 p2
      rcases lt_max_iff.1 this with h | h
      · exact h
      · exact absurd h (lt_irrefl _)
    rw [div_div, abs_div, abs_of_pos (mul_pos p1 p2), div_le_one (mul_pos p1 p2), max_eq_left hB.le, ← Real.sqrt_mul hA.le]
    exact Real.abs_le_sqrt cs
  · intro c hc
    have h := pear x c hc
    rw [h]
    unfold templateCorr at hc
    simp only at hc
    rw [d1] at hc
    split_ifs at hc with hd
    push Not at hd
    unfold Spec.pearson
    simp only [← sq]
    have hA := Real.sqrt_pos.1 (lt_of_le_of_ne (Real.sqrt_nonneg _) (Ne.symm hd.1))
    rw [Real.sq_sqrt hA.le, div_self hA.ne']

/-- Not vacuous: the row `1, 2` with itself is defined at no displacement. -/
example : templateCorr 1 2 (fun _ b => (b : ℝ)) (fun _ b => (b : ℝ)) true 0 0 = some 1 := by
  have h : templateCorr 1 2 (fun _ b => (b : ℝ)) (fun _ b => (b : ℝ)) true 0 0 ≠ none := by
    unfold templateCorr
    simp only
    rw [if_neg]
    · simp
    · push Not
      constructor
      · have : (0 : ℝ) < (∑ a ∈ range 1, ∑ b ∈ range 2, ((b : ℝ) - (∑ a ∈ range 1, ∑ b ∈ range 2, (b : ℝ)) / ((1 : ℕ) * (2 : ℕ))) ^ 2) / ((1 : ℕ) * (2 : ℕ)) := by
          norm_num [Finset.sum_range_succ]
        exact (mul_pos (Real.sqrt_pos.2 this) (Real.sqrt_pos.2 (by norm_num))).ne'
      · refine (Real.sqrt_pos.2 (lt_max_of_lt_left ?_)).ne'
        norm_num [localSum2, localSum1, ifftshiftPos, corrSize, corrStart, Finset.sum_range_succ]
  obtain ⟨c, hc⟩ := Option.ne_none_iff_exists'.1 h
  rw [hc, (C175_template_matching 1 2 one_pos two_pos _ (fun _ b => (b : ℝ)) true).2.2 c hc]

end Verif
