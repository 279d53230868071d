import Verif.Model.CrossCorrelation
import Verif.Props.Fits

/-!
# Shifts by cross-correlation: C96 (exact shifts), C97 (centre of rotation) and the violated claim C98 (odd sizes)
-/

namespace Verif

open ZMod Complex

/-! ## Specification -/

/-- `data` is `proj` moved by `sv` rows and `su` columns, around the borders. -/
def IsShifted {m n : ℕ} (data proj : ZMod m → ZMod n → ℝ) (sv su : ℤ) : Prop := ∀ i j, data i j = proj (i - sv) (j - su)

/-- No move by less than the size leaves the image as it is. -/
def Aperiodic {m n : ℕ} (x : ZMod m → ZMod n → ℝ) : Prop := ∀ a b, (∀ i j, x (i + a) (j + b) = x i j) → a = 0 ∧ b = 0

/-- Circular correlation. -/
def circCorr {m n : ℕ} [NeZero m] [NeZero n] (x y : ZMod m → ZMod n → ℝ) (a : ZMod m) (b : ZMod n) : ℝ :=
  ∑ i, ∑ j, x (i + a) (j + b) * y i j

/-! ## Fourier transforms -/

theorem char_sum {n : ℕ} [NeZero n] (t : ZMod n) : ∑ k : ZMod n, stdAddChar (k * t) = if t = 0 then (n : ℂ) else 0 := by
  rw [AddChar.sum_mulShift t (isPrimitive_stdAddChar n)]
  simp

theorem conj_char {n : ℕ} [NeZero n] (t : ZMod n) : starRingEnd ℂ (stdAddChar t) = stdAddChar (-t) :=
  (AddChar.map_neg_eq_conj _ _).symm

/-- The cross-correlation theorem. -/
theorem xc_theorem {m n : ℕ} [NeZero m] [NeZero n] (x y : ZMod m → ZMod n → ℝ) (a : ZMod m) (b : ZMod n) :
    ∑ l, ∑ k, xcSpectrum x y k l * stdAddChar (k * a) * stdAddChar (l * b) = (m * n : ℂ) * (circCorr x y a b : ℂ) := by
  have h1 : ∀ k l, xcSpectrum x y k l * stdAddChar (k * a) * stdAddChar (l * b) =
      ∑ i', ∑ j', ∑ i, ∑ j, (x i j : ℂ) * (y i' j') * (stdAddChar (k * (i' + a - i)) * stdAddChar (l * (j' + b - j))) := by
    intro k l
    unfold xcSpectrum fft2
    simp only [map_sum, Finset.sum_mul, Finset.mul_sum]
    refine Finset.sum_congr rfl fun i' _ => Finset.sum_congr rfl fun j' _ => Finset.sum_congr rfl fun i _ =>
      Finset.sum_congr rfl fun j _ => ?_
    rw [map_mul (starRingEnd ℂ), map_mul (starRingEnd ℂ), conj_char, conj_char, conj_ofReal, neg_neg, neg_neg]
    have e1 : (stdAddChar (k * (i' + a - i)) : ℂ) = stdAddChar (k * i') * stdAddChar (k * a) * stdAddChar (-(k * i)) := by
      rw [← AddChar.map_add_eq_mul, ← AddChar.map_add_eq_mul]; congr 1; ring
    have e2 : (stdAddChar (l * (j' + b - j)) : ℂ) = stdAddChar (l * j') * stdAddChar (l * b) * stdAddChar (-(l * j)) := by
      rw [← AddChar.map_add_eq_mul, ← AddChar.map_add_eq_mul]; congr 1; ring
    rw [e1, e2]; ring
  simp only [h1]
  have h2 : ∑ l : ZMod n, ∑ k : ZMod m, ∑ i', ∑ j', ∑ i, ∑ j, (x i j : ℂ) * (y i' j') *
      (stdAddChar (k * (i' + a - i)) * stdAddChar (l * (j' + b - j))) =
      ∑ i', ∑ j', ∑ i, ∑ j, (x i j : ℂ) * (y i' j') *
        ((∑ k : ZMod m, stdAddChar (k * (i' + a - i))) * ∑ l : ZMod n, stdAddChar (l * (j' + b - j))) := by
    have s1 : ∀ l : ZMod n, ∑ k : ZMod m, ∑ i', ∑ j', ∑ i, ∑ j, (x i j : ℂ) * (y i' j') *
      (stdAddChar (k * (i' + a - i)) * stdAddChar (l * (j' + b - j))) = ∑ i', ∑ j', ∑ i, ∑ j, (x i j : ℂ) * (y i' j') *
        ((∑ k : ZMod m, stdAddChar (k * (i' + a - i))) * stdAddChar (l * (j' + b - j))) := by
      intro l
      rw [Finset.sum_comm]
      refine Finset.sum_congr rfl fun i _ => ?_
      rw [Finset.sum_comm]
      refine Finset.sum_congr rfl fun j _ => ?_
      rw [Finset.sum_comm]
      refine Finset.sum_congr rfl fun i' _ => ?_
      rw [Finset.sum_comm]
      refine Finset.sum_congr rfl fun j' _ => ?_
      rw [Finset.sum_mul, Finset.mul_sum]
    simp only [s1]
    rw [Finset.sum_comm]
    refine Finset.sum_congr rfl fun i _ => ?_
    rw [Finset.sum_comm]
    refine Finset.sum_congr rfl fun j _ => ?_
    rw [Finset.sum_comm]
    refine Finset.sum_congr rfl fun i' _ => ?_
    rw [Finset.sum_comm]
    refine Finset.sum_congr rfl fun j' _ => ?_
    rw [Finset.mul_sum, Finset.mul_sum]
  rw [h2]
  simp only [char_sum]
  have h3 : ∀ i' j', ∑ i, ∑ j, (x i j : ℂ) * (y i' j') *
      ((if i' + a - i = 0 then (m : ℂ) else 0) * if j' + b - j = 0 then (n : ℂ) else 0) =
        (m * n : ℂ) * (x (i' + a) (j' + b) * y i' j') := by
    intro i' j'
    rw [Finset.sum_eq_single (i' + a), Finset.sum_eq_single (j' + b)]
    · simp; ring
    · intro j _ hne
      rw [if_neg (c := j' + b - j = 0) (fun h => hne (by linear_combination -h))]; simp
    · simp
    · intro i _ hne
      refine Finset.sum_eq_zero fun j _ => ?_
      rw [if_neg (c := i' + a - i = 0) (fun h => hne (by linear_combination -h))]; simp
    · simp
  simp only [h3]
  unfold circCorr
  push_cast
  simp only [← Finset.mul_sum]

/-- The spectra of real images are Hermitian. -/
theorem xcSpectrum_neg {m n : ℕ} [NeZero m] [NeZero n] (x y : ZMod m → ZMod n → ℝ) (k : ZMod m) (l : ZMod n) :
    xcSpectrum x y (-k) (-l) = starRingEnd ℂ (xcSpectrum x y k l) := by
  have : ∀ z : ZMod m → ZMod n → ℝ, fft2 z (-k) (-l) = starRingEnd ℂ (fft2 z k l) := by
    intro z
    unfold fft2
    simp only [map_sum, map_mul, conj_ofReal, conj_char]
    refine Finset.sum_congr rfl fun i _ => Finset.sum_congr rfl fun j _ => ?_
    rw [neg_mul, neg_mul]
  unfold xcSpectrum
  rw [this, this, map_mul]

/-- Sums over residues as sums over numbers. -/
theorem sum_zmod {n : ℕ} [NeZero n] (g : ZMod n → ℂ) : ∑ l, g l = ∑ l ∈ Finset.range n, g (l : ZMod n) := by
  obtain ⟨k, rfl⟩ : ∃ k, n = k + 1 := ⟨n - 1, by have := NeZero.pos n; omega⟩
  rw [Finset.sum_range]
  refine Finset.sum_congr rfl fun l _ => ?_
  congr 1
  exact (Fin.cast_val_eq_self l).symm

/-- `irfft` without a length inverts `rfft` for even lengths. -/
theorem irfft_even {h : ℕ} [NeZero (2 * h)] (hh : 0 < h) (Y : ZMod (2 * h) → ℂ) (hY : ∀ l, Y (-l) = starRingEnd ℂ (Y l)) (b : ℕ) :
    irfftDefault (2 * h) (fun l => Y l) b = ((∑ l, Y l * stdAddChar (l * (b : ZMod (2 * h)))) / (2 * h : ℕ)).re := by
  set g : ZMod (2 * h) → ℂ := fun l => Y l * stdAddChar (l * (b : ZMod (2 * h))) with hg
  have gneg : ∀ l, g (-l) = starRingEnd ℂ (g l) := by
    intro l
    simp only [hg]
    rw [hY, map_mul (starRingEnd ℂ), conj_char, neg_mul]
  have hchar : ∀ l : ℕ, (stdAddChar ((l : ZMod (2 * h)) * (b : ZMod (2 * h))) : ℂ) =
      exp (2 * Real.pi * I * (l * b : ℕ) / (2 * h : ℕ)) := by
    intro l
    have := stdAddChar_coe (N := 2 * h) ((l * b : ℕ) : ℤ)
    push_cast at this ⊢
    exact this
  have hmid : (stdAddChar ((h : ZMod (2 * h)) * (b : ZMod (2 * h))) : ℂ) = (-1) ^ b := by
    rw [hchar h]
    have hne : (h : ℂ) ≠ 0 := by exact_mod_cast hh.ne'
    have : (2 * Real.pi * I * (h * b : ℕ) / (2 * h : ℕ) : ℂ) = (b : ℕ) * (Real.pi * I) := by
      push_cast; field_simp
    rw [this, exp_nat_mul, exp_pi_mul_I]
  have split : ∑ l, g l = g 0 + ∑ l ∈ Finset.Ico 1 h, g (l : ZMod (2 * h)) + g (h : ZMod (2 * h)) +
      ∑ l ∈ Finset.Ico 1 h, starRingEnd ℂ (g (l : ZMod (2 * h))) := by
    rw [sum_zmod]
    have e1 : Finset.range (2 * h) = Finset.Ico 0 (2 * h) := Finset.range_eq_Ico _
    rw [e1, ← Finset.sum_Ico_consecutive _ (Nat.zero_le h) (by omega : h ≤ 2 * h), Finset.sum_eq_sum_Ico_succ_bot hh,
      Finset.sum_eq_sum_Ico_succ_bot (by omega : h < 2 * h)]
    have e2 : ∑ l ∈ Finset.Ico (h + 1) (2 * h), g (l : ZMod (2 * h)) = ∑ l ∈ Finset.Ico 1 h, starRingEnd ℂ (g (l : ZMod (2 * h))) := by
      refine Finset.sum_nbij' (fun l => 2 * h - l) (fun l => 2 * h - l) ?_ ?_ ?_ ?_ ?_
      · intro l hl; rw [Finset.mem_Ico] at hl ⊢; omega
      · intro l hl; rw [Finset.mem_Ico] at hl ⊢; omega
      · intro l hl; rw [Finset.mem_Ico] at hl; omega
      · intro l hl; rw [Finset.mem_Ico] at hl; omega
      · intro l hl
        rw [Finset.mem_Ico] at hl
        rw [← gneg]
        congr 1
        rw [Nat.cast_sub (by omega), ZMod.natCast_self, zero_sub, neg_neg]
    rw [e2]
    push_cast
    ring
  have re : ∀ z : ℂ, (z / (2 * h : ℕ)).re = z.re / (2 * h : ℕ) := fun z => by
    rw [show ((2 * h : ℕ) : ℂ) = (((2 * h : ℕ) : ℝ) : ℂ) by push_cast; rfl, div_ofReal_re]
  rw [re, split]
  unfold irfftDefault
  have hd : 2 * h / 2 = h := by omega
  rw [hd]
  congr 1
  simp only [add_re, re_sum, conj_re]
  have t0 : (g 0).re = (Y 0).re := by simp [hg]
  have th : (g (h : ZMod (2 * h))).re = (-1) ^ b * (Y h).re := by
    simp only [hg, hmid]
    rw [show ((-1 : ℂ) ^ b) = (((-1 : ℝ) ^ b : ℝ) : ℂ) by push_cast; rfl, re_mul_ofReal, mul_comm]
  have tl : ∀ l : ℕ, (g (l : ZMod (2 * h))).re = (Y l * exp (2 * Real.pi * I * (l * b : ℕ) / (2 * h : ℕ))).re := by
    intro l; simp only [hg, hchar]
  rw [t0, th]
  simp only [tl, Nat.cast_zero]
  ring

/-- The correlation image is the circular correlation, with the full transform or for an even number of columns. -/
theorem xcImage_eq {m n : ℕ} [NeZero m] [NeZero n] (rfft : Bool) (x y : ZMod m → ZMod n → ℝ) (a b : ℕ)
    (hr : rfft = true → Even n) : xcImage rfft x y a b = circCorr x y a b := by
  have hm : (m : ℂ) ≠ 0 := by exact_mod_cast NeZero.ne m
  have hn : (n : ℂ) ≠ 0 := by exact_mod_cast NeZero.ne n
  have full : ((∑ l, (∑ k, xcSpectrum x y k l * stdAddChar (k * (a : ZMod m))) / m * stdAddChar (l * (b : ZMod n))) / n : ℂ) =
      (circCorr x y a b : ℂ) := by
    have h := xc_theorem x y (a : ZMod m) (b : ZMod n)
    have : ∑ l, (∑ k, xcSpectrum x y k l * stdAddChar (k * (a : ZMod m))) / m * stdAddChar (l * (b : ZMod n)) =
        (∑ l, ∑ k, xcSpectrum x y k l * stdAddChar (k * (a : ZMod m)) * stdAddChar (l * (b : ZMod n))) / (m : ℂ) := by
      rw [Finset.sum_div]
      refine Finset.sum_congr rfl fun l _ => ?_
      rw [← Finset.sum_mul]; ring
    rw [this, h]; field_simp
  unfold xcImage
  simp only
  split_ifs with hrt
  · obtain ⟨h, hh⟩ := hr hrt
    have hh' : n = 2 * h := by omega
    subst hh'
    have hpos : 0 < h := by have := NeZero.pos (2 * h); omega
    rw [irfft_even hpos (fun l => (∑ k, xcSpectrum x y k l * stdAddChar (k * (a : ZMod m))) / m)]
    · rw [full, ofReal_re]
    · intro l
      rw [map_div₀, map_sum, map_natCast]
      congr 1
      rw [← Equiv.sum_comp (Equiv.neg (ZMod m))]
      refine Finset.sum_congr rfl fun k _ => ?_
      simp only [Equiv.neg_apply]
      rw [xcSpectrum_neg, map_mul (starRingEnd ℂ), conj_char, neg_mul]
  · rw [full, ofReal_re]

/-! ## Autocorrelations -/

theorem circCorr_shifted {m n : ℕ} [NeZero m] [NeZero n] (x y : ZMod m → ZMod n → ℝ) (sv su : ℤ) (h : IsShifted x y sv su)
    (a : ZMod m) (b : ZMod n) : circCorr x y a b = circCorr y y (a - sv) (b - su) := by
  unfold circCorr
  refine Finset.sum_congr rfl fun i _ => Finset.sum_congr rfl fun j _ => ?_
  rw [h]
  congr 2 <;> ring

theorem circCorr_neg {m n : ℕ} [NeZero m] [NeZero n] (y : ZMod m → ZMod n → ℝ) (a : ZMod m) (b : ZMod n) :
    circCorr y y (-a) (-b) = circCorr y y a b := by
  unfold circCorr
  rw [← Equiv.sum_comp (Equiv.addRight a)]
  refine Finset.sum_congr rfl fun i _ => ?_
  rw [← Equiv.sum_comp (Equiv.addRight b)]
  refine Finset.sum_congr rfl fun j _ => ?_
  simp [mul_comm]

theorem circCorr_lt {m n : ℕ} [NeZero m] [NeZero n] (y : ZMod m → ZMod n → ℝ) (hy : Aperiodic y) (a : ZMod m) (b : ZMod n)
    (hab : ¬ (a = 0 ∧ b = 0)) : circCorr y y a b < circCorr y y 0 0 := by
  have hex : ∃ i j, y (i + a) (j + b) ≠ y i j := by
    by_contra hc
    push Not at hc
    exact hab (hy a b hc)
  have hsq : ∑ i, ∑ j, (y (i + a) (j + b)) ^ 2 = ∑ i, ∑ j, (y i j) ^ 2 := by
    rw [← Equiv.sum_comp (Equiv.addRight a) (fun i => ∑ j, (y i j) ^ 2)]
    refine Finset.sum_congr rfl fun i _ => ?_
    rw [← Equiv.sum_comp (Equiv.addRight b) (fun j => (y (Equiv.addRight a i) j) ^ 2)]
    rfl
  have hpos : 0 < ∑ i, ∑ j, (y (i + a) (j + b) - y i j) ^ 2 := by
    obtain ⟨i, j, hij⟩ := hex
    refine Finset.sum_pos' (fun i _ => Finset.sum_nonneg fun j _ => sq_nonneg _) ⟨i, Finset.mem_univ _, ?_⟩
    refine Finset.sum_pos' (fun j _ => sq_nonneg _) ⟨j, Finset.mem_univ _, ?_⟩
    exact pow_pos_of_ne hij
  have hexp : ∑ i, ∑ j, (y (i + a) (j + b) - y i j) ^ 2 =
      ∑ i, ∑ j, (y (i + a) (j + b)) ^ 2 + ∑ i, ∑ j, (y i j) ^ 2 - 2 * circCorr y y a b := by
    unfold circCorr
    simp only [Finset.mul_sum, ← Finset.sum_add_distrib, ← Finset.sum_sub_distrib]
    refine Finset.sum_congr rfl fun i _ => Finset.sum_congr rfl fun j _ => ?_
    ring
  have h0 : circCorr y y 0 0 = ∑ i, ∑ j, (y i j) ^ 2 := by
    unfold circCorr
    refine Finset.sum_congr rfl fun i _ => Finset.sum_congr rfl fun j _ => ?_
    simp [sq]
  rw [h0]
  linarith
where
  pow_pos_of_ne {u v : ℝ} (h : u ≠ v) : 0 < (u - v) ^ 2 := by
    have := sub_ne_zero.2 h
    positivity

/-! ## C96 -/

theorem fftfreq_val {n : ℕ} [NeZero n] (z : ℤ) (h1 : -(n : ℤ) ≤ 2 * z) (h2 : 2 * z < n) : fftfreq n ((z : ZMod n).val) = z := by
  have hn : 0 < n := NeZero.pos n
  unfold fftfreq
  have hv : (((z : ZMod n).val : ℕ) : ℤ) = z % n := by rw [ZMod.val_intCast]
  rcases le_or_gt 0 z with hz | hz
  · have : z % n = z := Int.emod_eq_of_lt hz (by omega)
    rw [this] at hv
    rw [if_pos (by omega)]; exact hv
  · have : z % n = z + n := by
      rw [← Int.add_emod_right, Int.emod_eq_of_lt (by omega) (by omega)]
    rw [this] at hv
    rw [if_neg (by omega)]; omega

theorem around_zero (d : ℕ) : around d 0 = 0 := by
  unfold around
  simp

/-- A symmetric peak is not moved by the refinement. -/
theorem refine_symmetric (y0 y1 y2 : ℝ) (d : ℕ) (h : y0 = y2) (hlt : y0 < y1) : refineMax3 y0 y1 y2 d = some 0 := by
  subst h
  have ha : (parab3 (-1) 0 1 y0 y1 y0).a = y0 - y1 := by unfold parab3; simp only; ring
  have hb : (parab3 (-1) 0 1 y0 y1 y0).b = 0 := by unfold parab3; simp only; ring
  have hv : (parab3 (-1) 0 1 y0 y1 y0).vertex = 0 := by unfold Parab.vertex; rw [hb]; simp
  unfold refineMax3
  simp only
  rw [hv, around_zero, if_pos ⟨by rw [ha]; exact (sub_neg.2 hlt).ne, by norm_num, by norm_num⟩]

theorem natCast_inj_of_lt {n a : ℕ} [NeZero n] (t : ZMod n) (ha : a < n) (h : (a : ZMod n) = t) : a = t.val := by
  rw [← h, ZMod.val_natCast_of_lt ha]

/-- **C96.** `fit_shifts_vu_xc` on images: if the data image is the other one, moved by a whole number of pixels in both directions (around
the borders), the shift is found exactly, sub-pixel refinement included: for all images that are not periodic, with the full
transform, and with the real one if the number of columns is even. -/
theorem C96_image_shift {m n : ℕ} [NeZero m] [NeZero n] (hm : 2 ≤ m) (hn : 2 ≤ n) (rfft : Bool) (hr : rfft = true → Even n)
    (data proj : ZMod m → ZMod n → ℝ) (hp : Aperiodic proj) (sv su : ℤ) (h : IsShifted data proj sv su)
    (hv : -(m : ℤ) ≤ 2 * sv ∧ 2 * sv < m) (hu : -(n : ℤ) ≤ 2 * su ∧ 2 * su < n) (d : ℕ) :
    fitShiftVU rfft data proj d = some ((sv : ℝ), (su : ℝ)) := by
  have hw : xcWidth rfft n = n := by
    unfold xcWidth
    split_ifs with hrt
    · obtain ⟨k, hk⟩ := hr hrt; omega
    · rfl
  have cc : ∀ a b : ℕ, xcImage rfft data proj a b = circCorr proj proj ((a : ZMod m) - sv) ((b : ZMod n) - su) := by
    intro a b
    rw [xcImage_eq rfft data proj a b hr, circCorr_shifted data proj sv su h]
  set a := (sv : ZMod m).val with ha
  set b := (su : ZMod n).val with hb
  have ham : a < m := ZMod.val_lt _
  have hbn : b < n := ZMod.val_lt _
  have hac : (a : ZMod m) = sv := by rw [ha, ZMod.natCast_zmod_val]
  have hbc : (b : ZMod n) = su := by rw [hb, ZMod.natCast_zmod_val]
  have hpk : xcImage rfft data proj a b = circCorr proj proj 0 0 := by rw [cc, hac, hbc, sub_self, sub_self]
  -- the maximum
  have hpos : argmin (fun i => -xcImage rfft data proj (i / n) (i % n)) (m * n) = a * n + b := by
    have hlt : a * n + b < m * n := by
      calc a * n + b < a * n + n := by omega
        _ = (a + 1) * n := by ring
        _ ≤ m * n := Nat.mul_le_mul_right n ham
    obtain ⟨h1, h2, -⟩ := argmin_spec (fun i => -xcImage rfft data proj (i / n) (i % n)) (m * n) (by omega)
    set p := argmin (fun i => -xcImage rfft data proj (i / n) (i % n)) (m * n)
    have h3 := h2 (a * n + b) hlt
    have e1 : (a * n + b) / n = a := by
      rw [mul_comm, Nat.mul_add_div (by omega), Nat.div_eq_of_lt hbn, add_zero]
    have e2 : (a * n + b) % n = b := by rw [mul_comm, Nat.mul_add_mod, Nat.mod_eq_of_lt hbn]
    rw [e1, e2, hpk, cc, neg_le_neg_iff] at h3
    by_contra hne
    have hpm : p / n < m := Nat.div_lt_of_lt_mul (by rw [mul_comm]; exact h1)
    have hpn : p % n < n := Nat.mod_lt _ (by omega)
    have := circCorr_lt proj hp (((p / n : ℕ) : ZMod m) - sv) (((p % n : ℕ) : ZMod n) - su) (by
      rintro ⟨z1, z2⟩
      have w1 := natCast_inj_of_lt (sv : ZMod m) hpm (sub_eq_zero.1 z1)
      have w2 := natCast_inj_of_lt (su : ZMod n) hpn (sub_eq_zero.1 z2)
      apply hne
      rw [← Nat.div_add_mod p n, w1, w2, mul_comm])
    linarith
  have one_m : (1 : ZMod m) ≠ 0 := by
    have : Fact (1 < m) := ⟨hm⟩
    exact one_ne_zero
  have one_n : (1 : ZMod n) ≠ 0 := by
    have : Fact (1 < n) := ⟨hn⟩
    exact one_ne_zero
  have cprev : ((((a + m - 1) % m : ℕ)) : ZMod m) - sv = -1 := by
    rw [ZMod.natCast_mod, Nat.cast_sub (by omega), Nat.cast_add, ZMod.natCast_self, hac]; simp
  have cnext : ((((a + 1) % m : ℕ)) : ZMod m) - sv = 1 := by
    rw [ZMod.natCast_mod, Nat.cast_add, hac]; simp
  have dprev : ((((b + n - 1) % n : ℕ)) : ZMod n) - su = -1 := by
    rw [ZMod.natCast_mod, Nat.cast_sub (by omega), Nat.cast_add, ZMod.natCast_self, hbc]; simp
  have dnext : ((((b + 1) % n : ℕ)) : ZMod n) - su = 1 := by
    rw [ZMod.natCast_mod, Nat.cast_add, hbc]; simp
  have rv : refineMax3 (xcImage rfft data proj ((a + m - 1) % m) b) (xcImage rfft data proj a b)
      (xcImage rfft data proj ((a + 1) % m) b) d = some 0 := by
    apply refine_symmetric
    · rw [cc, cc, cprev, cnext, hbc, sub_self]
      have := circCorr_neg proj 1 0
      rwa [neg_zero] at this
    · rw [hpk, cc, cprev, hbc, sub_self]
      exact circCorr_lt proj hp _ _ (fun h => one_m (neg_eq_zero.1 h.1))
  have ru : refineMax3 (xcImage rfft data proj a ((b + n - 1) % n)) (xcImage rfft data proj a b)
      (xcImage rfft data proj a ((b + 1) % n)) d = some 0 := by
    apply refine_symmetric
    · rw [cc, cc, dprev, dnext, hac, sub_self]
      have := circCorr_neg proj 0 1
      rwa [neg_zero] at this
    · rw [hpk, cc, dprev, hac, sub_self]
      exact circCorr_lt proj hp _ _ (fun h => one_n (neg_eq_zero.1 h.2))
  have e1 : (a * n + b) / n = a := by
    rw [mul_comm, Nat.mul_add_div (by omega), Nat.div_eq_of_lt hbn, add_zero]
  have e2 : (a * n + b) % n = b := by rw [mul_comm, Nat.mul_add_mod, Nat.mod_eq_of_lt hbn]
  unfold fitShiftVU
  simp only [hw, hpos, e1, e2, rv, ru, Option.bind_eq_bind, Option.bind_some]
  rw [ha, hb, fftfreq_val sv hv.1 hv.2, fftfreq_val su hu.1 hu.2]
  simp

/-- **C96.** The same for the rows of a 2-dimensional data set. -/
theorem C96_row_shift {n : ℕ} [NeZero n] (hn : 2 ≤ n) (rfft : Bool) (hr : rfft = true → Even n)
    (data proj : ZMod n → ℝ) (hp : ∀ b, (∀ j, proj (j + b) = proj j) → b = 0) (su : ℤ) (h : ∀ j, data j = proj (j - su))
    (hu : -(n : ℤ) ≤ 2 * su ∧ 2 * su < n) (d : ℕ) : fitShiftU rfft data proj d = some (su : ℝ) := by
  have hw : xcWidth rfft n = n := by
    unfold xcWidth
    split_ifs with hrt
    · obtain ⟨k, hk⟩ := hr hrt; omega
    · rfl
  have hp' : Aperiodic (m := 1) (fun _ => proj) := fun a b hab => ⟨Subsingleton.elim _ _, hp b fun j => hab 0 j⟩
  have cc : ∀ b : ℕ, xcImage (m := 1) rfft (fun _ => data) (fun _ => proj) 0 b =
      circCorr (m := 1) (fun _ => proj) (fun _ => proj) 0 ((b : ZMod n) - su) := by
    intro b
    rw [xcImage_eq rfft _ _ 0 b hr, circCorr_shifted (m := 1) (fun _ => data) (fun _ => proj) 0 su (fun _ j => h j)]
    congr 1
  set b := (su : ZMod n).val with hb
  have hbn : b < n := ZMod.val_lt _
  have hbc : (b : ZMod n) = su := by rw [hb, ZMod.natCast_zmod_val]
  have hpk : xcImage (m := 1) rfft (fun _ => data) (fun _ => proj) 0 b = circCorr (m := 1) (fun _ => proj) (fun _ => proj) 0 0 := by
    rw [cc, hbc, sub_self]
  have hpos : argmin (fun i => -xcImage (m := 1) rfft (fun _ => data) (fun _ => proj) 0 i) n = b := by
    obtain ⟨h1, h2, -⟩ := argmin_spec (fun i => -xcImage (m := 1) rfft (fun _ => data) (fun _ => proj) 0 i) n (by omega)
    set p := argmin (fun i => -xcImage (m := 1) rfft (fun _ => data) (fun _ => proj) 0 i) n
    have h3 := h2 b hbn
    rw [hpk, cc, neg_le_neg_iff] at h3
    by_contra hne
    have := circCorr_lt (m := 1) (fun _ => proj) hp' 0 ((p : ZMod n) - su) (by
      rintro ⟨-, z2⟩
      exact hne (natCast_inj_of_lt (su : ZMod n) h1 (sub_eq_zero.1 z2)))
    linarith
  have one_n : (1 : ZMod n) ≠ 0 := by
    have : Fact (1 < n) := ⟨hn⟩
    exact one_ne_zero
  have dprev : ((((b + n - 1) % n : ℕ)) : ZMod n) - su = -1 := by
    rw [ZMod.natCast_mod, Nat.cast_sub (by omega), Nat.cast_add, ZMod.natCast_self, hbc]; simp
  have dnext : ((((b + 1) % n : ℕ)) : ZMod n) - su = 1 := by
    rw [ZMod.natCast_mod, Nat.cast_add, hbc]; simp
  have ru : refineMax3 (xcImage (m := 1) rfft (fun _ => data) (fun _ => proj) 0 ((b + n - 1) % n))
      (xcImage (m := 1) rfft (fun _ => data) (fun _ => proj) 0 b)
      (xcImage (m := 1) rfft (fun _ => data) (fun _ => proj) 0 ((b + 1) % n)) d = some 0 := by
    apply refine_symmetric
    · rw [cc, cc, dprev, dnext]
      have := circCorr_neg (m := 1) (fun _ => proj) 0 1
      rwa [neg_zero] at this
    · rw [hpk, cc, dprev]
      exact circCorr_lt (m := 1) (fun _ => proj) hp' _ _ (fun h => one_n (neg_eq_zero.1 h.2))
  unfold fitShiftU
  simp only [hw, hpos, ru, Option.bind_eq_bind, Option.bind_some]
  rw [hb, fftfreq_val su hu.1 hu.2]
  simp

/-- Non-vacuity of C96: a single bright pixel, moved by one column to the left. -/
example : ∃ (data proj : ZMod 4 → ZMod 6 → ℝ), Aperiodic proj ∧ IsShifted data proj 0 (-1) ∧ data 0 0 = 1 ∧ data 0 1 = 0 := by
  refine ⟨fun i j => if i = 0 ∧ j = 0 then 1 else 0, fun i j => if i = 0 ∧ j = 1 then 1 else 0, ?_, ?_, by simp, ?_⟩
  · intro a b h
    have := h 0 1
    simpa using this
  · intro i j
    have : j - ((-1 : ℤ) : ZMod 6) = 1 ↔ j = 0 := by
      push_cast
      constructor
      · intro h; linear_combination h
      · rintro rfl; decide
    simp only [this, Int.cast_zero, sub_zero]
  · have : ¬ ((1 : ZMod 6) = 0) := by decide
    simp [this]

/-- **C96.** With the padding (`pad_u`), for every row that is not zero, of any size and with both transforms: if the data is the other row
moved by `su` pixels, and nothing leaves the detector, the shift is found exactly. -/
theorem C96_padded_row_shift {n : ℕ} [NeZero n] [NeZero (2 * n)] (rfft : Bool) (data proj : ℤ → ℝ)
    (hsupp : ∀ k, proj k ≠ 0 → 0 ≤ k ∧ k < n) (hsupp' : ∀ k, data k ≠ 0 → 0 ≤ k ∧ k < n) (hne : ∃ k, proj k ≠ 0) (su : ℤ)
    (h : ∀ k, data k = proj (k - su)) (d : ℕ) :
    fitShiftU rfft (padRow n fun k => data k) (padRow n fun k => proj k) d = some (su : ℝ) := by
  have hn : 0 < n := NeZero.pos n
  have hpad : ∀ (f : ℤ → ℝ), (∀ k, f k ≠ 0 → 0 ≤ k ∧ k < n) → ∀ z : ℤ, -(n : ℤ) ≤ z → z < 2 * n →
      padRow n (fun k => f k) (z : ZMod (2 * n)) = f z := by
    intro f hf z hz1 hz2
    have hv : (((z : ZMod (2 * n)).val : ℕ) : ℤ) = z % (2 * n : ℕ) := by rw [ZMod.val_intCast]
    unfold padRow
    rcases le_or_gt 0 z with h0 | h0
    · rw [Int.emod_eq_of_lt h0 (by push_cast; omega)] at hv
      split_ifs with hlt
      · show f (((z : ZMod (2 * n)).val : ℕ) : ℤ) = f z
        rw [hv]
      · by_contra hc
        have := hf z (fun h => hc h.symm)
        omega
    · have e : z % (2 * n : ℕ) = z + 2 * n := by
        rw [← Int.add_emod_right, Int.emod_eq_of_lt (by push_cast; omega) (by push_cast; omega)]; push_cast; ring
      rw [e] at hv
      rw [if_neg (by omega)]
      by_contra hc
      have := hf z (fun h => hc h.symm)
      omega
  obtain ⟨k0, hk0⟩ := hne
  have hb0 := hsupp k0 hk0
  have hb1 := hsupp' (k0 + su) (by rw [h, add_sub_cancel_right]; exact hk0)
  refine C96_row_shift (n := 2 * n) (by omega) rfft (fun _ => even_two_mul n) _ _ ?_ su ?_ (by push_cast; omega) d
  · -- no period
    intro b hb
    by_contra hbne
    let S : Finset (ZMod (2 * n)) := Finset.univ.filter fun j => padRow n (fun k => proj k) j ≠ 0
    have hS : S.Nonempty := ⟨(k0 : ZMod (2 * n)), by
      simp only [S, Finset.mem_filter, Finset.mem_univ, true_and]
      rw [hpad proj hsupp k0 (by omega) (by omega)]; exact hk0⟩
    obtain ⟨j, hj, hmax⟩ := Finset.exists_max_image S ZMod.val hS
    simp only [S, Finset.mem_filter, Finset.mem_univ, true_and] at hj hmax
    have hjn : j.val < n := by
      by_contra hc
      exact hj (by unfold padRow; rw [if_neg hc])
    have hb' : ∀ j, padRow n (fun k => proj k) (j + -b) = padRow n (fun k => proj k) j := by
      intro j
      rw [← hb (j + -b)]; congr 1; ring
    have step : ∀ c : ZMod (2 * n), c ≠ 0 → c.val ≤ n → (∀ j, padRow n (fun k => proj k) (j + c) = padRow n (fun k => proj k) j) → False := by
      intro c hc hcn hper
      have hv : (j + c).val = j.val + c.val := ZMod.val_add_of_lt (by omega)
      have := hmax (j + c) (by rw [hper]; exact hj)
      have hpos : 0 < c.val := Nat.pos_of_ne_zero fun h0 => hc ((ZMod.val_eq_zero c).1 h0)
      omega
    rcases le_or_gt b.val n with hle | hgt
    · exact step b hbne hle hb
    · refine step (-b) (neg_ne_zero.2 hbne) ?_ hb'
      have : NeZero b := ⟨hbne⟩
      rw [ZMod.val_neg_of_ne_zero]; omega
  · intro j
    have hj : (((j.val : ℕ) : ℤ) : ZMod (2 * n)) = j := by push_cast; exact ZMod.natCast_zmod_val j
    have hlt : j.val < 2 * n := ZMod.val_lt j
    -- the residue of `j` among the columns `k` and `k - 2n`
    have e1 : padRow n (fun k => data k) j = data (j.val : ℤ) := by
      conv_lhs => rw [← hj]
      exact hpad data hsupp' _ (by omega) (by omega)
    rw [e1, h]
    by_cases hr : -(n : ℤ) ≤ (j.val : ℤ) - su ∧ (j.val : ℤ) - su < 2 * n
    · rw [← hpad proj hsupp _ hr.1 hr.2]
      congr 1
      push_cast
      rw [ZMod.natCast_zmod_val]
    · -- out of range: both are zero
      have hz : proj ((j.val : ℤ) - su) = 0 := by
        by_contra hc
        have := hsupp _ hc
        omega
      rw [hz]
      have hr2 : -(n : ℤ) ≤ (j.val : ℤ) - su - 2 * n ∧ (j.val : ℤ) - su - 2 * n < 2 * n := by omega
      have e2 : j - (su : ZMod (2 * n)) = (((j.val : ℤ) - su - 2 * n : ℤ) : ZMod (2 * n)) := by
        have h2n : (2 * (n : ZMod (2 * n))) = 0 := by
          have := ZMod.natCast_self (2 * n)
          push_cast at this; exact this
        push_cast
        rw [ZMod.natCast_zmod_val, h2n, sub_zero]
      rw [e2, hpad proj hsupp _ hr2.1 hr2.2]
      by_contra hc
      have hb2 := hsupp _ (fun h => hc h.symm)
      have hb3 := hsupp' _ (show data ((j.val : ℤ) - 2 * n) ≠ 0 by
        rw [h, show (j.val : ℤ) - 2 * n - su = (j.val : ℤ) - su - 2 * n by ring]; exact fun h => hc h.symm)
      omega

/-- Non-vacuity: a row of three columns, moved by two. -/
example : ∃ data proj : ℤ → ℝ, (∀ k, proj k ≠ 0 → 0 ≤ k ∧ k < (3 : ℕ)) ∧ (∀ k, data k ≠ 0 → 0 ≤ k ∧ k < (3 : ℕ)) ∧ (∃ k, proj k ≠ 0) ∧
    ∀ k, data k = proj (k - 2) := by
  refine ⟨fun k => if k = 2 then 5 else 0, fun k => if k = 0 then 5 else 0, ?_, ?_, ⟨0, by simp⟩, ?_⟩
  · intro k hk
    have : k = 0 := by by_contra hc; simp [hc] at hk
    omega
  · intro k hk
    have : k = 2 := by by_contra hc; simp [hc] at hk
    omega
  · intro k
    have : k - 2 = 0 ↔ k = 2 := by omega
    simp [this]

/-! ## C97: the centre of rotation -/

/-- **C97.** `fit_u_180`: if the row at the opposite angle is the mirror image of the row at the first angle around a centre of
rotation at `c` pixels from the middle of the detector (`2 c` is a whole number; around the borders), then `-c` is found exactly, the
convention of the shifts of the package. -/
theorem C97_centre_of_rotation {n : ℕ} [NeZero n] (hn : 2 ≤ n) (rfft : Bool) (hr : rfft = true → Even n)
    (p0 p180 : ZMod n → ℝ) (hp : ∀ b, (∀ j, p0 (j + b) = p0 j) → b = 0) (twoC : ℤ)
    (hmirror : ∀ j, p180 j = p0 (-1 - j + twoC)) (hc : -(n : ℤ) ≤ 2 * twoC ∧ 2 * twoC < n) (maxShift : ℝ) (hmax : |(twoC : ℝ)| ≤ maxShift) (d : ℕ) :
    fitU180 rfft p0 p180 maxShift d = some (-((twoC : ℝ) / 2)) := by
  have hs := C96_row_shift hn rfft hr p0 (fun j => p180 (-1 - j)) (fun b hb => hp b fun j => by
      have := hb (j - twoC)
      simp only [hmirror] at this
      have e1 : -1 - (-1 - (j - twoC + b)) + (twoC : ZMod n) = j + b := by ring
      have e2 : -1 - (-1 - (j - twoC)) + (twoC : ZMod n) = j := by ring
      rwa [e1, e2] at this) twoC (fun j => by
      rw [hmirror]
      congr 1
      ring) hc d
  unfold fitU180
  rw [hs]
  simp only [Option.bind_eq_bind, Option.bind_some]
  rw [if_neg (not_lt.2 hmax)]
  congr 1
  ring

/-- Non-vacuity of C97: a bright pixel at column 2 of 6, opposite at column 4: the centre of rotation is half a pixel right of the
middle. -/
example : ∃ p0 p180 : ZMod 6 → ℝ, (∀ b, (∀ j, p0 (j + b) = p0 j) → b = 0) ∧ (∀ j, p180 j = p0 (-1 - j + (1 : ℤ))) ∧ p0 2 = 1 ∧
    p180 4 = 1 := by
  refine ⟨fun j => if j = 2 then 1 else 0, fun j => if -1 - j + (1 : ℤ) = 2 then 1 else 0, ?_, fun j => rfl, by simp, ?_⟩
  · intro b h
    have := h 2
    simpa using this
  · have : (-1 - 4 + ((1 : ℤ) : ZMod 6)) = 2 := by decide
    exact if_pos this

/-! ## C98: odd sizes -/

/-- **C98 (violated).** The real transform, the default, gives the same shifts as the full one: wrong for an odd number of columns, as
`irfftn` is called without the shape. The rows `[0, 1, 0]` and `[1, 0, 0]`. -/
theorem C98_odd_size_violated :
    ¬ ∀ (n : ℕ) [NeZero n] (data proj : ZMod n → ℝ) (d : ℕ), 2 ≤ n → (∀ b, (∀ j, proj (j + b) = proj j) → b = 0) →
      fitShiftU true data proj d = fitShiftU false data proj d := by
  intro h
  let data : ZMod 3 → ℝ := fun j => if j = 0 then 1 else 0
  let proj : ZMod 3 → ℝ := fun j => if j = 1 then 1 else 0
  have hper : ∀ b, (∀ j, proj (j + b) = proj j) → b = 0 := by
    intro b hb
    have := hb 1
    simpa [proj] using this
  have h1 := h 3 data proj 0 (by norm_num) hper
  have h2 := C96_row_shift (n := 3) (by norm_num) false (by simp) data proj hper (-1) (fun j => by
    have : j - ((-1 : ℤ) : ZMod 3) = 1 ↔ j = 0 := by
      push_cast
      constructor
      · intro h; linear_combination h
      · rintro rfl; decide
    simp only [data, proj, this]) (by norm_num) 0
  rw [h2] at h1
  -- the spectrum: `S l = χ(l)`
  have hS : ∀ (k : ZMod 1) (l : ZMod 3), xcSpectrum (m := 1) (fun _ => data) (fun _ => proj) k l = stdAddChar l := by
    intro k l
    unfold xcSpectrum fft2
    have hd : ∑ i : ZMod 1, ∑ j : ZMod 3, ((data j : ℝ) : ℂ) * (stdAddChar (-(k * i)) * stdAddChar (-(l * j))) = 1 := by
      rw [Fintype.sum_subsingleton _ (0 : ZMod 1), Finset.sum_eq_single (0 : ZMod 3)]
      · simp [data]
      · intro j _ hj; simp [data, hj]
      · simp
    have hp : ∑ i : ZMod 1, ∑ j : ZMod 3, ((proj j : ℝ) : ℂ) * (stdAddChar (-(k * i)) * stdAddChar (-(l * j))) = stdAddChar (-l) := by
      rw [Fintype.sum_subsingleton _ (0 : ZMod 1), Finset.sum_eq_single (1 : ZMod 3)]
      · simp [proj]
      · intro j _ hj; simp [proj, hj]
      · simp
    rw [hd, hp, conj_char, neg_neg, one_mul]
  have hcc : ∀ b : ℕ, xcImage (m := 1) true (fun _ => data) (fun _ => proj) 0 b = (1 + (-1) ^ b * (-1 / 2)) / 2 := by
    intro b
    unfold xcImage
    simp only [if_true, hS]
    have hY : ∀ l : ZMod 3, (∑ x : ZMod 1, (stdAddChar l : ℂ) * stdAddChar (x * ((0 : ℕ) : ZMod 1))) / ((1 : ℕ) : ℂ) = stdAddChar l := by
      intro l
      rw [Fintype.sum_subsingleton _ (0 : ZMod 1)]
      simp
    simp only [hY]
    unfold irfftDefault
    have e1 : (stdAddChar (((1 : ℕ)) : ZMod 3) : ℂ).re = -1 / 2 := by
      have e := stdAddChar_coe (N := 3) (1 : ℤ)
      have e' : (stdAddChar (((1 : ℕ)) : ZMod 3) : ℂ) = exp (((2 * Real.pi / 3 : ℝ) : ℂ) * I) := by
        push_cast at e ⊢
        rw [e]; congr 1; ring
      rw [e', exp_ofReal_mul_I_re, show (2 * Real.pi / 3 : ℝ) = Real.pi - Real.pi / 3 by ring, Real.cos_pi_sub, Real.cos_pi_div_three]
      norm_num
    have e0 : (stdAddChar (((0 : ℕ)) : ZMod 3) : ℂ).re = 1 := by simp
    norm_num [e0]
    rw [show ((1 : ZMod 3)) = (((1 : ℕ)) : ZMod 3) by norm_num, e1]
    norm_num
  have c0 := hcc 0
  have c1 := hcc 1
  norm_num at c0 c1
  have ham : argmin (fun i => -xcImage (m := 1) true (fun _ => data) (fun _ => proj) 0 i) 2 = 1 := by
    unfold argmin
    simp [List.range_succ, c0, c1]
    norm_num
  have hf : fitShiftU true data proj 0 = some 1 := by
    unfold fitShiftU
    have hw : xcWidth true 3 = 2 := rfl
    simp only [hw, ham]
    norm_num [refine_symmetric, c0, c1, fftfreq]
  rw [hf] at h1
  have := Option.some.inj h1
  norm_num at this

/-- **C98 (partial).** What is true: both transforms give the same shifts if the number of columns is even. -/
theorem C98_odd_size_partial {n : ℕ} [NeZero n] (hn : Even n) (data proj : ZMod n → ℝ) (d : ℕ) :
    fitShiftU true data proj d = fitShiftU false data proj d := by
  have hw : xcWidth true n = n := by
    unfold xcWidth
    obtain ⟨k, hk⟩ := hn
    simp only [if_true]; omega
  have hw' : xcWidth false n = n := rfl
  have e : ∀ b, xcImage (m := 1) true (fun _ => data) (fun _ => proj) 0 b = xcImage (m := 1) false (fun _ => data) (fun _ => proj) 0 b := by
    intro b
    rw [xcImage_eq true _ _ 0 b (fun _ => hn), xcImage_eq false _ _ 0 b (by simp)]
  unfold fitShiftU
  simp only [hw, hw', e]

end Verif
