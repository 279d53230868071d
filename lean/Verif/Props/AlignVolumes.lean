import Verif.Model.AlignVolumes
import Verif.Props.AlignPre
import Verif.Props.Recentring

/-!
# Shifts of volumes and normalised cross-correlations (C213)
-/

namespace Verif

open ZMod Complex

/-! ## Specification -/

/-- The reference is the volume, moved by `s` (around the borders). -/
def IsMoved3 {p m n : ℕ} (ref vol : Grid3 p m n → ℝ) (s : ℤ × ℤ × ℤ) : Prop :=
  ∀ i, ref i = vol (i - ((s.1 : ZMod p), (s.2.1 : ZMod m), (s.2.2 : ZMod n)))

/-- No displacement leaves the volume as it is. -/
def Aperiodic3 {p m n : ℕ} (vol : Grid3 p m n → ℝ) : Prop := ∀ g, (∀ i, vol (i + g) = vol i) → g = 0

/-! ## The transform -/

section
variable {p m n : ℕ} [NeZero p] [NeZero m] [NeZero n]

theorem chi3_add (k x y : Grid3 p m n) : chi3 k (x + y) = chi3 k x * chi3 k y := by
  unfold chi3
  simp only [Prod.fst_add, Prod.snd_add, mul_add, AddChar.map_add_eq_mul]
  ring

theorem chi3_zero (k : Grid3 p m n) : chi3 k 0 = 1 := by simp [chi3]

theorem chi3_conj (k x : Grid3 p m n) : starRingEnd ℂ (chi3 k x) = chi3 k (-x) := by
  unfold chi3
  simp only [map_mul, conj_char, Prod.fst_neg, Prod.snd_neg, mul_neg]

theorem chi3_neg_left (k x : Grid3 p m n) : chi3 (-k) x = chi3 k (-x) := by
  unfold chi3
  simp only [Prod.fst_neg, Prod.snd_neg, mul_neg, neg_mul]

theorem chi3_norm (k x : Grid3 p m n) : ‖chi3 k x‖ = 1 := by
  have h : starRingEnd ℂ (chi3 k x) * chi3 k x = 1 := by rw [chi3_conj, ← chi3_add, neg_add_cancel, chi3_zero]
  have h2 : ‖chi3 k x‖ * ‖chi3 k x‖ = 1 := by
    have := congrArg norm h
    rwa [norm_mul, RCLike.norm_conj, norm_one] at this
  nlinarith [norm_nonneg (chi3 k x)]

theorem chi3_sum (x : Grid3 p m n) : ∑ k, chi3 k x = if x = 0 then ((p * m * n : ℕ) : ℂ) else 0 := by
  have h : ∑ k, chi3 k x = (∑ k : ZMod p, stdAddChar (k * x.1)) * (∑ k : ZMod m, stdAddChar (k * x.2.1)) * ∑ k : ZMod n, stdAddChar (k * x.2.2) := by
    rw [Finset.sum_mul_sum, Fintype.sum_prod_type]
    rw [Finset.sum_mul]
    refine Finset.sum_congr rfl fun i _ => ?_
    rw [Fintype.sum_prod_type, Finset.sum_mul_sum]
    rfl
  rw [h, char_sum, char_sum, char_sum]
  obtain ⟨x1, x2, x3⟩ := x
  by_cases h1 : x1 = 0 <;> by_cases h2 : x2 = 0 <;> by_cases h3 : x3 = 0 <;> simp [h1, h2, h3, Prod.ext_iff]

theorem fft3_neg (x : Grid3 p m n → ℝ) (k : Grid3 p m n) : fft3 x (-k) = starRingEnd ℂ (fft3 x k) := by
  unfold fft3
  rw [map_sum]
  refine Finset.sum_congr rfl fun i _ => ?_
  rw [map_mul, conj_ofReal, chi3_conj, chi3_neg_left]

theorem fft3_moved (ref vol : Grid3 p m n → ℝ) (s : Grid3 p m n) (h : ∀ i, ref i = vol (i - s)) (k : Grid3 p m n) :
    fft3 ref k = fft3 vol k * chi3 k (-s) := by
  unfold fft3
  rw [Finset.sum_mul, ← Equiv.sum_comp (Equiv.addRight s)]
  refine Finset.sum_congr rfl fun i _ => ?_
  simp only [Equiv.coe_addRight, h, add_sub_cancel_right]
  rw [neg_add, chi3_add, mul_assoc]

/-- The inverse transform. -/
theorem fft3_inv (x : Grid3 p m n → ℝ) (i : Grid3 p m n) : ∑ k, fft3 x k * chi3 k i = (p * m * n : ℕ) * (x i : ℂ) := by
  unfold fft3
  simp only [Finset.sum_mul]
  rw [Finset.sum_comm]
  have e : ∀ j : Grid3 p m n, ∑ k, (x j : ℂ) * chi3 k (-j) * chi3 k i = if j = i then (p * m * n : ℕ) * (x i : ℂ) else 0 := by
    intro j
    have e1 : ∀ k : Grid3 p m n, (x j : ℂ) * chi3 k (-j) * chi3 k i = x j * chi3 k (-j + i) := fun k => by rw [chi3_add, mul_assoc]
    simp only [e1]
    rw [← Finset.mul_sum, chi3_sum]
    by_cases h : j = i
    · rw [if_pos h, if_pos (by rw [h, neg_add_cancel]), h, mul_comm]
    · rw [if_neg h, if_neg (fun h0 => h (neg_add_eq_zero.1 h0)), mul_zero]
  simp only [e]
  rw [Finset.sum_ite_eq', if_pos (Finset.mem_univ _)]

/-! ## The correlation of a volume with itself, frequency by frequency -/

/-- The weight of a frequency. -/
noncomputable def xcWeight (norm : Bool) (eps : ℝ) (vol : Grid3 p m n → ℝ) (k : Grid3 p m n) : ℝ :=
  if norm then ‖fft3 vol k‖ ^ 2 / max (‖fft3 vol k‖ ^ 2) eps else ‖fft3 vol k‖ ^ 2

theorem xcWeight_nonneg (norm : Bool) (eps : ℝ) (vol : Grid3 p m n → ℝ) (k : Grid3 p m n) : 0 ≤ xcWeight norm eps vol k := by
  unfold xcWeight
  split
  · exact div_nonneg (sq_nonneg _) (le_max_of_le_left (sq_nonneg _))
  · positivity

theorem xcWeight_eq_zero (norm : Bool) (eps : ℝ) (he : 0 < eps) (vol : Grid3 p m n → ℝ) (k : Grid3 p m n) (h : xcWeight norm eps vol k = 0) :
    fft3 vol k = 0 := by
  unfold xcWeight at h
  split at h
  · rcases div_eq_zero_iff.1 h with h | h
    · simpa using h
    · exact absurd h (lt_of_lt_of_le he (le_max_right _ _)).ne'
  · simpa using h

theorem xcSpectrum3_moved (norm : Bool) (eps : ℝ) (ref vol : Grid3 p m n → ℝ) (s : Grid3 p m n) (h : ∀ i, ref i = vol (i - s)) (k : Grid3 p m n) :
    xcSpectrum3 norm eps ref vol k = (xcWeight norm eps vol k : ℂ) * chi3 k (-s) := by
  have hz : fft3 ref k * starRingEnd ℂ (fft3 vol k) = ((‖fft3 vol k‖ ^ 2 : ℝ) : ℂ) * chi3 k (-s) := by
    rw [fft3_moved ref vol s h, mul_right_comm, mul_conj, normSq_eq_norm_sq]
  have hn : ‖fft3 ref k * starRingEnd ℂ (fft3 vol k)‖ = ‖fft3 vol k‖ ^ 2 := by
    rw [hz, norm_mul, chi3_norm, mul_one, Complex.norm_real, Real.norm_eq_abs, abs_of_nonneg (sq_nonneg _)]
  unfold xcSpectrum3 normSpectrum xcWeight
  cases norm
  · simp only [Bool.false_eq_true, if_false]
    exact hz
  · simp only [if_true]
    rw [hn, hz, ofReal_div, div_mul_eq_mul_div]

theorem xcSpectrum3_neg (norm : Bool) (eps : ℝ) (ref vol : Grid3 p m n → ℝ) (k : Grid3 p m n) :
    xcSpectrum3 norm eps ref vol (-k) = starRingEnd ℂ (xcSpectrum3 norm eps ref vol k) := by
  have hz : fft3 ref (-k) * starRingEnd ℂ (fft3 vol (-k)) = starRingEnd ℂ (fft3 ref k * starRingEnd ℂ (fft3 vol k)) := by
    rw [fft3_neg, fft3_neg, map_mul]
  unfold xcSpectrum3 normSpectrum
  rw [hz]
  cases norm
  · rfl
  · simp only [if_true]
    rw [map_div₀, conj_ofReal, RCLike.norm_conj]

/-- The correlation at displacement `g` from the peak. -/
noncomputable def xcAuto (norm : Bool) (eps : ℝ) (vol : Grid3 p m n → ℝ) (g : Grid3 p m n) : ℝ :=
  (∑ k, xcWeight norm eps vol k * (chi3 k g).re) / (p * m * n : ℕ)

theorem xcAuto_neg (norm : Bool) (eps : ℝ) (vol : Grid3 p m n → ℝ) (g : Grid3 p m n) : xcAuto norm eps vol (-g) = xcAuto norm eps vol g := by
  unfold xcAuto
  congr 1
  refine Finset.sum_congr rfl fun k _ => ?_
  rw [← chi3_conj, conj_re]

theorem xcAuto_lt (norm : Bool) (eps : ℝ) (he : 0 < eps) (vol : Grid3 p m n → ℝ) (hv : Aperiodic3 vol) (g : Grid3 p m n) (hg : g ≠ 0) :
    xcAuto norm eps vol g < xcAuto norm eps vol 0 := by
  have hN : (0 : ℝ) < (p * m * n : ℕ) := by
    have := NeZero.pos p; have := NeZero.pos m; have := NeZero.pos n
    positivity
  unfold xcAuto
  refine (div_lt_div_iff_of_pos_right hN).2 ?_
  have hle : ∀ k, xcWeight norm eps vol k * (chi3 k g).re ≤ xcWeight norm eps vol k * (chi3 k 0).re := by
    intro k
    refine mul_le_mul_of_nonneg_left ?_ (xcWeight_nonneg _ _ _ _)
    rw [chi3_zero, one_re]
    exact (re_le_norm _).trans (chi3_norm k g).le
  by_contra hc
  push Not at hc
  have heq := le_antisymm hc (Finset.sum_le_sum fun k _ => hle k)
  have hall := (Finset.sum_eq_sum_iff_of_le fun k _ => hle k).1 heq.symm
  have hF : ∀ k, fft3 vol k * chi3 k g = fft3 vol k := by
    intro k
    have h1 := hall k (Finset.mem_univ k)
    by_cases hw : xcWeight norm eps vol k = 0
    · rw [xcWeight_eq_zero norm eps he vol k hw, zero_mul]
    · have h2 := mul_left_cancel₀ hw h1
      rw [chi3_zero, one_re] at h2
      have h3 : chi3 k g = 1 := by
        have h4 := chi3_norm k g
        have h5 : (chi3 k g).re ^ 2 + (chi3 k g).im ^ 2 = 1 := by
          have := Complex.sq_norm_sub_sq_re (chi3 k g)
          rw [h4] at this
          nlinarith
        have h6 : (chi3 k g).im = 0 := by
          rw [h2] at h5
          nlinarith [sq_nonneg (chi3 k g).im]
        exact Complex.ext (by rw [h2, one_re]) (by rw [h6, one_im])
      rw [h3, mul_one]
  apply hg
  apply hv
  intro i
  have h1 := fft3_inv vol (i + g)
  have h2 := fft3_inv vol i
  have h3 : ∑ k, fft3 vol k * chi3 k (i + g) = ∑ k, fft3 vol k * chi3 k i := by
    refine Finset.sum_congr rfl fun k _ => ?_
    rw [add_comm i g, chi3_add, ← mul_assoc, hF]
  rw [h1, h2] at h3
  have hN' : ((p * m * n : ℕ) : ℂ) ≠ 0 := by exact_mod_cast hN.ne'
  exact_mod_cast mul_left_cancel₀ hN' h3

theorem xcVolume_eq (rfft norm : Bool) (hr : rfft = true → Even n) (eps : ℝ) (ref vol : Grid3 p m n → ℝ) (s : Grid3 p m n)
    (h : ∀ i, ref i = vol (i - s)) (a b c : ℕ) :
    xcVolume rfft norm eps ref vol a b c = xcAuto norm eps vol (((a : ZMod p), (b : ZMod m), (c : ZMod n)) - s) := by
  set Y : ZMod n → ℂ := fun l => (∑ k : ZMod p × ZMod m, xcSpectrum3 norm eps ref vol (k.1, k.2, l) *
    (stdAddChar (k.1 * (a : ZMod p)) * stdAddChar (k.2 * (b : ZMod m)))) / (p * m) with hY
  have hherm : ∀ l, Y (-l) = starRingEnd ℂ (Y l) := by
    intro l
    rw [hY]
    simp only [map_div₀, map_sum, map_mul, conj_char, map_natCast]
    congr 1
    rw [← Equiv.sum_comp (Equiv.neg _)]
    refine Finset.sum_congr rfl fun k _ => ?_
    have := xcSpectrum3_neg norm eps ref vol (k.1, k.2, l)
    simp only [Prod.neg_mk] at this
    simp only [Equiv.neg_apply, Prod.fst_neg, Prod.snd_neg, this, neg_mul]
  have hfull : ((∑ l, Y l * stdAddChar (l * (c : ZMod n))) / n).re = xcAuto norm eps vol (((a : ZMod p), (b : ZMod m), (c : ZMod n)) - s) := by
    have e : (∑ l, Y l * stdAddChar (l * (c : ZMod n))) / n =
        (∑ k : Grid3 p m n, (xcWeight norm eps vol k : ℂ) * chi3 k (((a : ZMod p), (b : ZMod m), (c : ZMod n)) - s)) / (p * m * n : ℕ) := by
      rw [hY]
      simp only [div_mul_eq_mul_div, Finset.sum_mul]
      rw [← Finset.sum_div, div_div]
      congr 1
      · rw [Fintype.sum_prod_type]
        simp only [Fintype.sum_prod_type]
        rw [Finset.sum_comm]
        refine Finset.sum_congr rfl fun k1 _ => ?_
        rw [Finset.sum_comm]
        refine Finset.sum_congr rfl fun k2 _ => Finset.sum_congr rfl fun l _ => ?_
        rw [xcSpectrum3_moved norm eps ref vol s h, sub_eq_neg_add, chi3_add]
        unfold chi3
        ring
      · push_cast; ring
    rw [e]
    unfold xcAuto
    have e2 : (∑ k : Grid3 p m n, (xcWeight norm eps vol k : ℂ) * chi3 k (((a : ZMod p), (b : ZMod m), (c : ZMod n)) - s)) / (p * m * n : ℕ)
        = (∑ k : Grid3 p m n, (xcWeight norm eps vol k : ℂ) * chi3 k (((a : ZMod p), (b : ZMod m), (c : ZMod n)) - s)) / (((p * m * n : ℕ) : ℝ) : ℂ) := by
      push_cast; rfl
    rw [e2, div_ofReal_re, re_sum]
    simp only [re_ofReal_mul]
  unfold xcVolume
  cases rfft with
  | false => simpa using hfull
  | true =>
    obtain ⟨k, hk⟩ := hr rfl
    have hk2 : n = 2 * k := by omega
    have hk0 : 0 < k := by have := NeZero.pos n; omega
    rw [← hfull]
    simp only [if_true]
    subst hk2
    exact irfft_even hk0 Y hherm c

/-! ## C213 -/

theorem refineIf_symmetric (d : ℕ) (y0 y1 y2 : ℝ) (h : y0 = y2) (hlt : y0 < y1) : refineIf d y0 y1 y2 = some 0 := by
  unfold refineIf
  split
  · rfl
  · exact refine_symmetric y0 y1 y2 d h hlt

theorem cast_prev (m : ℕ) [NeZero m] (a : ℕ) (s : ZMod m) (h : (a : ZMod m) = s) : (((a + m - 1) % m : ℕ) : ZMod m) - s = -1 := by
  have := NeZero.pos m
  rw [ZMod.natCast_mod, Nat.cast_sub (by omega), Nat.cast_add, ZMod.natCast_self, h]; simp

theorem cast_next (m : ℕ) [NeZero m] (a : ℕ) (s : ZMod m) (h : (a : ZMod m) = s) : (((a + 1) % m : ℕ) : ZMod m) - s = 1 := by
  rw [ZMod.natCast_mod, Nat.cast_add, h]; simp

theorem one_ne_zero_zmod (m : ℕ) (hm : 2 ≤ m) : (1 : ZMod m) ≠ 0 := by
  have : Fact (1 < m) := ⟨hm⟩
  exact one_ne_zero

theorem width_eq (rfft : Bool) (hr : rfft = true → Even n) : xcWidth rfft n = n := by
  unfold xcWidth
  split_ifs with hrt
  · obtain ⟨k, hk⟩ := hr hrt; omega
  · rfl

/-- **C213.** `fit_shifts_zyx_xc`: if the reference is the volume moved by whole voxels (around the borders), that displacement is found
exactly, with and without normalisation, for all volumes without a period, with the full transform, and with the real one if the last axis has
an even number of voxels. -/
theorem C213_volume_shift_partial (hp : 2 ≤ p) (hm : 2 ≤ m) (hn : 2 ≤ n) (rfft norm : Bool) (hr : rfft = true → Even n) (eps : ℝ) (he : 0 < eps)
    (ref vol : Grid3 p m n → ℝ) (hv : Aperiodic3 vol) (sz sy sx : ℤ) (h : IsMoved3 ref vol (sz, sy, sx))
    (hz : -(p : ℤ) ≤ 2 * sz ∧ 2 * sz < p) (hy : -(m : ℤ) ≤ 2 * sy ∧ 2 * sy < m) (hx : -(n : ℤ) ≤ 2 * sx ∧ 2 * sx < n) (d : ℕ) :
    fitShiftZYX rfft norm eps ref vol d = some ((sz : ℝ), (sy : ℝ), (sx : ℝ)) := by
  have hw := width_eq (n := n) rfft hr
  set s : Grid3 p m n := ((sz : ZMod p), (sy : ZMod m), (sx : ZMod n)) with hs
  have cc : ∀ a b c : ℕ, xcVolume rfft norm eps ref vol a b c = xcAuto norm eps vol ((a : ZMod p) - sz, (b : ZMod m) - sy, (c : ZMod n) - sx) :=
    fun a b c => xcVolume_eq rfft norm hr eps ref vol s h a b c
  set a := (sz : ZMod p).val with ha
  set b := (sy : ZMod m).val with hb
  set c := (sx : ZMod n).val with hc
  have hap : a < p := ZMod.val_lt _
  have hbm : b < m := ZMod.val_lt _
  have hcn : c < n := ZMod.val_lt _
  have hac : (a : ZMod p) = sz := by rw [ha, ZMod.natCast_zmod_val]
  have hbc : (b : ZMod m) = sy := by rw [hb, ZMod.natCast_zmod_val]
  have hcc : (c : ZMod n) = sx := by rw [hc, ZMod.natCast_zmod_val]
  have hpk : xcVolume rfft norm eps ref vol a b c = xcAuto norm eps vol 0 := by
    rw [cc, hac, hbc, hcc, sub_self, sub_self, sub_self]; rfl
  have key : ∀ q, q < p * (m * n) → (q / (m * n) = a ∧ q / n % m = b ∧ q % n = c) →
      q = a * (m * n) + (b * n + c) := by
    rintro q - ⟨h1, h2, h3⟩
    have e1 : q / n / m = a := by rw [Nat.div_div_eq_div_mul, mul_comm n m, h1]
    have e2 := Nat.div_add_mod (q / n) m
    have e3 := Nat.div_add_mod q n
    rw [e1, h2] at e2
    rw [h3, ← e2] at e3
    rw [← e3]; ring
  set q0 := a * (m * n) + (b * n + c) with hq0
  have hbn : b * n + c < m * n := by
    calc b * n + c < b * n + n := by omega
      _ = (b + 1) * n := by ring
      _ ≤ m * n := Nat.mul_le_mul_right n hbm
  have hlt : q0 < p * (m * n) := by
    calc q0 < a * (m * n) + m * n := by omega
      _ = (a + 1) * (m * n) := by ring
      _ ≤ p * (m * n) := Nat.mul_le_mul_right _ hap
  have d1 : q0 / (m * n) = a := by
    rw [hq0, mul_comm a, Nat.mul_add_div (by omega), Nat.div_eq_of_lt hbn, add_zero]
  have d0 : q0 / n = a * m + b := by
    rw [hq0, show a * (m * n) + (b * n + c) = n * (a * m + b) + c by ring, Nat.mul_add_div (by omega), Nat.div_eq_of_lt hcn, add_zero]
  have d2 : q0 / n % m = b := by
    rw [d0, mul_comm a, Nat.mul_add_mod, Nat.mod_eq_of_lt hbm]
  have d3 : q0 % n = c := by
    rw [hq0, show a * (m * n) + (b * n + c) = n * (a * m + b) + c by ring, Nat.mul_add_mod, Nat.mod_eq_of_lt hcn]
  have hpos : argmin (fun i => -xcVolume rfft norm eps ref vol (i / (m * n)) (i / n % m) (i % n)) (p * (m * n)) = q0 := by
    obtain ⟨h1, h2, -⟩ := argmin_spec (fun i => -xcVolume rfft norm eps ref vol (i / (m * n)) (i / n % m) (i % n)) (p * (m * n)) (by omega)
    set q := argmin (fun i => -xcVolume rfft norm eps ref vol (i / (m * n)) (i / n % m) (i % n)) (p * (m * n))
    have h3 := h2 q0 hlt
    rw [d1, d2, d3, hpk, cc, neg_le_neg_iff] at h3
    by_contra hne
    have g1 : q / (m * n) < p := Nat.div_lt_of_lt_mul (by rw [mul_comm]; exact h1)
    have g2 : q / n % m < m := Nat.mod_lt _ (by omega)
    have g3 : q % n < n := Nat.mod_lt _ (by omega)
    have := xcAuto_lt norm eps he vol hv (((q / (m * n) : ℕ) : ZMod p) - sz, ((q / n % m : ℕ) : ZMod m) - sy, ((q % n : ℕ) : ZMod n) - sx) (by
      intro h0
      simp only [Prod.ext_iff, Prod.fst_zero, Prod.snd_zero] at h0
      obtain ⟨z1, z2, z3⟩ := h0
      exact hne (key q h1 ⟨natCast_inj_of_lt (sz : ZMod p) g1 (sub_eq_zero.1 z1), natCast_inj_of_lt (sy : ZMod m) g2 (sub_eq_zero.1 z2),
        natCast_inj_of_lt (sx : ZMod n) g3 (sub_eq_zero.1 z3)⟩))
    linarith
  have rz : refineIf d (xcVolume rfft norm eps ref vol ((a + p - 1) % p) b c) (xcVolume rfft norm eps ref vol a b c)
      (xcVolume rfft norm eps ref vol ((a + 1) % p) b c) = some 0 := by
    apply refineIf_symmetric
    · rw [cc, cc, cast_prev p a _ hac, cast_next p a _ hac, hbc, hcc, sub_self, sub_self]
      have := xcAuto_neg norm eps vol ((1, 0, 0) : Grid3 p m n)
      simpa using this
    · rw [hpk, cc, cast_prev p a _ hac]
      exact xcAuto_lt norm eps he vol hv _ (fun h => one_ne_zero_zmod p hp (neg_eq_zero.1 (congrArg Prod.fst h)))
  have ry : refineIf d (xcVolume rfft norm eps ref vol a ((b + m - 1) % m) c) (xcVolume rfft norm eps ref vol a b c)
      (xcVolume rfft norm eps ref vol a ((b + 1) % m) c) = some 0 := by
    apply refineIf_symmetric
    · rw [cc, cc, cast_prev m b _ hbc, cast_next m b _ hbc, hac, hcc, sub_self, sub_self]
      have := xcAuto_neg norm eps vol ((0, 1, 0) : Grid3 p m n)
      simpa using this
    · rw [hpk, cc, cast_prev m b _ hbc]
      exact xcAuto_lt norm eps he vol hv _ (fun h => one_ne_zero_zmod m hm (neg_eq_zero.1 (congrArg (fun g => g.2.1) h)))
  have rx : refineIf d (xcVolume rfft norm eps ref vol a b ((c + n - 1) % n)) (xcVolume rfft norm eps ref vol a b c)
      (xcVolume rfft norm eps ref vol a b ((c + 1) % n)) = some 0 := by
    apply refineIf_symmetric
    · rw [cc, cc, cast_prev n c _ hcc, cast_next n c _ hcc, hac, hbc, sub_self, sub_self]
      have := xcAuto_neg norm eps vol ((0, 0, 1) : Grid3 p m n)
      simpa using this
    · rw [hpk, cc, cast_prev n c _ hcc]
      exact xcAuto_lt norm eps he vol hv _ (fun h => one_ne_zero_zmod n hn (neg_eq_zero.1 (congrArg (fun g => g.2.2) h)))
  unfold fitShiftZYX
  simp only [hw, hpos, d1, d2, d3, rz, ry, rx, Option.bind_eq_bind, Option.bind_some]
  rw [ha, hb, hc, fftfreq_val sz hz.1 hz.2, fftfreq_val sy hy.1 hy.2, fftfreq_val sx hx.1 hx.2]
  simp

end

/-- **C213.** `fit_shifts_vu_xc` with normalisation (`normalize_fourier`), or without: the same for images, of which the data is the other one
moved by whole pixels. -/
theorem C213_image_shift_partial {m n : ℕ} [NeZero m] [NeZero n] (hm : 2 ≤ m) (hn : 2 ≤ n) (rfft norm : Bool) (hr : rfft = true → Even n) (eps : ℝ) (he : 0 < eps)
    (data proj : ZMod m → ZMod n → ℝ) (hp : Aperiodic proj) (sv su : ℤ) (h : IsShifted data proj sv su)
    (hv : -(m : ℤ) ≤ 2 * sv ∧ 2 * sv < m) (hu : -(n : ℤ) ≤ 2 * su ∧ 2 * su < n) (d : ℕ) :
    fitShiftVUN rfft norm eps data proj d = some ((sv : ℝ), (su : ℝ)) := by
  have hw := width_eq (n := n) rfft hr
  have hap : Aperiodic3 (slice3 proj) := by
    intro g hg
    have h1 := hp g.2.1 g.2.2 (fun i j => hg (0, i, j))
    exact Prod.ext (Subsingleton.elim _ _) (Prod.ext h1.1 h1.2)
  have cc : ∀ a b : ℕ, xcVolume rfft norm eps (slice3 data) (slice3 proj) 0 a b
      = xcAuto norm eps (slice3 proj) (0, (a : ZMod m) - sv, (b : ZMod n) - su) := by
    intro a b
    rw [xcVolume_eq rfft norm hr eps (slice3 data) (slice3 proj) (0, (sv : ZMod m), (su : ZMod n)) (fun i => h i.2.1 i.2.2) 0 a b]
    congr 1
  set a := (sv : ZMod m).val with ha
  set b := (su : ZMod n).val with hb
  have ham : a < m := ZMod.val_lt _
  have hbn : b < n := ZMod.val_lt _
  have hac : (a : ZMod m) = sv := by rw [ha, ZMod.natCast_zmod_val]
  have hbc : (b : ZMod n) = su := by rw [hb, ZMod.natCast_zmod_val]
  have hpk : xcVolume rfft norm eps (slice3 data) (slice3 proj) 0 a b = xcAuto norm eps (slice3 proj) 0 := by
    rw [cc, hac, hbc, sub_self, sub_self]; rfl
  have e1 : (a * n + b) / n = a := by
    rw [mul_comm, Nat.mul_add_div (by omega), Nat.div_eq_of_lt hbn, add_zero]
  have e2 : (a * n + b) % n = b := by rw [mul_comm, Nat.mul_add_mod, Nat.mod_eq_of_lt hbn]
  have hpos : argmin (fun i => -xcVolume rfft norm eps (slice3 data) (slice3 proj) 0 (i / n) (i % n)) (m * n) = a * n + b := by
    have hlt : a * n + b < m * n := by
      calc a * n + b < a * n + n := by omega
        _ = (a + 1) * n := by ring
        _ ≤ m * n := Nat.mul_le_mul_right n ham
    obtain ⟨h1, h2, -⟩ := argmin_spec (fun i => -xcVolume rfft norm eps (slice3 data) (slice3 proj) 0 (i / n) (i % n)) (m * n) (by omega)
    set q := argmin (fun i => -xcVolume rfft norm eps (slice3 data) (slice3 proj) 0 (i / n) (i % n)) (m * n)
    have h3 := h2 (a * n + b) hlt
    rw [e1, e2, hpk, cc, neg_le_neg_iff] at h3
    by_contra hne
    have hpm : q / n < m := Nat.div_lt_of_lt_mul (by rw [mul_comm]; exact h1)
    have hpn : q % n < n := Nat.mod_lt _ (by omega)
    have := xcAuto_lt norm eps he (slice3 proj) hap (0, ((q / n : ℕ) : ZMod m) - sv, ((q % n : ℕ) : ZMod n) - su) (by
      intro h0
      simp only [Prod.ext_iff, Prod.fst_zero, Prod.snd_zero] at h0
      obtain ⟨-, z1, z2⟩ := h0
      have w1 := natCast_inj_of_lt (sv : ZMod m) hpm (sub_eq_zero.1 z1)
      have w2 := natCast_inj_of_lt (su : ZMod n) hpn (sub_eq_zero.1 z2)
      apply hne
      rw [← Nat.div_add_mod q n, w1, w2, mul_comm])
    linarith
  have rv : refineIf d (xcVolume rfft norm eps (slice3 data) (slice3 proj) 0 ((a + m - 1) % m) b) (xcVolume rfft norm eps (slice3 data) (slice3 proj) 0 a b)
      (xcVolume rfft norm eps (slice3 data) (slice3 proj) 0 ((a + 1) % m) b) = some 0 := by
    apply refineIf_symmetric
    · rw [cc, cc, cast_prev m a _ hac, cast_next m a _ hac, hbc, sub_self]
      have := xcAuto_neg norm eps (slice3 proj) ((0, 1, 0) : Grid3 1 m n)
      simpa using this
    · rw [hpk, cc, cast_prev m a _ hac]
      exact xcAuto_lt norm eps he (slice3 proj) hap _ (fun h => one_ne_zero_zmod m hm (neg_eq_zero.1 (congrArg (fun g => g.2.1) h)))
  have ru : refineIf d (xcVolume rfft norm eps (slice3 data) (slice3 proj) 0 a ((b + n - 1) % n)) (xcVolume rfft norm eps (slice3 data) (slice3 proj) 0 a b)
      (xcVolume rfft norm eps (slice3 data) (slice3 proj) 0 a ((b + 1) % n)) = some 0 := by
    apply refineIf_symmetric
    · rw [cc, cc, cast_prev n b _ hbc, cast_next n b _ hbc, hac, sub_self]
      have := xcAuto_neg norm eps (slice3 proj) ((0, 0, 1) : Grid3 1 m n)
      simpa using this
    · rw [hpk, cc, cast_prev n b _ hbc]
      exact xcAuto_lt norm eps he (slice3 proj) hap _ (fun h => one_ne_zero_zmod n hn (neg_eq_zero.1 (congrArg (fun g => g.2.2) h)))
  unfold fitShiftVUN
  simp only [hw, hpos, e1, e2, rv, ru, Option.bind_eq_bind, Option.bind_some]
  rw [ha, hb, fftfreq_val sv hv.1 hv.2, fftfreq_val su hu.1 hu.2]
  simp

/-- The volumes of the counterexample: a single voxel, at `x = 0` or `x = 1` of 3. -/
private noncomputable def pointVol (x0 : ZMod 3) : Grid3 2 2 3 → ℝ := fun i => if i = (0, 0, x0) then 1 else 0

private theorem pointVol_aperiodic : Aperiodic3 (pointVol 1) := by
  intro g hg
  have h0 := hg (0, 0, 1)
  unfold pointVol at h0
  rw [if_pos rfl] at h0
  by_contra hne
  rw [if_neg] at h0
  · norm_num at h0
  · intro h2
    exact hne (by simpa using h2)

private theorem fft3_point (x0 : ZMod 3) (k : Grid3 2 2 3) : fft3 (pointVol x0) k = stdAddChar (-(k.2.2 * x0)) := by
  unfold fft3 pointVol
  rw [Finset.sum_eq_single ((0, 0, x0) : Grid3 2 2 3)]
  · simp [chi3]
  · intro i _ hi; simp [hi]
  · simp

private theorem point_fit : fitShiftZYX true true 1 (pointVol 0) (pointVol 1) 2 = some (0, 0, 1) := by
  have hS : ∀ k : Grid3 2 2 3, xcSpectrum3 true 1 (pointVol 0) (pointVol 1) k = stdAddChar k.2.2 := by
    intro k
    unfold xcSpectrum3 normSpectrum
    rw [fft3_point, fft3_point, conj_char, mul_zero, neg_zero, AddChar.map_zero_eq_one, one_mul, neg_neg, mul_one]
    have : ‖(stdAddChar k.2.2 : ℂ)‖ = 1 := AddChar.norm_apply _ _
    rw [this]
    simp
  have hY : ∀ (a b : ℕ) (l : ZMod 3), (∑ k : ZMod 2 × ZMod 2, xcSpectrum3 true 1 (pointVol 0) (pointVol 1) (k.1, k.2, l) *
      (stdAddChar (k.1 * (a : ZMod 2)) * stdAddChar (k.2 * (b : ZMod 2)))) / (((2 : ℕ) : ℂ) * ((2 : ℕ) : ℂ)) =
      if (a : ZMod 2) = 0 ∧ (b : ZMod 2) = 0 then stdAddChar l else 0 := by
    intro a b l
    simp only [hS, Fintype.sum_prod_type]
    have e : ∑ x : ZMod 2, ∑ y : ZMod 2, (stdAddChar l : ℂ) * (stdAddChar (x * (a : ZMod 2)) * stdAddChar (y * (b : ZMod 2))) =
        stdAddChar l * ((∑ x : ZMod 2, stdAddChar (x * (a : ZMod 2))) * ∑ y : ZMod 2, stdAddChar (y * (b : ZMod 2))) := by
      rw [Finset.sum_mul_sum, Finset.mul_sum]
      refine Finset.sum_congr rfl fun x _ => ?_
      rw [Finset.mul_sum]
    rw [e, char_sum, char_sum]
    by_cases h1 : (a : ZMod 2) = 0 <;> by_cases h2 : (b : ZMod 2) = 0 <;> simp [h1, h2] <;> ring
  have e1 : (stdAddChar (((1 : ℕ)) : ZMod 3) : ℂ).re = -1 / 2 := by
    have e := stdAddChar_coe (N := 3) (1 : ℤ)
    have e' : (stdAddChar (((1 : ℕ)) : ZMod 3) : ℂ) = exp (((2 * Real.pi / 3 : ℝ) : ℂ) * I) := by
      push_cast at e ⊢
      rw [e]; congr 1; ring
    rw [e', exp_ofReal_mul_I_re, show (2 * Real.pi / 3 : ℝ) = Real.pi - Real.pi / 3 by ring, Real.cos_pi_sub, Real.cos_pi_div_three]
    norm_num
  have e0 : (stdAddChar (((0 : ℕ)) : ZMod 3) : ℂ).re = 1 := by simp
  have hcc : ∀ a b c : ℕ, xcVolume true true 1 (pointVol 0) (pointVol 1) a b c =
      if (a : ZMod 2) = 0 ∧ (b : ZMod 2) = 0 then (1 + (-1) ^ c * (-1 / 2)) / 2 else 0 := by
    intro a b c
    unfold xcVolume
    simp only [if_true, hY]
    by_cases hab : (a : ZMod 2) = 0 ∧ (b : ZMod 2) = 0
    · simp only [if_pos hab]
      unfold irfftDefault
      rw [e0, show 3 / 2 = 1 from rfl, e1]
      norm_num
    · simp only [if_neg hab]
      unfold irfftDefault
      simp
  have c00 : ∀ c, xcVolume true true 1 (pointVol 0) (pointVol 1) 0 0 c = (1 + (-1) ^ c * (-1 / 2)) / 2 := fun c => by
    rw [hcc, if_pos ⟨by simp, by simp⟩]
  have c01 : ∀ c, xcVolume true true 1 (pointVol 0) (pointVol 1) 0 1 c = 0 := fun c => by
    rw [hcc, if_neg (by rintro ⟨-, h⟩; revert h; decide)]
  have c1 : ∀ b c, xcVolume true true 1 (pointVol 0) (pointVol 1) 1 b c = 0 := fun b c => by
    rw [hcc, if_neg (by rintro ⟨h, -⟩; revert h; decide)]
  have ham : argmin (fun i => -xcVolume true true 1 (pointVol 0) (pointVol 1) (i / (2 * 2)) (i / 2 % 2) (i % 2)) (2 * (2 * 2)) = 1 := by
    refine argmax_unique (fun i => xcVolume true true 1 (pointVol 0) (pointVol 1) (i / (2 * 2)) (i / 2 % 2) (i % 2)) (2 * (2 * 2)) 1 (by norm_num) ?_ ?_
    · intro i hi
      have : i = 0 ∨ i = 1 ∨ i = 2 ∨ i = 3 ∨ i = 4 ∨ i = 5 ∨ i = 6 ∨ i = 7 := by omega
      rcases this with rfl | rfl | rfl | rfl | rfl | rfl | rfl | rfl <;> norm_num [c00, c01, c1]
    · intro i hi
      obtain rfl : i = 0 := by omega
      norm_num [c00]
  unfold fitShiftZYX
  have hw : xcWidth true 3 = 2 := rfl
  simp only [hw, ham]
  have r1 : refineIf 2 (0 : ℝ) (3 / 4) 0 = some 0 := refineIf_symmetric _ _ _ _ rfl (by norm_num)
  have r2 : refineIf 2 (1 / 4 : ℝ) (3 / 4) (1 / 4) = some 0 := refineIf_symmetric _ _ _ _ rfl (by norm_num)
  norm_num [c00, c01, c1, r1, r2, fftfreq]

/-- **C213 (violated).** With the default options, the displacement of volumes is found whatever the number of voxels along the axes: it is not
for an odd number of voxels along the last axis. Here a displacement of -1 is taken for +1. -/
theorem C213_odd_size_violated :
    ¬ ∀ (p m n : ℕ) (_ : NeZero p) (_ : NeZero m) (_ : NeZero n) (ref vol : Grid3 p m n → ℝ) (sz sy sx : ℤ) (d : ℕ) (eps : ℝ),
      2 ≤ p → 2 ≤ m → 2 ≤ n → 0 < eps → eps ≤ 1 → Aperiodic3 vol → IsMoved3 ref vol (sz, sy, sx) → 2 * |sz| < p → 2 * |sy| < m → 2 * |sx| < n →
        fitShiftZYX true true eps ref vol d = some ((sz : ℝ), (sy : ℝ), (sx : ℝ)) := by
  intro h
  have h1 := h 2 2 3 inferInstance inferInstance inferInstance (pointVol 0) (pointVol 1) 0 0 (-1) 2 1 le_rfl le_rfl (by norm_num) one_pos le_rfl
    pointVol_aperiodic
    (by
      intro i
      unfold pointVol
      congr 1
      simp only [eq_iff_iff]
      obtain ⟨i1, i2, i3⟩ := i
      revert i1 i2 i3
      decide)
    (by norm_num) (by norm_num) (by norm_num)
  rw [point_fit] at h1
  have := congrArg (fun t : ℝ × ℝ × ℝ => t.2.2) (Option.some.inj h1)
  norm_num at this

/-! ## C214 -/

theorem sum_fin_moved {s : ℕ} (f : ℤ → ℝ) (t : ℤ) (hf : ∀ k, f k ≠ 0 → 0 ≤ k ∧ k < s) (hg : ∀ k, f (k - t) ≠ 0 → 0 ≤ k ∧ k < s) :
    ∑ i : Fin s, f ((i : ℕ) - t) = ∑ i : Fin s, f (i : ℕ) := by
  have big : ∀ F : ℤ → ℝ, (∀ k, F k ≠ 0 → 0 ≤ k ∧ k < s) → ∑ i : Fin s, F (i : ℕ) = ∑ᶠ k : ℤ, F k := by
    intro F hF
    have e1 : ∑ i : Fin s, F (i : ℕ) = ∑ i ∈ Finset.range s, F (i : ℕ) := (Finset.sum_range fun i => F (i : ℕ)).symm
    rw [e1, finsum_eq_sum_of_support_subset (s := (Finset.range s).map ⟨fun i : ℕ => (i : ℤ), Nat.cast_injective⟩)]
    · rw [Finset.sum_map]; rfl
    · intro k hk
      obtain ⟨h1, h2⟩ := hF k hk
      simp only [Finset.coe_map, Function.Embedding.coeFn_mk, Set.mem_image, Finset.mem_coe, Finset.mem_range]
      exact ⟨k.toNat, by omega, by omega⟩
  rw [big f hf, big (fun k => f (k - t)) hg]
  exact finsum_comp_equiv (Equiv.subRight t)

/-- The values of an object at the voxels of a volume of shape `(p, m, n)`. -/
def sampleVol (p m n : ℕ) (f : ℤ → ℤ → ℤ → ℝ) : Fin p → Fin m → Fin n → ℝ := fun i j k => f (i : ℕ) (j : ℕ) (k : ℕ)

/-- The object is inside the volume. -/
def InVolume (p m n : ℕ) (f : ℤ → ℤ → ℤ → ℝ) : Prop := ∀ i j k, f i j k ≠ 0 → (0 ≤ i ∧ i < p) ∧ (0 ≤ j ∧ j < m) ∧ (0 ≤ k ∧ k < n)

/-- **C214.** The centre of mass of a volume moves with the object. -/
theorem C214_com_volume_moves {p m n : ℕ} (f g : ℤ → ℤ → ℤ → ℝ) (hf : InVolume p m n f) (hg : InVolume p m n g) (tz ty tx : ℤ)
    (h : ∀ i j k, g i j k = f (i - tz) (j - ty) (k - tx)) (hne : ∃ i j k, f i j k ≠ 0) :
    comVolume (sampleVol p m n g) - comVolume (sampleVol p m n f) = ⟨tx, ty, tz⟩ := by
  have hg' : ∀ i j k, f (i - tz) (j - ty) (k - tx) ≠ 0 → (0 ≤ i ∧ i < p) ∧ (0 ≤ j ∧ j < m) ∧ (0 ≤ k ∧ k < n) := fun i j k hh => hg i j k (by rwa [h])
  obtain ⟨i0, j0, k0, h0⟩ := hne
  obtain ⟨⟨hi1, hi2⟩, ⟨hj1, hj2⟩, ⟨hk1, hk2⟩⟩ := hf i0 j0 k0 h0
  -- the sums over the other axes, as functions of the integers
  have sumk : ∀ i j, ∑ k : Fin n, |f i j ((k : ℕ) - tx)| = ∑ k : Fin n, |f i j (k : ℕ)| := fun i j =>
    sum_fin_moved (fun k => |f i j k|) tx (fun k hk => (hf i j k (abs_ne_zero.1 hk)).2.2) (fun k hk => by
      have h1 := hg' (i + tz) (j + ty) k (by rw [add_sub_cancel_right, add_sub_cancel_right]; exact abs_ne_zero.1 hk)
      exact h1.2.2)
  have sumj : ∀ i k, ∑ j : Fin m, |f i ((j : ℕ) - ty) k| = ∑ j : Fin m, |f i (j : ℕ) k| := fun i k =>
    sum_fin_moved (fun j => |f i j k|) ty (fun j hj => (hf i j k (abs_ne_zero.1 hj)).2.1) (fun j hj => by
      have h1 := hg' (i + tz) j (k + tx) (by rw [add_sub_cancel_right, add_sub_cancel_right]; exact abs_ne_zero.1 hj)
      exact h1.2.1)
  have sumi : ∀ j k, ∑ i : Fin p, |f ((i : ℕ) - tz) j k| = ∑ i : Fin p, |f (i : ℕ) j k| := fun j k =>
    sum_fin_moved (fun i => |f i j k|) tz (fun i hi => (hf i j k (abs_ne_zero.1 hi)).1) (fun i hi => by
      have h1 := hg' i (j + ty) (k + tx) (by rw [add_sub_cancel_right, add_sub_cancel_right]; exact abs_ne_zero.1 hi)
      exact h1.1)
  have exists_ne : ∀ {s : ℕ} (F : Fin s → ℝ), ∑ i, F i ≠ 0 → ∃ i, F i ≠ 0 := fun F hF => by
    by_contra hc
    push Not at hc
    exact hF (Finset.sum_eq_zero fun i _ => hc i)
  have ez : comLine (fun i : Fin p => ∑ j : Fin m, ∑ k : Fin n, |g (i : ℕ) (j : ℕ) (k : ℕ)|)
      = comLine (fun i : Fin p => ∑ j : Fin m, ∑ k : Fin n, |f (i : ℕ) (j : ℕ) (k : ℕ)|) + tz := by
    refine C101_com_moves (fun i => ∑ j : Fin m, ∑ k : Fin n, |f i (j : ℕ) (k : ℕ)|) (fun i => ∑ j : Fin m, ∑ k : Fin n, |g i (j : ℕ) (k : ℕ)|)
      (fun i hi => ?_) (fun i hi => ?_) tz (fun i => ?_) ?_
    · obtain ⟨j, hj⟩ := exists_ne _ hi
      obtain ⟨k, hk⟩ := exists_ne _ hj
      exact (hf _ _ _ (abs_ne_zero.1 hk)).1
    · obtain ⟨j, hj⟩ := exists_ne _ hi
      obtain ⟨k, hk⟩ := exists_ne _ hj
      exact (hg _ _ _ (abs_ne_zero.1 hk)).1
    · simp only [h, sumk]
      rw [Finset.sum_comm, Finset.sum_comm (f := fun (j : Fin m) (k : Fin n) => |f (i - tz) (j : ℕ) (k : ℕ)|)]
      exact Finset.sum_congr rfl fun k _ => sumj _ _
    · refine (Finset.sum_pos' (fun i _ => Finset.sum_nonneg fun j _ => Finset.sum_nonneg fun k _ => abs_nonneg _) ⟨⟨i0.toNat, by omega⟩, Finset.mem_univ _, ?_⟩).ne'
      refine Finset.sum_pos' (fun j _ => Finset.sum_nonneg fun k _ => abs_nonneg _) ⟨⟨j0.toNat, by omega⟩, Finset.mem_univ _, ?_⟩
      refine Finset.sum_pos' (fun k _ => abs_nonneg _) ⟨⟨k0.toNat, by omega⟩, Finset.mem_univ _, ?_⟩
      simp only [Int.toNat_of_nonneg hi1, Int.toNat_of_nonneg hj1, Int.toNat_of_nonneg hk1]
      exact abs_pos.2 h0
  have ey : comLine (fun j : Fin m => ∑ i : Fin p, ∑ k : Fin n, |g (i : ℕ) (j : ℕ) (k : ℕ)|)
      = comLine (fun j : Fin m => ∑ i : Fin p, ∑ k : Fin n, |f (i : ℕ) (j : ℕ) (k : ℕ)|) + ty := by
    refine C101_com_moves (fun j => ∑ i : Fin p, ∑ k : Fin n, |f (i : ℕ) j (k : ℕ)|) (fun j => ∑ i : Fin p, ∑ k : Fin n, |g (i : ℕ) j (k : ℕ)|)
      (fun j hj => ?_) (fun j hj => ?_) ty (fun j => ?_) ?_
    · obtain ⟨i, hi⟩ := exists_ne _ hj
      obtain ⟨k, hk⟩ := exists_ne _ hi
      exact (hf _ _ _ (abs_ne_zero.1 hk)).2.1
    · obtain ⟨i, hi⟩ := exists_ne _ hj
      obtain ⟨k, hk⟩ := exists_ne _ hi
      exact (hg _ _ _ (abs_ne_zero.1 hk)).2.1
    · simp only [h, sumk]
      rw [Finset.sum_comm, Finset.sum_comm (f := fun (i : Fin p) (k : Fin n) => |f (i : ℕ) (j - ty) (k : ℕ)|)]
      exact Finset.sum_congr rfl fun k _ => sumi _ _
    · refine (Finset.sum_pos' (fun j _ => Finset.sum_nonneg fun i _ => Finset.sum_nonneg fun k _ => abs_nonneg _) ⟨⟨j0.toNat, by omega⟩, Finset.mem_univ _, ?_⟩).ne'
      refine Finset.sum_pos' (fun i _ => Finset.sum_nonneg fun k _ => abs_nonneg _) ⟨⟨i0.toNat, by omega⟩, Finset.mem_univ _, ?_⟩
      refine Finset.sum_pos' (fun k _ => abs_nonneg _) ⟨⟨k0.toNat, by omega⟩, Finset.mem_univ _, ?_⟩
      simp only [Int.toNat_of_nonneg hi1, Int.toNat_of_nonneg hj1, Int.toNat_of_nonneg hk1]
      exact abs_pos.2 h0
  have ex : comLine (fun k : Fin n => ∑ i : Fin p, ∑ j : Fin m, |g (i : ℕ) (j : ℕ) (k : ℕ)|)
      = comLine (fun k : Fin n => ∑ i : Fin p, ∑ j : Fin m, |f (i : ℕ) (j : ℕ) (k : ℕ)|) + tx := by
    refine C101_com_moves (fun k => ∑ i : Fin p, ∑ j : Fin m, |f (i : ℕ) (j : ℕ) k|) (fun k => ∑ i : Fin p, ∑ j : Fin m, |g (i : ℕ) (j : ℕ) k|)
      (fun k hk => ?_) (fun k hk => ?_) tx (fun k => ?_) ?_
    · obtain ⟨i, hi⟩ := exists_ne _ hk
      obtain ⟨j, hj⟩ := exists_ne _ hi
      exact (hf _ _ _ (abs_ne_zero.1 hj)).2.2
    · obtain ⟨i, hi⟩ := exists_ne _ hk
      obtain ⟨j, hj⟩ := exists_ne _ hi
      exact (hg _ _ _ (abs_ne_zero.1 hj)).2.2
    · simp only [h, sumj]
      rw [Finset.sum_comm, Finset.sum_comm (f := fun (i : Fin p) (j : Fin m) => |f (i : ℕ) (j : ℕ) (k - tx)|)]
      exact Finset.sum_congr rfl fun j _ => sumi _ _
    · refine (Finset.sum_pos' (fun k _ => Finset.sum_nonneg fun i _ => Finset.sum_nonneg fun j _ => abs_nonneg _) ⟨⟨k0.toNat, by omega⟩, Finset.mem_univ _, ?_⟩).ne'
      refine Finset.sum_pos' (fun i _ => Finset.sum_nonneg fun j _ => abs_nonneg _) ⟨⟨i0.toNat, by omega⟩, Finset.mem_univ _, ?_⟩
      refine Finset.sum_pos' (fun j _ => abs_nonneg _) ⟨⟨j0.toNat, by omega⟩, Finset.mem_univ _, ?_⟩
      simp only [Int.toNat_of_nonneg hi1, Int.toNat_of_nonneg hj1, Int.toNat_of_nonneg hk1]
      exact abs_pos.2 h0
  have hz : (comVolume (sampleVol p m n g)).z = (comVolume (sampleVol p m n f)).z + tz := ez
  have hy : (comVolume (sampleVol p m n g)).y = (comVolume (sampleVol p m n f)).y + ty := ey
  have hx : (comVolume (sampleVol p m n g)).x = (comVolume (sampleVol p m n f)).x + tx := ex
  ext
  · simp [hx]
  · simp [hy]
  · simp [hz]

theorem residue_moved {p : ℕ} [NeZero p] (i : ZMod p) (t : ℤ) :
    ∃ c : ℤ, ((i - (t : ZMod p)).val : ℤ) + t = (i.val : ℤ) + c * p := by
  have : (((((i - (t : ZMod p)).val : ℤ) + t : ℤ)) : ZMod p) = ((i.val : ℤ) : ZMod p) := by
    push_cast
    rw [ZMod.natCast_zmod_val, ZMod.natCast_zmod_val, sub_add_cancel]
  rw [ZMod.intCast_eq_intCast_iff_dvd_sub] at this
  obtain ⟨c, hc⟩ := this
  exact ⟨-c, by linear_combination -hc⟩

theorem residue_moved_eq {p : ℕ} [NeZero p] (i : ZMod p) (t : ℤ) :
    ((0 ≤ ((i - (t : ZMod p)).val : ℤ) + t ∧ ((i - (t : ZMod p)).val : ℤ) + t < p) → ((i - (t : ZMod p)).val : ℤ) + t = i.val) ∧
    ((0 ≤ (i.val : ℤ) - t ∧ (i.val : ℤ) - t < p) → (i.val : ℤ) - t = (i - (t : ZMod p)).val) := by
  obtain ⟨c, hc⟩ := residue_moved i t
  have h1 : (i.val : ℤ) < p := by exact_mod_cast ZMod.val_lt i
  have h2 : ((i - (t : ZMod p)).val : ℤ) < p := by exact_mod_cast ZMod.val_lt _
  have h3 : (0 : ℤ) ≤ i.val := Int.natCast_nonneg _
  have h4 : (0 : ℤ) ≤ (i - (t : ZMod p)).val := Int.natCast_nonneg _
  have hp : (0 : ℤ) < p := by exact_mod_cast NeZero.pos p
  constructor
  · rintro ⟨a, b⟩
    rw [hc] at a b ⊢
    have : c = 0 := by
      have u1 : -1 < c := by by_contra hh; push Not at hh; nlinarith
      have u2 : c < 1 := by by_contra hh; push Not at hh; nlinarith
      omega
    rw [this]; ring
  · rintro ⟨a, b⟩
    have : c = 0 := by
      have u1 : -1 < c := by by_contra hh; push Not at hh; nlinarith
      have u2 : c < 1 := by by_contra hh; push Not at hh; nlinarith
      omega
    rw [this] at hc
    linarith

theorem isMoved_sample {p m n : ℕ} [NeZero p] [NeZero m] [NeZero n] (f g : ℤ → ℤ → ℤ → ℝ) (hf : InVolume p m n f) (hg : InVolume p m n g)
    (tz ty tx : ℤ) (h : ∀ i j k, g i j k = f (i - tz) (j - ty) (k - tx)) :
    IsMoved3 (toGrid (sampleVol p m n g)) (toGrid (sampleVol p m n f)) (tz, ty, tx) := by
  rintro ⟨i, j, k⟩
  show g (i.val : ℤ) (j.val : ℤ) (k.val : ℤ) = f ((i - (tz : ZMod p)).val : ℤ) ((j - (ty : ZMod m)).val : ℤ) ((k - (tx : ZMod n)).val : ℤ)
  obtain ⟨i1, i2⟩ := residue_moved_eq i tz
  obtain ⟨j1, j2⟩ := residue_moved_eq j ty
  obtain ⟨k1, k2⟩ := residue_moved_eq k tx
  by_cases hF : f ((i - (tz : ZMod p)).val : ℤ) ((j - (ty : ZMod m)).val : ℤ) ((k - (tx : ZMod n)).val : ℤ) = 0
  · rw [hF]
    by_contra hG
    have hG' := hG
    rw [h] at hG'
    obtain ⟨a, b, c⟩ := hf _ _ _ hG'
    rw [i2 a, j2 b, k2 c] at hG'
    exact hG' hF
  · have hG : g (((i - (tz : ZMod p)).val : ℤ) + tz) (((j - (ty : ZMod m)).val : ℤ) + ty) (((k - (tx : ZMod n)).val : ℤ) + tx) ≠ 0 := by
      rw [h]
      simpa using hF
    obtain ⟨a, b, c⟩ := hg _ _ _ hG
    have e := h (((i - (tz : ZMod p)).val : ℤ) + tz) (((j - (ty : ZMod m)).val : ℤ) + ty) (((k - (tx : ZMod n)).val : ℤ) + tx)
    rw [i1 a, j1 b, k1 c] at e
    rw [e, ← i1 a, ← j1 b, ← k1 c]
    simp

/-- **C214 (partial).** Re-centring on a reference volume that shows the object displaced by whole voxels: the methods "com" and "xc" give the
same shifts, those of the displacement, for an even number of voxels along the last axis and objects without a period. -/
theorem C214_methods_agree_partial {p m n : ℕ} [NeZero p] [NeZero m] [NeZero n] (hp : 2 ≤ p) (hm : 2 ≤ m) (hn : 2 ≤ n) (hev : Even n) (eps : ℝ) (he : 0 < eps)
    (u v : V3) (shifts : ℝ × ℝ) (f g : ℤ → ℤ → ℤ → ℝ) (hf : InVolume p m n f) (hg : InVolume p m n g) (tz ty tx : ℤ)
    (h : ∀ i j k, g i j k = f (i - tz) (j - ty) (k - tx)) (ha : Aperiodic3 (toGrid (sampleVol p m n f)))
    (hz : 2 * |tz| < p) (hy : 2 * |ty| < m) (hx : 2 * |tx| < n) (d : ℕ) :
    recentreAsReference eps u v shifts (sampleVol p m n f) (sampleVol p m n g) .xc d =
      recentreAsReference eps u v shifts (sampleVol p m n f) (sampleVol p m n g) .com d ∧
    recentreAsReference eps u v shifts (sampleVol p m n f) (sampleVol p m n g) .com d =
      some (around d (shifts.1 + V3.dot v ⟨tx, ty, tz⟩), around d (shifts.2 + V3.dot u ⟨tx, ty, tz⟩)) := by
  have hne : ∃ i j k, f i j k ≠ 0 := by
    by_contra hc
    push Not at hc
    have h1 := ha (1, 0, 0) (fun i => by simp [toGrid, sampleVol, hc])
    exact one_ne_zero_zmod p hp (congrArg Prod.fst h1)
  have hcom : recentreAsReference eps u v shifts (sampleVol p m n f) (sampleVol p m n g) .com d =
      some (around d (shifts.1 + V3.dot v ⟨tx, ty, tz⟩), around d (shifts.2 + V3.dot u ⟨tx, ty, tz⟩)) := by
    unfold recentreAsReference recentreToCom
    simp only
    rw [C214_com_volume_moves f g hf hg tz ty tx h hne]
    rfl
  refine ⟨?_, hcom⟩
  rw [hcom]
  have hfit := C213_volume_shift_partial hp hm hn true true (fun _ => hev) eps he _ _ ha tz ty tx (isMoved_sample f g hf hg tz ty tx h)
    (by rw [abs_eq_max_neg] at hz; omega) (by rw [abs_eq_max_neg] at hy; omega) (by rw [abs_eq_max_neg] at hx; omega) d
  unfold recentreAsReference
  simp only
  rw [hfit]
  rfl

/-- **C214 (violated).** The same for all sizes: not for an odd number of voxels along the last axis. -/
theorem C214_methods_agree_violated :
    ¬ ∀ (p m n : ℕ) (_ : NeZero p) (_ : NeZero m) (_ : NeZero n) (eps : ℝ) (u v : V3) (shifts : ℝ × ℝ) (f g : ℤ → ℤ → ℤ → ℝ) (tz ty tx : ℤ) (d : ℕ),
      2 ≤ p → 2 ≤ m → 2 ≤ n → 0 < eps → eps ≤ 1 → InVolume p m n f → InVolume p m n g →
      (∀ i j k, g i j k = f (i - tz) (j - ty) (k - tx)) → Aperiodic3 (toGrid (sampleVol p m n f)) → 2 * |tz| < p → 2 * |ty| < m → 2 * |tx| < n →
      recentreAsReference eps u v shifts (sampleVol p m n f) (sampleVol p m n g) .xc d =
        recentreAsReference eps u v shifts (sampleVol p m n f) (sampleVol p m n g) .com d := by
  intro h
  have hf : InVolume 2 2 3 (fun i j k => if i = 0 ∧ j = 0 ∧ k = 1 then 1 else 0) := by
    intro i j k hh
    by_cases hc : i = 0 ∧ j = 0 ∧ k = 1
    · omega
    · simp [hc] at hh
  have hg : InVolume 2 2 3 (fun i j k => if i = 0 ∧ j = 0 ∧ k = 0 then 1 else 0) := by
    intro i j k hh
    by_cases hc : i = 0 ∧ j = 0 ∧ k = 0
    · omega
    · simp [hc] at hh
  have e1 : toGrid (sampleVol 2 2 3 (fun i j k => if i = 0 ∧ j = 0 ∧ k = 1 then 1 else 0)) = pointVol 1 := by
    funext i
    unfold toGrid sampleVol pointVol
    simp only
    congr 1
    simp only [eq_iff_iff]
    obtain ⟨i1, i2, i3⟩ := i
    revert i1 i2 i3
    decide
  have e0 : toGrid (sampleVol 2 2 3 (fun i j k => if i = 0 ∧ j = 0 ∧ k = 0 then 1 else 0)) = pointVol 0 := by
    funext i
    unfold toGrid sampleVol pointVol
    simp only
    congr 1
    simp only [eq_iff_iff]
    obtain ⟨i1, i2, i3⟩ := i
    revert i1 i2 i3
    decide
  have hmv : ∀ i j k : ℤ, (if i = 0 ∧ j = 0 ∧ k = 0 then (1 : ℝ) else 0) = if i - 0 = 0 ∧ j - 0 = 0 ∧ k - (-1) = 1 then 1 else 0 := by
    intro i j k
    congr 1
    simp only [eq_iff_iff]
    omega
  have h1 := h 2 2 3 inferInstance inferInstance inferInstance 1 ⟨1, 0, 0⟩ ⟨0, 0, 1⟩ (0, 0) _ _ 0 0 (-1) 2 le_rfl le_rfl (by norm_num) one_pos le_rfl hf hg
    hmv (by rw [e1]; exact pointVol_aperiodic) (by norm_num) (by norm_num) (by norm_num)
  unfold recentreAsReference recentreToCom at h1
  simp only at h1
  rw [e0, e1, point_fit, C214_com_volume_moves _ _ hf hg 0 0 (-1) hmv ⟨0, 0, 1, by norm_num⟩] at h1
  have h2 := congrArg Prod.snd (Option.some.inj h1)
  simp only [projectDisplacement, V3.dot] at h2
  norm_num [around] at h2

/-- The hypotheses of `C213_volume_shift_partial` and `C214_methods_agree_partial` are met: a voxel that moves along `x` in a volume of shape `(2, 2, 4)`. -/
example : InVolume 2 2 4 (fun i j k => if i = 0 ∧ j = 0 ∧ k = 1 then (1 : ℝ) else 0) ∧ InVolume 2 2 4 (fun i j k => if i = 0 ∧ j = 0 ∧ k = 2 then (1 : ℝ) else 0) ∧
    (∀ i j k : ℤ, (if i = 0 ∧ j = 0 ∧ k = 2 then (1 : ℝ) else 0) = if i - 0 = 0 ∧ j - 0 = 0 ∧ k - 1 = 1 then 1 else 0) ∧
    Aperiodic3 (toGrid (sampleVol 2 2 4 (fun i j k => if i = 0 ∧ j = 0 ∧ k = 1 then (1 : ℝ) else 0))) := by
  refine ⟨?_, ?_, ?_, ?_⟩
  · intro i j k hh
    by_cases hc : i = 0 ∧ j = 0 ∧ k = 1
    · omega
    · simp [hc] at hh
  · intro i j k hh
    by_cases hc : i = 0 ∧ j = 0 ∧ k = 2
    · omega
    · simp [hc] at hh
  · intro i j k
    congr 1
    simp only [eq_iff_iff]
    omega
  · have e1 : toGrid (sampleVol 2 2 4 (fun i j k => if i = 0 ∧ j = 0 ∧ k = 1 then 1 else 0)) = fun i : Grid3 2 2 4 => if i = (0, 0, 1) then (1 : ℝ) else 0 := by
      funext i
      unfold toGrid sampleVol
      simp only
      congr 1
      simp only [eq_iff_iff]
      obtain ⟨i1, i2, i3⟩ := i
      revert i1 i2 i3
      decide
    rw [e1]
    intro g hg
    have h0 := hg (0, 0, 1)
    dsimp only at h0
    rw [if_pos rfl] at h0
    by_contra hne
    rw [if_neg] at h0
    · norm_num at h0
    · intro h2
      exact hne (by simpa using h2)

end Verif
