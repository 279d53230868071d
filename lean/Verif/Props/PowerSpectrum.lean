import Mathlib.Algebra.Group.AddChar
import Mathlib.Algebra.Group.Fin.Basic
import Mathlib.NumberTheory.LegendreSymbol.AddCharacter
import Mathlib.Analysis.SpecialFunctions.Complex.Circle
import Mathlib.Analysis.SpecialFunctions.Gaussian.GaussianIntegral
import Mathlib.Analysis.Real.Pi.Bounds
import Verif.Model.Spectra
import Verif.Props.Azimuthal
import Verif.Props.Analysis

/-!
# Power spectrum (C176), threshold of the Fourier ring correlation (C177) and resolution (C178)
-/

namespace Verif

open Finset

variable {d : ℕ} {dims : Fin d → ℕ}

/-- The kernel of the discrete Fourier transform. -/
noncomputable def fftKer (k p : Pixel dims) : ℂ :=
  Complex.exp (-(2 * Real.pi * Complex.I * ∑ a, ((k a : ℕ) * (p a : ℕ) / (dims a : ℕ) : ℂ)))

theorem fftKer_comm (k p : Pixel dims) : fftKer k p = fftKer p k := by
  unfold fftKer
  congr 4
  funext a
  rw [mul_comm]

theorem fftKer_prod (k p : Pixel dims) : fftKer k p = ∏ a, Complex.exp (-(2 * Real.pi * Complex.I * ((k a : ℕ) * (p a : ℕ) / (dims a : ℕ) : ℂ))) := by
  unfold fftKer
  rw [← Complex.exp_sum, mul_sum, sum_neg_distrib]

theorem norm_fftKer (k p : Pixel dims) : ‖fftKer k p‖ = 1 := by
  rw [fftKer_prod, norm_prod]
  refine prod_eq_one fun a _ => ?_
  rw [show -(2 * Real.pi * Complex.I * ((k a : ℕ) * (p a : ℕ) / (dims a : ℕ) : ℂ)) =
    ((-(2 * Real.pi * ((k a : ℕ) * (p a : ℕ) / (dims a : ℕ))) : ℝ) : ℂ) * Complex.I by push_cast; ring]
  exact Complex.norm_exp_ofReal_mul_I _

theorem fftKer_add [∀ a, NeZero (dims a)] (k p q : Pixel dims) : fftKer k (p + q) = fftKer k p * fftKer k q := by
  simp only [fftKer_prod]
  rw [← prod_mul_distrib]
  refine prod_congr rfl fun a _ => ?_
  rw [← Complex.exp_add, Complex.exp_eq_exp_iff_exists_int]
  refine ⟨(k a : ℕ) * ((((p a : ℕ) + (q a : ℕ)) / dims a : ℕ) : ℤ), ?_⟩
  have hn : ((dims a : ℕ) : ℂ) ≠ 0 := by exact_mod_cast NeZero.ne (dims a)
  have hm : (((p + q) a : Fin (dims a)) : ℕ) + dims a * (((p a : ℕ) + (q a : ℕ)) / dims a) = (p a : ℕ) + (q a : ℕ) := by
    rw [Pi.add_apply, Fin.val_add]
    exact Nat.mod_add_div _ _
  have hc : ((((p + q) a : Fin (dims a)) : ℕ) : ℂ) = (p a : ℕ) + (q a : ℕ) - dims a * ((((p a : ℕ) + (q a : ℕ)) / dims a : ℕ) : ℂ) := by
    rw [eq_sub_iff_add_eq]
    exact_mod_cast hm
  rw [hc]
  generalize ((p a : ℕ) + (q a : ℕ)) / dims a = c
  push_cast
  field_simp
  ring

/-- The kernel as a character of the frequencies. -/
noncomputable def fftChar [∀ a, NeZero (dims a)] (p : Pixel dims) : AddChar (Pixel dims) ℂ where
  toFun k := fftKer k p
  map_zero_eq_one' := by
    unfold fftKer
    simp
  map_add_eq_mul' k l := by
    rw [fftKer_comm, fftKer_add, fftKer_comm p k, fftKer_comm p l]

theorem fftChar_ne [∀ a, NeZero (dims a)] (p : Pixel dims) (hp : p ≠ 0) : fftChar p ≠ 0 := by
  intro h
  obtain ⟨a, ha⟩ := Function.ne_iff.1 hp
  have h1 : fftKer (Pi.single a 1) p = 1 := congrArg (fun ψ : AddChar (Pixel dims) ℂ => ψ (Pi.single a 1)) h
  have hpa : (p a : ℕ) ≠ 0 := fun e => ha (Fin.ext (by simpa using e))
  have hlt := (p a).2
  have hn : ((dims a : ℕ) : ℂ) ≠ 0 := by exact_mod_cast NeZero.ne (dims a)
  have hone : (((1 : Fin (dims a))) : ℕ) = 1 := by
    rw [Fin.val_one']
    exact Nat.mod_eq_of_lt (by omega)
  unfold fftKer at h1
  rw [sum_eq_single a (fun b _ hb => by simp [Pi.single_eq_of_ne hb]) (by simp), Pi.single_eq_same, hone, Complex.exp_eq_one_iff] at h1
  obtain ⟨z, hz⟩ := h1
  have hpi : (2 * Real.pi * Complex.I : ℂ) ≠ 0 := Complex.two_pi_I_ne_zero
  have e : -((p a : ℕ) : ℂ) = z * (dims a : ℕ) := by
    have : (2 * Real.pi * Complex.I : ℂ) * (-((p a : ℕ) : ℂ)) = (2 * Real.pi * Complex.I) * (z * (dims a : ℕ)) := by
      have h2 := congrArg (· * ((dims a : ℕ) : ℂ)) hz
      rw [← sub_eq_zero] at h2 ⊢
      rw [← h2]
      push_cast
      field_simp
    exact mul_left_cancel₀ hpi this
  have e' : -((p a : ℕ) : ℤ) = z * (dims a : ℕ) := by exact_mod_cast e
  have hz0 : z < 0 := by
    by_contra hc
    push Not at hc
    have : 0 ≤ z * (dims a : ℕ) := mul_nonneg hc (by positivity)
    omega
  have : z * (dims a : ℕ) ≤ -1 * (dims a : ℕ) := mul_le_mul_of_nonneg_right (by omega) (by positivity)
  omega

theorem fftn_eq (img : Pixel dims → ℝ) (k : Pixel dims) : fftn img k = ∑ p, (img p : ℂ) * fftKer k p := rfl

/-- Displacing an image circularly does not change the modulus of its transform. -/
theorem norm_fftn_roll [∀ a, NeZero (dims a)] (img : Pixel dims → ℝ) (s k : Pixel dims) :
    ‖fftn (fun p => img (p + s)) k‖ = ‖fftn img k‖ := by
  have h : fftn img k = fftn (fun p => img (p + s)) k * fftKer k s := by
    rw [fftn_eq, fftn_eq, sum_mul, ← Equiv.sum_comp (Equiv.addRight s) fun p => (img p : ℂ) * fftKer k p]
    refine sum_congr rfl fun p _ => ?_
    rw [Equiv.coe_addRight, fftKer_add]
    ring
  rw [h, norm_mul, norm_fftKer, mul_one]

/-- Parseval's identity. -/
theorem fftn_parseval [∀ a, NeZero (dims a)] (img : Pixel dims → ℝ) :
    ∑ k, ‖fftn img k‖ ^ 2 = (∏ a, (dims a : ℝ)) * ∑ p, img p ^ 2 := by
  have hinv : ∀ k q : Pixel dims, (starRingEnd ℂ) (fftKer k q) = fftKer k (-q) := by
    intro k q
    have h1 : fftKer k (-q) * fftKer k q = 1 := by
      rw [← fftKer_add, neg_add_cancel]
      unfold fftKer
      simp
    have h2 : (starRingEnd ℂ) (fftKer k q) * fftKer k q = 1 := by
      rw [mul_comm, Complex.mul_conj, Complex.normSq_eq_norm_sq, norm_fftKer]
      norm_num
    have h0 : fftKer k q ≠ 0 := fun e => by rw [e, mul_zero] at h1; exact zero_ne_one h1
    exact mul_right_cancel₀ h0 (h2.trans h1.symm)
  have key : ((∑ k, ‖fftn img k‖ ^ 2 : ℝ) : ℂ) = (((∏ a, (dims a : ℝ)) * ∑ p, img p ^ 2 : ℝ) : ℂ) := by
    have h1 : ∀ k : Pixel dims, ((‖fftn img k‖ ^ 2 : ℝ) : ℂ) = ∑ p, ∑ q, (img p : ℂ) * img q * fftChar (p - q) k := by
      intro k
      rw [← Complex.normSq_eq_norm_sq, ← Complex.mul_conj, fftn_eq, map_sum, sum_mul_sum]
      refine sum_congr rfl fun p _ => sum_congr rfl fun q _ => ?_
      rw [map_mul (starRingEnd ℂ), hinv, Complex.conj_ofReal]
      show _ = _ * fftKer k (p - q)
      rw [sub_eq_add_neg, fftKer_add]
      ring
    rw [Complex.ofReal_sum, sum_congr rfl fun k _ => h1 k, sum_comm]
    have h2 : ∀ p : Pixel dims, ∑ k, ∑ q, (img p : ℂ) * img q * fftChar (p - q) k = (img p : ℂ) ^ 2 * ∏ a, (dims a : ℂ) := by
      intro p
      rw [sum_comm]
      rw [sum_eq_single p]
      · rw [← mul_sum, AddChar.sum_eq_ite, if_pos]
        · rw [Fintype.card_pi]
          simp only [Fintype.card_fin]
          push_cast
          ring
        · ext k
          show fftKer k (p - p) = 1
          rw [sub_self]
          unfold fftKer
          simp
      · intro q _ hq
        rw [← mul_sum, AddChar.sum_eq_ite, if_neg (fftChar_ne _ (sub_ne_zero.2 (Ne.symm hq))), mul_zero]
      · simp
    rw [sum_congr rfl fun p _ => h2 p, ← sum_mul]
    push_cast
    ring
  exact_mod_cast key

/-! ## C176 -/

theorem powerRing_eq (taper img : Pixel dims → ℝ) (power minDim k : ℕ) (h : azimuthal true (fun _ : Pixel dims => 1) k ≠ 0) :
    powerRing taper img power minDim k = some (azimuthal true (fun p => ‖fftn (fun p => img p * taper p) p‖ ^ power) k /
      azimuthal true (fun _ : Pixel dims => 1) k / Real.sqrt ((minDim : ℝ) ^ d) ^ power) := by
  unfold powerRing
  simp only
  rw [if_neg h]

theorem rings_pos [NeZero d] (k : ℕ) (hk : ∀ a, 2 * k < dims a) : 0 < azimuthal true (fun _ : Pixel dims => 1) k := by
  set q : Pixel dims := fun a => if a = 0 then ⟨k, by have := hk a; omega⟩ else ⟨0, by have := hk a; omega⟩ with hq
  have hr : azRadius true q = k := by
    unfold azRadius
    rw [sum_eq_single (0 : Fin d)]
    · have : azCoord true (dims 0) (q 0) = k := by
        have h0 := hk 0
        simp [azCoord, hq, fftfreq, h0]
      rw [this, Real.sqrt_sq (by positivity)]
    · intro b _ hb
      have h0 := hk b
      simp [azCoord, hq, hb, fftfreq]
    · simp
  have hw : azWeight true q k = 1 := by
    unfold azWeight
    rw [hr, Nat.floor_natCast]
    simp
  rw [azimuthal_eq]
  calc (0 : ℝ) < azWeight true q k * 1 := by rw [hw]; norm_num
    _ ≤ _ := single_le_sum (f := fun p => azWeight true p k * 1) (fun p _ => by rw [mul_one]; exact azWeight_nonneg true p k) (mem_univ q)

theorem powerRing_bounds (taper img : Pixel dims → ℝ) (power minDim k : ℕ) (lo hi : ℝ)
    (hb : ∀ p, |azRadius true p - k| < 1 → lo ≤ ‖fftn (fun p => img p * taper p) p‖ ^ power ∧ ‖fftn (fun p => img p * taper p) p‖ ^ power ≤ hi)
    (v : ℝ) (hv : powerRing taper img power minDim k = some v) :
    lo / Real.sqrt ((minDim : ℝ) ^ d) ^ power ≤ v ∧ v ≤ hi / Real.sqrt ((minDim : ℝ) ^ d) ^ power := by
  have hne : azimuthal true (fun _ : Pixel dims => 1) k ≠ 0 := by
    intro h
    unfold powerRing at hv
    simp only at hv
    rw [if_pos h] at hv
    exact absurd hv (by simp)
  rw [powerRing_eq taper img power minDim k hne] at hv
  have hv' := (Option.some.inj hv).symm
  have hpos : 0 < azimuthal true (fun _ : Pixel dims => 1) k := by
    refine lt_of_le_of_ne ?_ (Ne.symm hne)
    rw [azimuthal_eq]
    exact sum_nonneg fun p _ => by rw [mul_one]; exact azWeight_nonneg true p k
  have hw : ∀ p : Pixel dims, azWeight true p k ≠ 0 → |azRadius true p - k| < 1 := by
    intro p hp
    have h1 := Nat.floor_le (azRadius_nonneg true p)
    have h2 := Nat.lt_floor_add_one (azRadius true p)
    unfold azWeight at hp
    rw [abs_lt]
    by_cases c1 : ⌊azRadius true p⌋₊ = k
    · rw [c1] at h1 h2
      constructor <;> linarith
    · by_cases c2 : ⌊azRadius true p⌋₊ + 1 = k
      · rw [if_neg c1, if_pos c2, zero_add] at hp
        have hk : (k : ℝ) = ⌊azRadius true p⌋₊ + 1 := by exact_mod_cast c2.symm
        have : (⌊azRadius true p⌋₊ : ℝ) < azRadius true p := lt_of_le_of_ne h1 (fun e => hp (by linarith))
        constructor <;> linarith
      · rw [if_neg c1, if_neg c2] at hp
        simp at hp
  have hsum : ∀ (c : ℝ), (∀ p, |azRadius true p - k| < 1 → c ≤ ‖fftn (fun p => img p * taper p) p‖ ^ power) →
      c * azimuthal true (fun _ : Pixel dims => 1) k ≤ azimuthal true (fun p => ‖fftn (fun p => img p * taper p) p‖ ^ power) k := by
    intro c hc
    rw [azimuthal_eq, azimuthal_eq, mul_sum]
    refine sum_le_sum fun p _ => ?_
    by_cases h : azWeight true p k = 0
    · rw [h]; simp
    · have := mul_le_mul_of_nonneg_left (hc p (hw p h)) (azWeight_nonneg true p k)
      linarith
  have hsum' : ∀ (c : ℝ), (∀ p, |azRadius true p - k| < 1 → ‖fftn (fun p => img p * taper p) p‖ ^ power ≤ c) →
      azimuthal true (fun p => ‖fftn (fun p => img p * taper p) p‖ ^ power) k ≤ c * azimuthal true (fun _ : Pixel dims => 1) k := by
    intro c hc
    rw [azimuthal_eq, azimuthal_eq, mul_sum]
    refine sum_le_sum fun p _ => ?_
    by_cases h : azWeight true p k = 0
    · rw [h]; simp
    · have := mul_le_mul_of_nonneg_left (hc p (hw p h)) (azWeight_nonneg true p k)
      linarith
  rw [hv']
  have hdc : 0 ≤ Real.sqrt ((minDim : ℝ) ^ d) ^ power := pow_nonneg (Real.sqrt_nonneg _) _
  constructor
  · refine div_le_div_of_nonneg_right ?_ hdc
    rw [le_div_iff₀ hpos]
    exact hsum lo fun p hp => (hb p hp).1
  · refine div_le_div_of_nonneg_right ?_ hdc
    rw [div_le_iff₀ hpos]
    exact hsum' hi fun p hp => (hb p hp).2

theorem powerRing_smul (taper img : Pixel dims → ℝ) (c : ℝ) (power minDim k : ℕ) :
    powerRing taper (fun p => c * img p) power minDim k = (powerRing taper img power minDim k).map (|c| ^ power * ·) := by
  have h : azimuthal true (fun p => ‖fftn (fun p => c * img p * taper p) p‖ ^ power) k =
      |c| ^ power * azimuthal true (fun p => ‖fftn (fun p => img p * taper p) p‖ ^ power) k := by
    rw [azimuthal_eq, azimuthal_eq, mul_sum]
    refine sum_congr rfl fun p _ => ?_
    rw [fftn_smul, norm_mul, mul_pow, Complex.norm_real, Real.norm_eq_abs]
    ring
  unfold powerRing
  simp only
  rw [h]
  split_ifs
  · rfl
  · simp only [Option.map_some, mul_div_assoc]

theorem powerRing_roll [∀ a, NeZero (dims a)] (img : Pixel dims → ℝ) (s : Pixel dims) (power minDim k : ℕ) :
    powerRing (fun _ => 1) (fun p => img (p + s)) power minDim k = powerRing (fun _ => 1) img power minDim k := by
  unfold powerRing
  simp only [mul_one]
  have h : (fun k => ‖fftn (fun p => img (p + s)) k‖ ^ power) = fun k => ‖fftn img k‖ ^ power := funext fun k => by rw [norm_fftn_roll]
  rw [h]

theorem powerSpectrum_congr (taper taper' img img' : Pixel dims → ℝ) (power minDim : ℕ) (smooth : Option ℕ) (g : ℝ → ℝ)
    (hg : ∀ (s : ℕ) (w : ℕ → ℝ) (x : ℕ → ℝ), ∑ i ∈ range s, w i * g (x i) = g (∑ i ∈ range s, w i * x i))
    (h : ∀ k, powerRing taper' img' power minDim k = (powerRing taper img power minDim k).map g) (k : ℕ) :
    powerSpectrum taper' img' power minDim smooth k = (powerSpectrum taper img power minDim smooth k).map g := by
  unfold powerSpectrum
  cases smooth with
  | none => exact h k
  | some s =>
    simp only
    split_ifs with h1 h2 h3 h3
    · exact h k
    · rfl
    · exfalso
      rcases h2 with h2 | ⟨i, hi, hw, he⟩
      · exact h3 (Or.inl h2)
      · rw [h, Option.map_eq_none_iff] at he
        exact h3 (Or.inr ⟨i, hi, hw, he⟩)
    · exfalso
      rcases h3 with h3 | ⟨i, hi, hw, he⟩
      · exact h2 (Or.inl h3)
      · exact h2 (Or.inr ⟨i, hi, hw, by rw [h, he]; rfl⟩)
    · rw [Option.map_some, ← hg]
      congr 1
      refine sum_congr rfl fun i hi => ?_
      by_cases hw : hannWindow s i = 0
      · rw [hw]; simp
      · have hne : powerRing taper img power minDim (max 0 (min ((k : ℤ) + (s / 2 : ℕ) - i) (azLength dims true - 1))).toNat ≠ none :=
          fun he => h3 (Or.inr ⟨i, hi, hw, he⟩)
        obtain ⟨v, hv⟩ := Option.ne_none_iff_exists'.1 hne
        rw [h, hv]
        rfl

/-- **C176, violated.** The power spectrum is not always defined: with smoothing over seven rings, that of every signal of four samples is
NaN at the position 1, as the average takes in a ring without frequencies. -/
theorem C176_power_spectrum_violated :
    (¬ ∀ (n s : ℕ) (img : Pixel (fun _ : Fin 1 => n) → ℝ) (power k : ℕ), 3 ≤ s → k < n / 2 →
      powerSpectrum (fun _ => 1) img power n (some s) k ≠ none) ∧
    ∀ (img : Pixel (fun _ : Fin 1 => 4) → ℝ) (power : ℕ), powerSpectrum (fun _ => 1) img power 4 (some 7) 1 = none := by
  have main : ∀ (img : Pixel (fun _ : Fin 1 => 4) → ℝ) (power : ℕ), powerSpectrum (fun _ => 1) img power 4 (some 7) 1 = none := by
    intro img power
    have hr : ∀ p : Pixel (fun _ : Fin 1 => 4), azRadius true p = |((fftfreq 4 (p 0) : ℤ) : ℝ)| := by
      intro p
      unfold azRadius azCoord
      rw [Fin.sum_univ_one, if_pos rfl, Real.sqrt_sq_eq_abs]
    have hL : 4 ≤ azLength (fun _ : Fin 1 => 4) true := by
      have h2 : azRadius true (fun _ => 2 : Pixel (fun _ : Fin 1 => 4)) = 2 := by
        rw [hr]
        norm_num [fftfreq]
      have := Finset.le_sup (f := fun p : Pixel (fun _ : Fin 1 => 4) => ⌊azRadius true p⌋₊ + 1) (mem_univ (fun _ => 2))
      simp only [h2, Nat.floor_ofNat] at this
      unfold azLength
      omega
    have hz : azimuthal true (fun _ : Pixel (fun _ : Fin 1 => 4) => 1) 3 = 0 := by
      rw [azimuthal_eq]
      refine sum_eq_zero fun p _ => ?_
      have hc : azRadius true p = 0 ∨ azRadius true p = 1 ∨ azRadius true p = 2 := by
        rw [hr]
        have h := (p 0).2
        generalize ((p 0 : Fin 4) : ℕ) = v at *
        interval_cases v <;> norm_num [fftfreq]
      unfold azWeight
      rcases hc with hc | hc | hc <;> rw [hc] <;> norm_num
    have hn : powerRing (fun _ => 1) img power 4 3 = none := by
      unfold powerRing
      simp only
      rw [if_pos hz]
    unfold powerSpectrum
    simp only
    rw [if_neg (by norm_num), if_pos]
    refine Or.inr ⟨1, by simp, ?_, ?_⟩
    · unfold hannWindow
      rw [show 2 * Real.pi * ((1 : ℕ) : ℝ) / ((7 - 1 : ℕ) : ℝ) = Real.pi / 3 by push_cast; ring, Real.cos_pi_div_three]
      norm_num
    · rw [show (max 0 (min (((1 : ℕ) : ℤ) + ((7 / 2 : ℕ) : ℤ) - ((1 : ℕ) : ℤ)) ((azLength (fun _ : Fin 1 => 4) true : ℤ) - 1))).toNat = 3 by
        rw [min_eq_left (by omega)]; rfl]
      exact hn
  exact ⟨fun h => h 4 7 (fun _ => 0) 2 1 (by norm_num) (by norm_num) (main _ 2), main⟩

/-- **C176, proved part.** For any image of any number of axes, taper, exponent: `power_spectrum` without smoothing is defined at each of
its positions, and is there between any bounds of the moduli (to the exponent) of the transform at the frequencies less than one from the
ring, over the value of the flat spectrum; with smoothing or not, it does not get negative, scales with the absolute value of the image's
factor to the exponent, and without taper does not change if the image is displaced circularly. Without smoothing and taper and with the
exponent 2, weighted by the sizes of the rings it sums to the energy of the image. -/
theorem C176_power_spectrum_partial [NeZero d] [∀ a, NeZero (dims a)] (taper img : Pixel dims → ℝ) (power minDim : ℕ) (smooth : Option ℕ) :
    (∀ k, (∀ a, k < dims a / 2) → ∃ v, powerSpectrum taper img power minDim none k = some v ∧
      ∀ lo hi : ℝ, (∀ f : Pixel dims, |Real.sqrt (∑ a, (fftfreq (dims a) (f a) : ℝ) ^ 2) - k| < 1 →
          lo ≤ ‖fftn (fun p => img p * taper p) f‖ ^ power ∧ ‖fftn (fun p => img p * taper p) f‖ ^ power ≤ hi) →
        lo / Real.sqrt ((minDim : ℝ) ^ d) ^ power ≤ v ∧ v ≤ hi / Real.sqrt ((minDim : ℝ) ^ d) ^ power) ∧
    (∀ k v, powerSpectrum taper img power minDim smooth k = some v → 0 ≤ v) ∧
    (∀ (c : ℝ) k, powerSpectrum taper (fun p => c * img p) power minDim smooth k =
      (powerSpectrum taper img power minDim smooth k).map (|c| ^ power * ·)) ∧
    (∀ (s : Pixel dims) k, powerSpectrum (fun _ => 1) (fun p => img (p + s)) power minDim smooth k =
      powerSpectrum (fun _ => 1) img power minDim smooth k) ∧
    (0 < minDim → ∑ k ∈ range (azLength dims true), (powerSpectrum (fun _ => 1) img 2 minDim none k).getD 0 *
        azimuthal true (fun _ : Pixel dims => 1) k * (minDim : ℝ) ^ d = (∏ a, (dims a : ℝ)) * ∑ p, img p ^ 2) := by
  have hnn : ∀ k v, powerRing taper img power minDim k = some v → 0 ≤ v := by
    intro k v hv
    unfold powerRing at hv
    simp only at hv
    split_ifs at hv with h
    rw [← Option.some.inj hv]
    have h1 : 0 ≤ azimuthal true (fun _ : Pixel dims => 1) k := by
      rw [azimuthal_eq]
      exact sum_nonneg fun p _ => by rw [mul_one]; exact azWeight_nonneg true p k
    have h2 : 0 ≤ azimuthal true (fun p => ‖fftn (fun p => img p * taper p) p‖ ^ power) k := by
      rw [azimuthal_eq]
      exact sum_nonneg fun p _ => mul_nonneg (azWeight_nonneg true p k) (pow_nonneg (norm_nonneg _) _)
    exact div_nonneg (div_nonneg h2 h1) (pow_nonneg (Real.sqrt_nonneg _) _)
  refine ⟨fun k hk => ?_, fun k v hv => ?_, fun c k => ?_, fun s k => ?_, fun hm => ?_⟩
  · have hp := rings_pos (dims := dims) k fun a => by have := hk a; omega
    refine ⟨_, powerRing_eq taper img power minDim k hp.ne', fun lo hi hb => ?_⟩
    refine powerRing_bounds taper img power minDim k lo hi (fun p hpp => hb p ?_) _ (powerRing_eq taper img power minDim k hp.ne')
    simpa [azRadius, azCoord] using hpp
  · unfold powerSpectrum at hv
    cases smooth with
    | none => exact hnn k v hv
    | some s =>
      simp only at hv
      split_ifs at hv with h1 h2
      · exact hnn k v hv
      · rw [← Option.some.inj hv]
        refine sum_nonneg fun i _ => mul_nonneg (div_nonneg (hannWindow_nonneg s i) (sum_nonneg fun i _ => hannWindow_nonneg s i)) ?_
        generalize hq : powerRing taper img power minDim _ = q
        cases q with
        | none => exact le_rfl
        | some w => exact hnn _ w hq
  · exact powerSpectrum_congr taper taper img _ power minDim smooth (|c| ^ power * ·)
      (fun s w x => by rw [mul_sum]; exact sum_congr rfl fun i _ => by ring) (fun k => powerRing_smul taper img c power minDim k) k
  · have := powerSpectrum_congr (fun _ => 1) (fun _ => 1) img (fun p => img (p + s)) power minDim smooth id
      (fun s w x => rfl) (fun k => by rw [powerRing_roll, Option.map_id]; rfl) k
    rw [this, Option.map_id]
    rfl
  · rw [← fftn_parseval, ← (C46_azimuthal_sum true fun k => ‖fftn img k‖ ^ 2).1]
    refine sum_congr rfl fun k _ => ?_
    show (powerRing _ _ _ _ _).getD 0 * _ * _ = _
    have hdc : Real.sqrt ((minDim : ℝ) ^ d) ^ 2 = (minDim : ℝ) ^ d := Real.sq_sqrt (by positivity)
    have hdc0 : (minDim : ℝ) ^ d ≠ 0 := pow_ne_zero _ (by exact_mod_cast hm.ne')
    by_cases h : azimuthal true (fun _ : Pixel dims => 1) k = 0
    · have hw : ∀ p : Pixel dims, azWeight true p k = 0 := by
        rw [azimuthal_eq] at h
        have := (sum_eq_zero_iff_of_nonneg fun p _ => by rw [mul_one]; exact azWeight_nonneg true p k).1 h
        exact fun p => by simpa using this p (mem_univ p)
      rw [h, mul_zero, zero_mul, azimuthal_eq]
      exact (sum_eq_zero fun p _ => by rw [hw p, zero_mul]).symm
    · rw [powerRing_eq _ _ _ _ _ h, Option.getD_some, hdc]
      simp only [mul_one]
      field_simp

/-- An image of two axes and a ring of its spectrum meet the hypotheses. -/
example : ∃ v, powerSpectrum (dims := fun _ : Fin 2 => 4) (fun _ => 1) (fun p => ((p 0 : ℕ) : ℝ)) 2 4 none 1 = some v :=
  let h := (C176_power_spectrum_partial (dims := fun _ : Fin 2 => 4) (fun _ => 1) (fun p => ((p 0 : ℕ) : ℝ)) 2 4 none).1 1 (fun _ => by norm_num)
  ⟨h.choose, h.choose_spec.1⟩

/-! ## C177 -/

theorem frcThreshold_eq (snrt size : ℝ) (hs : 0 ≤ snrt) (hz : 0 < size) :
    frcThreshold snrt size = 1 - (1 - 1 / Real.sqrt size) / (snrt + 1 + 2 * Real.sqrt snrt / Real.sqrt size) := by
  have h1 : 0 < Real.sqrt size := Real.sqrt_pos.2 hz
  have h2 := Real.sqrt_nonneg snrt
  have h3 : 0 < snrt + 1 + 2 * Real.sqrt snrt / Real.sqrt size := by positivity
  unfold frcThreshold
  rw [eq_sub_iff_add_eq, ← add_div, div_eq_one_iff_eq h3.ne']
  ring

theorem ringSize_values (k : ℕ) (hk : 0 < k) :
    ringSize 1 k = 2 ∧ ringSize 2 k = 2 * Real.pi * k ∧ ringSize 3 k = 4 * Real.pi * (k : ℝ) ^ 2 := by
  unfold ringSize
  simp only [if_neg hk.ne']
  refine ⟨?_, ?_, ?_⟩
  · rw [show ((1 : ℕ) : ℝ) / 2 = 1 / 2 by norm_num, Real.Gamma_one_half_eq, Real.sqrt_eq_rpow]
    have : Real.pi ^ (1 / 2 : ℝ) ≠ 0 := (Real.rpow_pos_of_pos Real.pi_pos _).ne'
    simp only [Nat.sub_self, pow_zero, mul_one]
    field_simp
  · rw [show ((2 : ℕ) : ℝ) / 2 = 1 by norm_num, Real.Gamma_one, Real.rpow_one]
    simp
  · rw [show ((3 : ℕ) : ℝ) / 2 = 1 / 2 + 1 by norm_num, Real.Gamma_add_one (by norm_num), Real.Gamma_one_half_eq, Real.rpow_add Real.pi_pos,
      Real.rpow_one, Real.sqrt_eq_rpow]
    have : Real.pi ^ (1 / 2 : ℝ) ≠ 0 := (Real.rpow_pos_of_pos Real.pi_pos _).ne'
    simp only [show 3 - 1 = 2 from rfl]
    field_simp
    ring

theorem ringSize_mono (n : ℕ) (h1 : 1 ≤ n) (h3 : n ≤ 3) : (∀ k, 1 ≤ ringSize n k) ∧ Monotone (ringSize n) := by
  have hpi := Real.pi_gt_three
  have h0 : ringSize n 0 = 1 := by simp [ringSize]
  have hk : ∀ k, 1 ≤ ringSize n k := by
    intro k
    rcases Nat.eq_zero_or_pos k with rfl | hk
    · rw [h0]
    · obtain ⟨e1, e2, e3⟩ := ringSize_values k hk
      have hk' : (1 : ℝ) ≤ k := by exact_mod_cast hk
      interval_cases n
      · rw [e1]; norm_num
      · rw [e2]; nlinarith
      · rw [e3]; nlinarith
  refine ⟨hk, monotone_nat_of_le_succ fun k => ?_⟩
  rcases Nat.eq_zero_or_pos k with rfl | hkp
  · rw [h0]; exact hk _
  · obtain ⟨e1, e2, e3⟩ := ringSize_values k hkp
    obtain ⟨f1, f2, f3⟩ := ringSize_values (k + 1) (by omega)
    have hk' : (1 : ℝ) ≤ k := by exact_mod_cast hkp
    interval_cases n
    · rw [e1, f1]
    · rw [e2, f2]; push_cast; nlinarith
    · rw [e3, f3]; push_cast; nlinarith

/-- **C177.** The theoretical threshold curve of `compute_frc` for signals, images and volumes and any positive signal-to-noise ratio: it is 1
at the centre, does not increase along the frequencies (and decreases strictly for images and volumes), stays above `snrt / (1 + snrt)`
and does not exceed 1; a larger ratio gives a higher curve. The ring sizes it uses are the two ends of a segment, and the perimeter and
surface of circle and sphere. -/
theorem C177_frc_threshold (n : ℕ) (h1 : 1 ≤ n) (h3 : n ≤ 3) (snrt : ℝ) (hs : 0 ≤ snrt) :
    frcThreshold snrt (ringSize n 0) = 1 ∧
    Antitone (fun k => frcThreshold snrt (ringSize n k)) ∧
    (2 ≤ n → StrictAnti fun k => frcThreshold snrt (ringSize n k)) ∧
    (∀ k, snrt / (1 + snrt) < frcThreshold snrt (ringSize n k) ∧ frcThreshold snrt (ringSize n k) ≤ 1) ∧
    (∀ snrt', snrt ≤ snrt' → ∀ k, frcThreshold snrt (ringSize n k) ≤ frcThreshold snrt' (ringSize n k)) ∧
    (∀ k, 0 < k → ringSize 1 k = 2 ∧ ringSize 2 k = 2 * Real.pi * k ∧ ringSize 3 k = 4 * Real.pi * (k : ℝ) ^ 2) := by
  obtain ⟨hge, hmono⟩ := ringSize_mono n h1 h3
  have hpos : ∀ k, 0 < ringSize n k := fun k => lt_of_lt_of_le one_pos (hge k)
  have hr : ∀ k, 0 < 1 / Real.sqrt (ringSize n k) ∧ 1 / Real.sqrt (ringSize n k) ≤ 1 := by
    intro k
    have : 1 ≤ Real.sqrt (ringSize n k) := by
      rw [Real.one_le_sqrt]; exact hge k
    exact ⟨by positivity, by rw [div_le_one (by linarith)]; exact this⟩
  set q := Real.sqrt snrt with hq
  have hq0 : 0 ≤ q := Real.sqrt_nonneg _
  have hval : ∀ t k, 0 ≤ t → frcThreshold t (ringSize n k) =
      1 - (1 - 1 / Real.sqrt (ringSize n k)) / (t + 1 + 2 * Real.sqrt t * (1 / Real.sqrt (ringSize n k))) := by
    intro t k ht
    rw [frcThreshold_eq t _ ht (hpos k), mul_one_div]
  have lt_of : ∀ r r' : ℝ, 0 < r → r < r' → r' ≤ 1 →
      1 - (1 - r) / (snrt + 1 + 2 * q * r) < 1 - (1 - r') / (snrt + 1 + 2 * q * r') := by
    intro r r' hr0 hlt h1
    have hd : 0 < snrt + 1 + 2 * q * r := by positivity
    have hr0' : 0 < r' := hr0.trans hlt
    have hd' : 0 < snrt + 1 + 2 * q * r' := by positivity
    have : (1 - r') / (snrt + 1 + 2 * q * r') < (1 - r) / (snrt + 1 + 2 * q * r) := by
      rw [div_lt_div_iff₀ hd' hd]
      nlinarith [mul_nonneg hq0 (sub_nonneg.2 hlt.le)]
    linarith
  have hsz : ∀ a b, ringSize n a < ringSize n b → 1 / Real.sqrt (ringSize n b) < 1 / Real.sqrt (ringSize n a) := by
    intro a b hab
    exact one_div_lt_one_div_of_lt (Real.sqrt_pos.2 (hpos a)) (Real.sqrt_lt_sqrt (hpos a).le hab)
  refine ⟨?_, ?_, ?_, ?_, ?_, ringSize_values⟩
  · rw [hval snrt 0 hs]
    have : ringSize n 0 = 1 := by simp [ringSize]
    rw [this]; simp
  · intro a b hab
    show frcThreshold snrt (ringSize n b) ≤ frcThreshold snrt (ringSize n a)
    rcases (hmono hab).eq_or_lt with h | h
    · rw [h]
    · rw [hval snrt a hs, hval snrt b hs]
      exact (lt_of _ _ (hr b).1 (hsz a b h) (hr a).2).le
  · intro hn
    refine strictAnti_nat_of_succ_lt fun k => ?_
    rw [hval snrt k hs, hval snrt (k + 1) hs]
    refine lt_of _ _ (hr _).1 (hsz _ _ ?_) (hr _).2
    have hpi := Real.pi_gt_three
    obtain ⟨f1, f2, f3⟩ := ringSize_values (k + 1) (by omega)
    have hk0 : (0 : ℝ) ≤ k := by positivity
    rcases Nat.eq_zero_or_pos k with rfl | hkp
    · have : ringSize n 0 = 1 := by simp [ringSize]
      rw [this]
      interval_cases n
      · rw [f2]; push_cast; nlinarith
      · rw [f3]; push_cast; nlinarith
    · obtain ⟨e1, e2, e3⟩ := ringSize_values k hkp
      interval_cases n
      · rw [e2, f2]; push_cast; nlinarith
      · rw [e3, f3]; push_cast; nlinarith
  · intro k
    obtain ⟨r0, r1⟩ := hr k
    rw [hval snrt k hs]
    set r := 1 / Real.sqrt (ringSize n k)
    have hd : 0 < snrt + 1 + 2 * q * r := by positivity
    constructor
    · have : (1 - r) / (snrt + 1 + 2 * q * r) < 1 / (1 + snrt) := by
        rw [div_lt_div_iff₀ hd (by positivity)]
        nlinarith [mul_nonneg hq0 r0.le, mul_pos r0 (by linarith : (0 : ℝ) < 1 + snrt)]
      have e : snrt / (1 + snrt) = 1 - 1 / (1 + snrt) := by field_simp; ring
      rw [e]
      show 1 - _ < 1 - (1 - r) / (snrt + 1 + 2 * q * r)
      linarith
    · have := div_nonneg (sub_nonneg.2 r1) hd.le
      show 1 - (1 - r) / (snrt + 1 + 2 * q * r) ≤ 1
      linarith
  · intro t ht k
    obtain ⟨r0, r1⟩ := hr k
    rw [hval snrt k hs, hval t k (hs.trans ht)]
    set r := 1 / Real.sqrt (ringSize n k)
    have hqt := Real.sqrt_le_sqrt ht
    have hd : 0 < snrt + 1 + 2 * Real.sqrt snrt * r := by positivity
    have : (1 - r) / (t + 1 + 2 * Real.sqrt t * r) ≤ (1 - r) / (snrt + 1 + 2 * Real.sqrt snrt * r) := by
      refine div_le_div_of_nonneg_left (sub_nonneg.2 r1) hd ?_
      nlinarith
    linarith

/-- The default ratio (half a bit, of half the data) meets the hypotheses. -/
example : frcThreshold 0.2071 (ringSize 2 5) < frcThreshold 0.2071 (ringSize 2 4) :=
  (C177_frc_threshold 2 (by norm_num) (by norm_num) 0.2071 (by norm_num)).2.2.1 le_rfl (by norm_num)

/-! ## C178 -/

/-- **C178, violated.** For stacks of images, with the threshold curves that `compute_frc(..., theo_threshold=False)` returns for them,
`estimate_resolution` finds no resolution: it either raises an error or returns `None`, even though the curve crosses the thresholds. -/
theorem C178_resolution_violated :
    (¬ ∀ (frc : List ℝ) (ts : List (List ℝ)) (t : List ℝ), t.length = frc.length → ts ≠ [] → (∀ l ∈ ts, l = t) →
      (∃ k, 1 ≤ k ∧ k + 1 < frc.length ∧ t.getD k 0 < frc.getD k 0 ∧ frc.getD (k + 1) 0 < t.getD (k + 1) 0) →
      ∃ x y, estimateResolution frc (.inr ts) = .lines (.point x y)) ∧
    ∀ (frc : List ℝ) (ts : List (List ℝ)), estimateResolution frc (.inr ts) = .indexError ∨ estimateResolution frc (.inr ts) = .lines .notFound := by
  have main : ∀ (frc : List ℝ) (ts : List (List ℝ)), estimateResolution frc (.inr ts) = .indexError ∨
      estimateResolution frc (.inr ts) = .lines .notFound := by
    intro frc ts
    unfold estimateResolution
    simp only
    split_ifs
    · exact Or.inr rfl
    · exact Or.inl rfl
  refine ⟨fun h => ?_, main⟩
  obtain ⟨x, y, e⟩ := h [1, 1, 0] [[1/2, 1/2, 1/2], [1/2, 1/2, 1/2]] [1/2, 1/2, 1/2] (by simp) (by simp) (by simp)
    ⟨1, by norm_num, by norm_num, by norm_num, by norm_num⟩
  rcases main [1, 1, 0] [[1/2, 1/2, 1/2], [1/2, 1/2, 1/2]] with h' | h' <;> rw [h'] at e <;> simp at e

/-- **C178, proved part.** With one threshold curve (as `compute_frc` returns by default), `estimate_resolution` returns the first crossing of
the curves at or after the first frequency: a point of both curves between two sampled frequencies, and `None` exactly if they do not
cross there. If the correlation is not below the threshold at the first frequency, then it is not below it at any sampled frequency up to the
one before the returned resolution, and is below it at the next. -/
theorem C178_resolution_partial (frc t : List ℝ) (hl : t.length = frc.length) (h2 : 2 ≤ frc.length) :
    (estimateResolution frc (.inl t) = .lines .notFound ↔
      ∀ k, 1 ≤ k → k + 1 < frc.length → (frc.getD k 0 < t.getD k 0 ↔ frc.getD (k + 1) 0 < t.getD (k + 1) 0)) ∧
    (estimateResolution frc (.inl t) = .lines .notFound ∨ ∃ x y, estimateResolution frc (.inl t) = .lines (.point x y)) ∧
    (∀ x y, estimateResolution frc (.inl t) = .lines (.point x y) → ∃ k : ℕ, 1 ≤ k ∧ k + 1 < frc.length ∧ (k : ℝ) ≤ x ∧ x ≤ k + 1 ∧
      y = onSegment frc k x ∧ y = onSegment t k x ∧
      (t.getD 1 0 ≤ frc.getD 1 0 → (∀ j, 1 ≤ j → j ≤ k → t.getD j 0 ≤ frc.getD j 0) ∧ frc.getD (k + 1) 0 < t.getD (k + 1) 0)) := by
  obtain ⟨c1, c2, c3⟩ := C47_intersection frc t (Or.inr hl) .first (some (some 1, none)) (by simp)
  have hat : ∀ (l : List ℝ), l.length = frc.length → ∀ k, Spec.sample l k = l.getD k 0 := by
    intro l hl' k
    match l, hl' with
    | [], h => simp at h; omega
    | [_], h => simp at h; omega
    | _ :: _ :: _, _ => rfl
  have hcr : ∀ k, IsCrossing frc t (some (some 1, none)) k ↔
      1 ≤ k ∧ k + 1 < frc.length ∧ ¬ (frc.getD k 0 < t.getD k 0 ↔ frc.getD (k + 1) 0 < t.getD (k + 1) 0) := by
    intro k
    unfold IsCrossing
    rw [hat frc rfl, hat frc rfl, hat t hl, hat t hl]
    constructor
    · rintro ⟨a, b, c⟩
      exact ⟨(b (some 1) none rfl).1 1 rfl, a, c⟩
    · rintro ⟨a, b, c⟩
      refine ⟨b, fun lo hi e => ?_, c⟩
      simp only [Option.some.injEq, Prod.mk.injEq] at e
      obtain ⟨rfl, rfl⟩ := e
      exact ⟨fun l hl => by simp only [Option.mem_def, Option.some.injEq] at hl; omega, fun h hh => by simp at hh⟩
  have hinj : ∀ r r' : CrossResult, ResolutionResult.lines r = ResolutionResult.lines r' ↔ r = r' := fun r r' =>
    ⟨fun h => ResolutionResult.lines.inj h, fun h => by rw [h]⟩
  have hne : linesIntersection frc t .first (some (some 1, none)) ≠ .valueError := fun h => by simpa using (c3.1 h).1
  show (ResolutionResult.lines _ = _ ↔ _) ∧ (ResolutionResult.lines _ = _ ∨ ∃ x y, ResolutionResult.lines _ = _) ∧
    ∀ x y, ResolutionResult.lines _ = _ → _
  simp only [hinj]
  refine ⟨c1.trans ?_, ?_, fun x y h => ?_⟩
  · constructor
    · intro h k hk hk'
      by_contra hc
      exact h k ((hcr k).2 ⟨hk, hk', hc⟩)
    · intro h k hk
      obtain ⟨a, b, c⟩ := (hcr k).1 hk
      exact c (h k a b)
  · have hpt : linesIntersection frc t .first (some (some 1, none)) = .notFound ∨
        ∃ x y, linesIntersection frc t .first (some (some 1, none)) = .point x y := by
      unfold linesIntersection
      rw [if_neg (by omega), if_neg (by simp)]
      simp only
      split_ifs
      · exact Or.inl rfl
      · exact Or.inr ⟨_, _, rfl⟩
    exact hpt
  · obtain ⟨k, hk, k1, k2, e1, e2, hfirst, -⟩ := c2 x y h
    obtain ⟨a, b, c⟩ := (hcr k).1 hk
    refine ⟨k, a, b, k1, k2, e1, e2, fun h0 => ?_⟩
    have hall : ∀ j, 1 ≤ j → j ≤ k → t.getD j 0 ≤ frc.getD j 0 := by
      intro j hj
      induction j, hj using Nat.le_induction with
      | base => exact fun _ => h0
      | succ j hj ih =>
        intro hjk
        have ih' := ih (by omega)
        by_contra hc
        push Not at hc
        have : IsCrossing frc t (some (some 1, none)) j := (hcr j).2 ⟨hj, by omega, fun e => absurd (e.2 hc) (not_lt.2 ih')⟩
        have := hfirst rfl j this
        omega
    refine ⟨hall, ?_⟩
    by_contra hc
    have hk' := hall k a le_rfl
    exact c ⟨fun h => absurd h (not_lt.2 hk'), fun h => absurd h hc⟩

/-- A correlation falling below a constant threshold meets the hypotheses. -/
example : ∃ x y, estimateResolution [1, 1, 0] (.inl [1/2, 1/2, 1/2]) = .lines (.point x y) := by
  obtain ⟨h1, h2, -⟩ := C178_resolution_partial [1, 1, 0] [1/2, 1/2, 1/2] rfl (by simp)
  rcases h2 with h | h
  · have := h1.1 h 1 le_rfl (by simp)
    norm_num at this
  · exact h

end Verif
