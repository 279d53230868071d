import Mathlib.RingTheory.RootsOfUnity.Complex
import Mathlib.Analysis.SpecialFunctions.Complex.Circle
import Verif.Model.Destripe
import Verif.Props.PreProc

/-!
# Removal of stripes (C179)
-/

namespace Verif

open Finset

/-- The complex exponential of a whole number of periods in `n` samples. -/
private noncomputable def ee (n : ℕ) (z t : ℤ) : ℂ := Complex.exp (2 * Real.pi * Complex.I * z * t / n)

private theorem ee_add (n : ℕ) (z w t : ℤ) : ee n (z + w) t = ee n z t * ee n w t := by
  unfold ee
  rw [← Complex.exp_add]
  congr 1
  push_cast
  ring

private theorem ee_period {n : ℕ} (hn : 0 < n) (z q t : ℤ) : ee n (z + n * q) t = ee n z t := by
  rw [ee_add]
  have : ee n (n * q) t = 1 := by
    unfold ee
    rw [Complex.exp_eq_one_iff]
    refine ⟨q * t, ?_⟩
    have : (n : ℂ) ≠ 0 := by exact_mod_cast hn.ne'
    push_cast
    field_simp
  rw [this, mul_one]

private theorem ee_orth {n : ℕ} (hn : 0 < n) (z : ℤ) : ∑ s ∈ range n, ee n z s = if (n : ℤ) ∣ z then (n : ℂ) else 0 := by
  have hc : (n : ℂ) ≠ 0 := by exact_mod_cast hn.ne'
  have hpow : ∀ s : ℕ, ee n z s = ee n z 1 ^ s := by
    intro s
    unfold ee
    rw [← Complex.exp_nat_mul]
    congr 1
    push_cast
    ring
  simp only [hpow]
  split_ifs with h
  · obtain ⟨q, rfl⟩ := h
    have : ee n (n * q) 1 = 1 := by
      have := ee_period hn 0 q 1
      rw [zero_add] at this
      rw [this]
      unfold ee
      simp
    rw [this]
    simp
  · have h1 : ee n z 1 ≠ 1 := by
      intro h1
      unfold ee at h1
      rw [Complex.exp_eq_one_iff] at h1
      obtain ⟨q, hq⟩ := h1
      refine h ⟨q, ?_⟩
      have hpi : (2 * Real.pi * Complex.I : ℂ) ≠ 0 := Complex.two_pi_I_ne_zero
      have : (z : ℂ) = n * q := by
        have h2 : (2 * Real.pi * Complex.I : ℂ) * z = (2 * Real.pi * Complex.I) * (n * q) := by
          rw [div_eq_iff hc] at hq
          push_cast at hq
          linear_combination hq
        exact mul_left_cancel₀ hpi h2
      exact_mod_cast this
    have h2 : ee n z 1 ^ n = 1 := by
      rw [← hpow]
      unfold ee
      rw [Complex.exp_eq_one_iff]
      exact ⟨z, by push_cast; field_simp⟩
    rw [geom_sum_eq h1, h2]
    simp

/-- The filter on a complex oscillation. -/
private theorem filter_ee {n : ℕ} (hn : 0 < n) (g : ℕ → ℝ) (z : ℤ) (t : ℕ) :
    (∑ k ∈ range n, (g k : ℂ) * (∑ s ∈ range n, ee n z s * Complex.exp (-(2 * Real.pi * Complex.I * k * s / n))) *
      Complex.exp (2 * Real.pi * Complex.I * k * t / n)) / n = g (z % n).toNat * ee n z t := by
  have hc : (n : ℂ) ≠ 0 := by exact_mod_cast hn.ne'
  have hz0 : 0 ≤ z % n := Int.emod_nonneg _ (by omega)
  have hz1 : z % n < n := Int.emod_lt_of_pos _ (by omega)
  have h1 : ∀ k : ℕ, ∑ s ∈ range n, ee n z s * Complex.exp (-(2 * Real.pi * Complex.I * k * s / n)) = if (n : ℤ) ∣ z - k then (n : ℂ) else 0 := by
    intro k
    rw [← ee_orth hn]
    refine sum_congr rfl fun s _ => ?_
    rw [sub_eq_add_neg, ee_add]
    congr 1
    unfold ee
    congr 1
    push_cast
    ring
  simp only [h1]
  rw [sum_eq_single (z % n).toNat]
  · have hd : (n : ℤ) ∣ z - ((z % n).toNat : ℕ) := by
      rw [Int.toNat_of_nonneg hz0]
      exact Int.dvd_self_sub_emod
    rw [if_pos hd]
    have he : Complex.exp (2 * Real.pi * Complex.I * ((z % n).toNat : ℕ) * t / n) = ee n z t := by
      obtain ⟨q, hq⟩ := hd
      have : z = ((z % n).toNat : ℕ) + n * q := by linarith
      conv_rhs => rw [this]
      rw [ee_period hn]
      unfold ee
      push_cast
      rfl
    rw [he]
    field_simp
  · intro k hk hne
    rw [if_neg, mul_zero, zero_mul]
    intro hd
    apply hne
    have hk' := mem_range.1 hk
    have : z % n = k := by
      have h2 := Int.emod_emod_of_dvd z (dvd_refl (n : ℤ))
      have h3 : (z - k) % n = 0 := Int.emod_eq_zero_of_dvd hd
      have h4 : z % n = (k : ℤ) % n := (Int.emod_emod_of_dvd z (dvd_refl (n : ℤ))).symm.trans (by
        rw [h2]; exact Int.emod_eq_emod_iff_emod_sub_eq_zero.2 h3)
      rw [h4]
      exact Int.emod_eq_of_lt (by omega) (by omega)
    omega
  · intro h
    exact absurd (mem_range.2 (by omega)) h

/-- The filter is linear. -/
theorem angleFilter_linear (n : ℕ) (sigma p q : ℝ) (x y : ℕ → ℝ) (t : ℕ) :
    angleFilter n sigma (fun s => p * x s + q * y s) t = p * angleFilter n sigma x t + q * angleFilter n sigma y t := by
  unfold angleFilter
  have h : ∀ z w : ℂ, p * z.re + q * w.re = ((p : ℂ) * z + (q : ℂ) * w).re := fun z w => by simp
  rw [h]
  congr 1
  rw [mul_div_assoc', mul_div_assoc', ← add_div, mul_sum, mul_sum, ← sum_add_distrib]
  congr 1
  refine sum_congr rfl fun k _ => ?_
  have : ∑ s ∈ range n, ((p * x s + q * y s : ℝ) : ℂ) * Complex.exp (-(2 * Real.pi * Complex.I * k * s / n)) =
      p * (∑ s ∈ range n, (x s : ℂ) * Complex.exp (-(2 * Real.pi * Complex.I * k * s / n))) +
      q * ∑ s ∈ range n, (y s : ℂ) * Complex.exp (-(2 * Real.pi * Complex.I * k * s / n)) := by
    rw [mul_sum, mul_sum, ← sum_add_distrib]
    refine sum_congr rfl fun s _ => ?_
    push_cast
    ring
  rw [this]
  ring

theorem stripeGain_neg (n : ℕ) (sigma : ℝ) (f : ℕ) (hf : 2 * f ≤ n) (hn : 0 < n) :
    stripeGain n sigma ((-(f : ℤ)) % n).toNat = stripeGain n sigma f := by
  have hmod : f ≠ 0 → (-(f : ℤ)) % n = n - f := by
    intro h0
    rw [Int.emod_eq_iff (by omega)]
    refine ⟨by omega, by omega, ?_⟩
    exact ⟨1, by ring⟩
  have key : (fftfreq n ((-(f : ℤ)) % n).toNat : ℝ) ^ 2 = (fftfreq n f : ℝ) ^ 2 := by
    have : (fftfreq n ((-(f : ℤ)) % n).toNat) = fftfreq n f ∨ (fftfreq n ((-(f : ℤ)) % n).toNat) = -fftfreq n f := by
      rcases Nat.eq_zero_or_pos f with rfl | h0
      · left; simp
      · rw [hmod h0.ne']
        have : ((n : ℤ) - f).toNat = n - f := by omega
        rw [this]
        unfold fftfreq
        rcases hf.eq_or_lt with h | h
        · left; rw [if_neg (by omega), if_neg (by omega)]; omega
        · right; rw [if_neg (by omega), if_pos h]; omega
    rcases this with h | h <;> rw [h]
    push_cast
    ring
  unfold stripeGain
  rw [div_pow, key, ← div_pow]

/-- The filter on a real oscillation of `f` periods. -/
theorem angleFilter_cos (n : ℕ) (sigma phi : ℝ) (f : ℕ) (hf : 2 * f ≤ n) (hn : 0 < n) (t : ℕ) :
    angleFilter n sigma (fun s => Real.cos (2 * Real.pi * f * s / n + phi)) t =
      stripeGain n sigma f * Real.cos (2 * Real.pi * f * t / n + phi) := by
  have hrow : ∀ s : ℕ, ((Real.cos (2 * Real.pi * f * s / n + phi) : ℝ) : ℂ) =
      (Complex.exp (phi * Complex.I) * ee n f s + Complex.exp (-(phi * Complex.I)) * ee n (-f) s) / 2 := by
    intro s
    unfold ee
    rw [Complex.ofReal_cos, Complex.cos, ← Complex.exp_add, ← Complex.exp_add]
    congr 2
    · congr 1; push_cast; ring
    · congr 1; push_cast; ring
  have hf0 : ((f : ℤ) % n).toNat = f := by
    rw [Int.emod_eq_of_lt (by omega) (by omega)]
    simp
  unfold angleFilter
  have e : ∀ k : ℕ, (∑ s ∈ range n, ((Real.cos (2 * Real.pi * f * s / n + phi) : ℝ) : ℂ) * Complex.exp (-(2 * Real.pi * Complex.I * k * s / n))) =
      Complex.exp (phi * Complex.I) / 2 * (∑ s ∈ range n, ee n f s * Complex.exp (-(2 * Real.pi * Complex.I * k * s / n))) +
      Complex.exp (-(phi * Complex.I)) / 2 * ∑ s ∈ range n, ee n (-f) s * Complex.exp (-(2 * Real.pi * Complex.I * k * s / n)) := by
    intro k
    rw [mul_sum, mul_sum, ← sum_add_distrib]
    refine sum_congr rfl fun s _ => ?_
    rw [hrow]
    ring
  simp only [e]
  have h1 := filter_ee hn (stripeGain n sigma) f t
  have h2 := filter_ee hn (stripeGain n sigma) (-f) t
  rw [hf0] at h1
  rw [stripeGain_neg n sigma f hf hn] at h2
  have tot : (∑ k ∈ range n, (stripeGain n sigma k : ℂ) * (Complex.exp (phi * Complex.I) / 2 * (∑ s ∈ range n, ee n f s * Complex.exp (-(2 * Real.pi * Complex.I * k * s / n))) +
      Complex.exp (-(phi * Complex.I)) / 2 * ∑ s ∈ range n, ee n (-f) s * Complex.exp (-(2 * Real.pi * Complex.I * k * s / n))) *
      Complex.exp (2 * Real.pi * Complex.I * k * t / n)) / n =
      Complex.exp (phi * Complex.I) / 2 * (stripeGain n sigma f * ee n f t) + Complex.exp (-(phi * Complex.I)) / 2 * (stripeGain n sigma f * ee n (-f) t) := by
    rw [← h1, ← h2, mul_div_assoc', mul_div_assoc', ← add_div, mul_sum, mul_sum, ← sum_add_distrib]
    congr 1
    refine sum_congr rfl fun k _ => ?_
    ring
  rw [tot]
  have : Complex.exp (phi * Complex.I) / 2 * (stripeGain n sigma f * ee n f t) + Complex.exp (-(phi * Complex.I)) / 2 * (stripeGain n sigma f * ee n (-f) t) =
      ((stripeGain n sigma f * Real.cos (2 * Real.pi * f * t / n + phi) : ℝ) : ℂ) := by
    rw [Complex.ofReal_mul, hrow]
    ring
  rw [this, Complex.ofReal_re]

theorem angleFilter_const (n : ℕ) (hn : 0 < n) (sigma c : ℝ) (row : ℕ → ℝ) (h : ∀ s < n, row s = c) (t : ℕ) : angleFilter n sigma row t = 0 := by
  have e : angleFilter n sigma row t = angleFilter n sigma (fun s => c * Real.cos (2 * Real.pi * (0 : ℕ) * s / n + 0) + 0 * 0) t := by
    unfold angleFilter
    congr 2
    refine sum_congr rfl fun k _ => ?_
    congr 2
    refine sum_congr rfl fun s hs => ?_
    rw [h s (mem_range.1 hs)]
    simp
  rw [e, angleFilter_linear n sigma c 0 (fun s => Real.cos (2 * Real.pi * (0 : ℕ) * s / n + 0)) (fun _ => 0), angleFilter_cos n sigma 0 0 (by omega) hn]
  simp [stripeGain, fftfreq, hn]

theorem stripeGain_val (n : ℕ) (sigma : ℝ) (f : ℕ) (hf : 2 * f ≤ n) :
    stripeGain n sigma f = 1 - Real.exp (-((f : ℝ) / n) ^ 2 / (2 * sigma ^ 2)) := by
  have : (fftfreq n f : ℝ) ^ 2 = (f : ℝ) ^ 2 := by
    unfold fftfreq
    split_ifs with h
    · push_cast; rfl
    · have : (n : ℝ) = 2 * f := by exact_mod_cast (by omega : n = 2 * f)
      push_cast
      rw [this]
      ring
  unfold stripeGain
  rw [div_pow, this, ← div_pow]

theorem angleFilter_congr (n : ℕ) (sigma : ℝ) (x y : ℕ → ℝ) (h : ∀ s < n, x s = y s) (t : ℕ) : angleFilter n sigma x t = angleFilter n sigma y t := by
  unfold angleFilter
  congr 2
  refine sum_congr rfl fun k _ => ?_
  congr 2
  refine sum_congr rfl fun s hs => ?_
  rw [h s (mem_range.1 hs)]

/-- **C179, gains.** The filter along the angles keeps each oscillation along them as it is but for a factor, that does not depend on its
phase: 0 for what is constant, below 1 for all, and larger for faster oscillations. -/
theorem C179_gains (n : ℕ) (hn : 0 < n) (sigma : ℝ) (hs : sigma ≠ 0) :
    ∃ gain : ℕ → ℝ, gain 0 = 0 ∧ (∀ f, 2 * f ≤ n → 0 ≤ gain f ∧ gain f < 1) ∧ (∀ f g, f < g → 2 * g ≤ n → gain f < gain g) ∧
      (∀ f phi t, 2 * f ≤ n → angleFilter n sigma (fun s => Real.cos (2 * Real.pi * f * s / n + phi)) t =
        gain f * Real.cos (2 * Real.pi * f * t / n + phi)) ∧
      ∀ f, 2 * f ≤ n → gain f = 1 - Real.exp (-((f : ℝ) / n) ^ 2 / (2 * sigma ^ 2)) := by
  have hsq : 0 < 2 * sigma ^ 2 := by positivity
  have hval := stripeGain_val n sigma
  have hn' : (0 : ℝ) < n := by exact_mod_cast hn
  refine ⟨stripeGain n sigma, by simp [stripeGain, fftfreq, hn], fun f hf => ?_, fun f g hfg hg => ?_,
    fun f phi t hf => angleFilter_cos n sigma phi f hf hn t, hval⟩
  · rw [hval f hf]
    have h1 : Real.exp (-((f : ℝ) / n) ^ 2 / (2 * sigma ^ 2)) ≤ 1 := by
      rw [Real.exp_le_one_iff, neg_div]
      exact neg_nonpos.2 (div_nonneg (sq_nonneg _) hsq.le)
    have h2 := Real.exp_pos (-((f : ℝ) / n) ^ 2 / (2 * sigma ^ 2))
    constructor <;> linarith
  · rw [hval f (by omega), hval g hg]
    have hfg' : (f : ℝ) / n < (g : ℝ) / n := div_lt_div_of_pos_right (by exact_mod_cast hfg) hn'
    have : Real.exp (-((g : ℝ) / n) ^ 2 / (2 * sigma ^ 2)) < Real.exp (-((f : ℝ) / n) ^ 2 / (2 * sigma ^ 2)) := by
      rw [Real.exp_lt_exp]
      refine div_lt_div_of_pos_right ?_ hsq
      have : ((f : ℝ) / n) ^ 2 < ((g : ℝ) / n) ^ 2 := pow_lt_pow_left₀ hfg' (by positivity) (by norm_num)
      linarith
    linarith

/-- Specification: what is assumed of the wavelet transform on arrays of the shape `big`: it is linear, the inverse gives the array back and
uses the bands only where they are, and an array that does not change along the axis `a` has bands that do not change along `a`. -/
structure Spec.SwtOk {d : ℕ} {B : Type} (swt : SwtPair d B) (big : Fin d → ℕ) (a : Fin d) : Prop where
  dec_linear : ∀ (p q : ℝ) x y b i, swt.dec big (fun i => p * x i + q * y i) b i = p * swt.dec big x b i + q * swt.dec big y b i
  inv_linear : ∀ (p q : ℝ) x y i, swt.inv big (fun b i => p * x b i + q * y b i) i = p * swt.inv big x i + q * swt.inv big y i
  inverse : ∀ x i, Inside big i → swt.inv big (swt.dec big x) i = x i
  inv_local : ∀ x y, (∀ b i, Inside big i → x b i = y b i) → ∀ i, Inside big i → swt.inv big x i = swt.inv big y i
  invariant : ∀ x, (∀ i (s : ℤ), x (Function.update i a s) = x i) → ∀ b i (s : ℤ), swt.dec big x b (Function.update i a s) = swt.dec big x b i

/-- **C179, sizes.** The data is padded, at both sides but for one pixel equally, to the smallest sizes that are multiples of
`2 ** level`, as the wavelet transform needs them. -/
theorem C179_padding (level s : ℕ) (hs : 0 < s) :
    2 ^ level ∣ stripeTarget level s ∧ s ≤ stripeTarget level s ∧ stripeTarget level s < s + 2 ^ level ∧
    (stripePad level s).1 + s + (stripePad level s).2 = stripeTarget level s ∧
    ((stripePad level s).1 = (stripePad level s).2 ∨ (stripePad level s).1 = (stripePad level s).2 + 1) := by
  have hp : 0 < 2 ^ level := Nat.two_pow_pos level
  have h1 := Nat.div_add_mod (s + 2 ^ level - 1) (2 ^ level)
  have h2 := Nat.mod_lt (s + 2 ^ level - 1) hp
  have ht : stripeTarget level s = 2 ^ level * ((s + 2 ^ level - 1) / 2 ^ level) := by unfold stripeTarget; rw [mul_comm]
  refine ⟨⟨_, ht⟩, by omega, by omega, ?_, ?_⟩
  · unfold stripePad
    simp only
    omega
  · unfold stripePad
    simp only
    omega

/-- **C179, violated.** Two things that `destripe_wlf_vwu` should do and does not: the wavelet transform leaves out the axis of the angles
(it does not, for any data), and the angles may be along any axis (with two axes, if they are along the last one the call fails, whatever
the transform, for square data of more than two pixels; and with three axes, if they are along the first one of a cube). -/
theorem C179_destripe_violated :
    (¬ ∀ (d : ℕ) (a : Fin d), a ∉ stripeAxes d a) ∧
    (∀ (B : Type) (swt : SwtPair (0 + 2) B) (sigma : ℝ) (level n : ℕ) (img : (Fin (0 + 2) → ℤ) → ℝ), (∃ b, swt.approx b = false) → 2 < n →
      destripe swt sigma level (fun _ => n) (-1) img = none) ∧
    (∀ (B : Type) (swt : SwtPair (1 + 2) B) (sigma : ℝ) (level n : ℕ) (img : (Fin (1 + 2) → ℤ) → ℝ), (∃ b, swt.approx b = false) → 2 < n →
      destripe swt sigma level (fun _ => n) 0 img = none) := by
  have main : ∀ (e : ℕ) (B : Type) (swt : SwtPair (e + 2) B) (sigma : ℝ) (level n : ℕ) (img : (Fin (e + 2) → ℤ) → ℝ) (axis : ℤ) (a : Fin (e + 2)),
      pyAxis (e + 2) axis = some a → a ≠ lastButOne e → (∃ b, swt.approx b = false) → 2 < n → destripe swt sigma level (fun _ => n) axis img = none := by
    intro e B swt sigma level n img axis a ha hne ⟨b, hb⟩ hn
    have hbig : stripeShape level (fun _ : Fin (e + 2) => n) a = fun _ => stripeTarget level n := by
      funext k; simp [stripeShape, stripeAxes]
    unfold destripe
    rw [ha, Option.bind_some]
    unfold destripeAlong
    rw [hbig]
    apply if_pos
    refine ⟨b, hb, ?_⟩
    unfold stripeBand
    have := (C179_padding level n (by omega)).2.1
    rw [if_neg hne, if_neg (by dsimp only; omega), if_neg (by dsimp only; omega)]
  refine ⟨fun h => h 2 0 (by simp [stripeAxes]), fun B swt sigma level n img hb hn => ?_, fun B swt sigma level n img hb hn => ?_⟩
  · exact main 0 B swt sigma level n img (-1) 1 (pyAxis_eq 2 1 (-1) (Or.inr rfl)) (by decide) hb hn
  · exact main 1 B swt sigma level n img 0 0 (pyAxis_eq 3 0 0 (Or.inl rfl)) (by decide) hb hn

/-- **C179, proved part.** For data of any shape, wavelet transform that meets the specification, level and angles along the last but one
axis (the default): `destripe_wlf_vwu` returns data of the same shape, is linear, leaves of data that is the same for all angles (stripes)
only the approximation bands, changes no data whose details vanish, and of data whose details are an oscillation of `f` periods along the
angles scales the details by `1 - exp(-(f / angles)² / (2 sigma²))`. -/
theorem C179_destripe_partial {e : ℕ} {B : Type} (swt : SwtPair (e + 2) B) (sigma : ℝ) (level : ℕ) (shape : Fin (e + 2) → ℕ) (hs : ∀ k, 0 < shape k)
    (axis : ℤ) (hax : axis = -2 ∨ axis = e) (hswt : Spec.SwtOk swt (fun k => stripeTarget level (shape k)) (lastButOne e)) :
    let big := fun k => stripeTarget level (shape k)
    let padded := fun (img : (Fin (e + 2) → ℤ) → ℝ) (i : Fin (e + 2) → ℤ) => img fun k => clampPos (shape k) (i k - (stripePad level (shape k)).1)
    (∀ img, (destripe swt sigma level shape axis img).isSome) ∧
    (∀ img img' (p q : ℝ) r r', destripe swt sigma level shape axis img = some r → destripe swt sigma level shape axis img' = some r' →
      destripe swt sigma level shape axis (fun i => p * img i + q * img' i) = some fun i => p * r i + q * r' i) ∧
    (∀ img, (∀ i i', (∀ k, k ≠ lastButOne e → i k = i' k) → img i = img i') → ∃ r, destripe swt sigma level shape axis img = some r ∧
      ∀ i, r i = swt.inv big (fun b => if swt.approx b then swt.dec big (padded img) b else fun _ => 0) fun k => i k + (stripePad level (shape k)).1) ∧
    (∀ img, (∀ b, swt.approx b = false → ∀ i, swt.dec big (padded img) b i = 0) → ∃ r, destripe swt sigma level shape axis img = some r ∧
      ∀ i, Inside shape i → r i = img i) ∧
    (∀ img (f : ℕ) (phi : ℝ) (amp : B → (Fin (e + 2) → ℤ) → ℝ), 2 * f ≤ big (lastButOne e) →
      (∀ b i (s : ℤ), amp b (Function.update i (lastButOne e) s) = amp b i) →
      (∀ b, swt.approx b = false → ∀ i, Inside big i → swt.dec big (padded img) b i =
          amp b i * Real.cos (2 * Real.pi * f * (i (lastButOne e) : ℝ) / big (lastButOne e) + phi)) →
      ∃ r, destripe swt sigma level shape axis img = some r ∧ ∀ i, Inside shape i → r i = swt.inv big (fun b i => if swt.approx b then
        swt.dec big (padded img) b i else (1 - Real.exp (-((f : ℝ) / big (lastButOne e)) ^ 2 / (2 * sigma ^ 2))) * swt.dec big (padded img) b i)
          fun k => i k + (stripePad level (shape k)).1) := by
  intro big padded
  have hpos : ∀ k, 0 < big k := fun k => lt_of_lt_of_le (hs k) (C179_padding level (shape k) (hs k)).2.1
  have ha : pyAxis (e + 2) axis = some (lastButOne e) := pyAxis_eq (e + 2) (lastButOne e) axis (by
    rcases hax with h | h
    · right; rw [h]; show (-2 : ℤ) = ((e : ℕ) : ℤ) - ((e + 2 : ℕ) : ℤ); push_cast; ring
    · left; rw [h]; rfl)
  have hval : ∀ img, destripe swt sigma level shape axis img = some fun i =>
      swt.inv big (fun b => if swt.approx b then swt.dec big (padded img) b else fun i =>
        angleFilter (big (lastButOne e)) sigma (fun s => swt.dec big (padded img) b (Function.update i (lastButOne e) (s : ℤ))) (i (lastButOne e)).toNat)
        fun k => i k + (stripePad level (shape k)).1 := by
    intro img
    have hbig : stripeShape level shape (lastButOne e) = big := by
      funext k; simp [stripeShape, stripeAxes, big]
    have hpads : stripePads level shape (lastButOne e) = fun k => stripePad level (shape k) := by
      funext k; simp [stripePads, stripeAxes]
    have hpadded : stripePadded level shape (lastButOne e) img = padded img := by
      unfold stripePadded
      rw [hpads]
    unfold destripe
    rw [ha, Option.bind_some]
    unfold destripeAlong
    rw [hbig, hpadded, hpads]
    refine (if_neg ?_).trans ?_
    · rintro ⟨b, -, hb⟩
      simp [stripeBand] at hb
    · simp only [stripeBand, if_true, Option.getD_some]
  refine ⟨fun img => by rw [hval]; rfl, ?_, ?_, ?_, ?_⟩
  · intro img img' p q r r' hr hr'
    rw [hval] at hr hr' ⊢
    rw [← Option.some.inj hr, ← Option.some.inj hr']
    congr 1
    funext i
    show _ = p * swt.inv big _ _ + q * swt.inv big _ _
    rw [← hswt.inv_linear]
    congr 1
    funext b j
    have hpad : padded (fun i => p * img i + q * img' i) = fun i => p * padded img i + q * padded img' i := rfl
    rw [hpad]
    split_ifs
    · exact hswt.dec_linear p q (padded img) (padded img') b j
    · simp only
      rw [← angleFilter_linear]
      congr 1
      funext s
      exact hswt.dec_linear p q (padded img) (padded img') b _
  · intro img himg
    refine ⟨_, hval img, fun i => ?_⟩
    have hinv : ∀ b i (s : ℤ), swt.dec big (padded img) b (Function.update i (lastButOne e) s) = swt.dec big (padded img) b i := by
      refine hswt.invariant (padded img) fun i s => himg _ _ fun k hk => ?_
      rw [Function.update_of_ne hk]
    congr 1
    funext b
    split_ifs
    · rfl
    · funext j
      exact angleFilter_const _ (hpos _) sigma (swt.dec big (padded img) b j) _ (fun s _ => hinv b j s) _
  · intro img hz
    refine ⟨_, hval img, fun i hi => ?_⟩
    have hb : (fun b => if swt.approx b then swt.dec big (padded img) b else fun i =>
        angleFilter (big (lastButOne e)) sigma (fun s => swt.dec big (padded img) b (Function.update i (lastButOne e) (s : ℤ))) (i (lastButOne e)).toNat) =
        swt.dec big (padded img) := by
      funext b
      split_ifs with h
      · rfl
      · funext j
        have h' : swt.approx b = false := by simpa using h
        rw [hz b h' j]
        exact angleFilter_const _ (hpos _) sigma 0 _ (fun s _ => hz b h' _) _
    show swt.inv big _ _ = _
    rw [hb, hswt.inverse]
    · show img _ = img i
      congr 1
      funext k
      have h0 : 0 ≤ i k ∧ i k < shape k := hi k
      show clampPos (shape k) (i k + ((stripePad level (shape k)).1 : ℤ) - ((stripePad level (shape k)).1 : ℤ)) = i k
      unfold clampPos
      omega
    · intro k
      have h0 : 0 ≤ i k ∧ i k < shape k := hi k
      have h1 := (C179_padding level (shape k) (hs k)).2.2.2.1
      have h2 : ((stripePad level (shape k)).1 : ℤ) + shape k + (stripePad level (shape k)).2 = big k := by exact_mod_cast h1
      show (0 : ℤ) ≤ i k + ((stripePad level (shape k)).1 : ℤ) ∧ i k + ((stripePad level (shape k)).1 : ℤ) < (big k : ℤ)
      constructor <;> omega
  · intro img f phi amp hf hamp hosc
    refine ⟨_, hval img, fun i hi => ?_⟩
    refine hswt.inv_local _ _ (fun b j hj => ?_) _ (fun k => ?_)
    · cases hb : swt.approx b with
      | true => rfl
      | false =>
        have hj0 : 0 ≤ j (lastButOne e) ∧ j (lastButOne e) < big (lastButOne e) := hj _
        show angleFilter _ _ _ _ = _ * _
        rw [angleFilter_congr _ _ _ (fun s : ℕ => amp b j * Real.cos (2 * Real.pi * f * s / big (lastButOne e) + phi) + 0 * 0)]
        · rw [angleFilter_linear _ _ (amp b j) 0 (fun s : ℕ => Real.cos (2 * Real.pi * f * s / big (lastButOne e) + phi)) (fun _ => 0),
            angleFilter_cos _ _ _ _ hf (hpos _), stripeGain_val _ _ _ hf, hosc b hb j hj]
          have : ((j (lastButOne e)).toNat : ℝ) = (j (lastButOne e) : ℝ) := by
            have : ((j (lastButOne e)).toNat : ℤ) = j (lastButOne e) := Int.toNat_of_nonneg hj0.1
            exact_mod_cast congrArg (Int.cast (R := ℝ)) this
          rw [this]
          ring
        · intro s hs'
          show swt.dec big (padded img) b (Function.update j (lastButOne e) (s : ℤ)) = _
          rw [hosc b hb, hamp, Function.update_self]
          · push_cast
            ring
          · intro k
            by_cases hk : k = lastButOne e
            · subst hk
              rw [Function.update_self]
              exact ⟨by omega, by exact_mod_cast hs'⟩
            · rw [Function.update_of_ne hk]
              exact hj k
    · have h0 : 0 ≤ i k ∧ i k < shape k := hi k
      have h1 := (C179_padding level (shape k) (hs k)).2.2.2.1
      have h2 : ((stripePad level (shape k)).1 : ℤ) + shape k + (stripePad level (shape k)).2 = big k := by exact_mod_cast h1
      show (0 : ℤ) ≤ i k + ((stripePad level (shape k)).1 : ℤ) ∧ i k + ((stripePad level (shape k)).1 : ℤ) < (big k : ℤ)
      constructor <;> omega

/-- A transform with one approximation and one detail band, of half the array each, meets the specification. -/
example : Spec.SwtOk (d := 2) ⟨id, fun _ x (b : Bool) i => if b then x i / 4 else 3 * x i / 4, fun _ y i => y true i + y false i⟩ (fun _ => 4) 0 where
  dec_linear p q x y b i := by dsimp only; split_ifs <;> ring
  inv_linear p q x y i := by ring
  inverse x i _ := by simp; ring
  inv_local x y h i hi := by dsimp only; rw [h _ _ hi, h _ _ hi]
  invariant x h b i s := by dsimp only; rw [h]

end Verif
