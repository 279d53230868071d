import Mathlib.Algebra.Order.BigOperators.Ring.Finset
import Verif.Model.Analysis

/-!
# Azimuthal integration (C46) and Fourier ring correlation (C50, C109, C110)
-/

namespace Verif

open Finset

variable {d : ℕ} {dims : Fin d → ℕ}

/-- The share of a pixel in the bin `k`. -/
noncomputable def azWeight (fourier : Bool) (p : Pixel dims) (k : ℕ) : ℝ :=
  (if ⌊azRadius fourier p⌋₊ = k then ((⌊azRadius fourier p⌋₊ + 1 : ℝ) - azRadius fourier p) else 0) +
  if ⌊azRadius fourier p⌋₊ + 1 = k then (azRadius fourier p - ⌊azRadius fourier p⌋₊) else 0

theorem azRadius_nonneg (fourier : Bool) (p : Pixel dims) : 0 ≤ azRadius fourier p := Real.sqrt_nonneg _

theorem azimuthal_eq (fourier : Bool) (img : Pixel dims → ℝ) (k : ℕ) :
    azimuthal fourier img k = ∑ p, azWeight fourier p k * img p := by
  unfold azimuthal azWeight
  rw [← sum_add_distrib]
  refine sum_congr rfl fun p _ => ?_
  split_ifs <;> ring

theorem azWeight_nonneg (fourier : Bool) (p : Pixel dims) (k : ℕ) : 0 ≤ azWeight fourier p k := by
  have h1 := Nat.floor_le (azRadius_nonneg fourier p)
  have h2 := Nat.lt_floor_add_one (azRadius fourier p)
  unfold azWeight
  refine add_nonneg ?_ ?_ <;> split_ifs <;> first | exact le_rfl | linarith

theorem azWeight_sum (fourier : Bool) (p : Pixel dims) (g : ℕ → ℝ) :
    ∑ k ∈ range (azLength dims fourier), g k * azWeight fourier p k =
      g ⌊azRadius fourier p⌋₊ * ((⌊azRadius fourier p⌋₊ + 1 : ℝ) - azRadius fourier p) +
      g (⌊azRadius fourier p⌋₊ + 1) * (azRadius fourier p - ⌊azRadius fourier p⌋₊) := by
  have hm : ⌊azRadius fourier p⌋₊ + 1 < azLength dims fourier := by
    unfold azLength
    have := Finset.le_sup (f := fun p : Pixel dims => ⌊azRadius fourier p⌋₊ + 1) (mem_univ p)
    omega
  unfold azWeight
  simp only [mul_add, mul_ite, mul_zero]
  rw [sum_add_distrib, sum_ite_eq, sum_ite_eq, if_pos (mem_range.2 (by omega)), if_pos (mem_range.2 hm)]

/-! ## C46 -/

/-- **C46.** For any image, any number of axes and both domains: the profile sums to the sum of the image, its first moment is the sum of
the image times the distance from the centre, and it is not negative if the image is not. -/
theorem C46_azimuthal_sum (fourier : Bool) (img : Pixel dims → ℝ) :
    ∑ k ∈ range (azLength dims fourier), azimuthal fourier img k = ∑ p, img p ∧
    ∑ k ∈ range (azLength dims fourier), (k : ℝ) * azimuthal fourier img k =
      ∑ p, img p * Real.sqrt (∑ a, (if fourier then (fftfreq (dims a) (p a) : ℝ) else ((p a : ℕ) : ℝ) - ((dims a : ℝ) - 1) / 2) ^ 2) ∧
    ((∀ p, 0 ≤ img p) → ∀ k, 0 ≤ azimuthal fourier img k) := by
  have key : ∀ g : ℕ → ℝ, ∑ k ∈ range (azLength dims fourier), g k * azimuthal fourier img k =
      ∑ p, (∑ k ∈ range (azLength dims fourier), g k * azWeight fourier p k) * img p := by
    intro g
    simp only [azimuthal_eq, mul_sum, sum_mul]
    rw [sum_comm]
    exact sum_congr rfl fun p _ => sum_congr rfl fun k _ => by ring
  refine ⟨?_, ?_, ?_⟩
  · have := key (fun _ => 1)
    simp only [one_mul] at this
    rw [this]
    refine sum_congr rfl fun p _ => ?_
    have h := azWeight_sum fourier p (fun _ => 1)
    simp only [one_mul] at h
    rw [h]
    ring
  · rw [key (fun k => (k : ℝ))]
    refine sum_congr rfl fun p _ => ?_
    rw [azWeight_sum]
    show _ = img p * azRadius fourier p
    push_cast
    ring
  · intro h k
    rw [azimuthal_eq]
    exact sum_nonneg fun p _ => mul_nonneg (azWeight_nonneg fourier p k) (h p)

/-- Not vacuous: a row of three pixels has the profile `(b, a + c, 0)`. -/
example (a b c : ℝ) : azimuthal (dims := fun _ : Fin 1 => 3) false (fun p => ![a, b, c] (p 0)) 0 = b := by
  have e : ∀ p : Pixel (fun _ : Fin 1 => 3), azRadius false p = |((p 0 : ℕ) : ℝ) - 1| := by
    intro p
    unfold azRadius azCoord
    simp only [univ_unique, Fin.default_eq_zero, sum_singleton]
    rw [← Real.sqrt_sq_eq_abs]
    norm_num
  rw [azimuthal_eq, ← (Equiv.funUnique (Fin 1) (Fin 3)).symm.sum_comp]
  simp only [Fin.sum_univ_three, azWeight, e]
  simp
  norm_num

/-! ## Correlations -/

theorem weighted_cauchy {ι : Type} [Fintype ι] (w : ι → ℝ) (hw : ∀ i, 0 ≤ w i) (a b : ι → ℂ) :
    Real.sqrt ((∑ i, w i * (a i * starRingEnd ℂ (b i)).re) ^ 2 + (∑ i, w i * (a i * starRingEnd ℂ (b i)).im) ^ 2) ≤
      Real.sqrt ((∑ i, w i * ‖a i‖ ^ 2) * ∑ i, w i * ‖b i‖ ^ 2) := by
  have h1 : Real.sqrt ((∑ i, w i * (a i * starRingEnd ℂ (b i)).re) ^ 2 + (∑ i, w i * (a i * starRingEnd ℂ (b i)).im) ^ 2) =
      ‖∑ i, (w i : ℂ) * (a i * starRingEnd ℂ (b i))‖ := by
    rw [Complex.norm_eq_sqrt_sq_add_sq, Complex.re_sum, Complex.im_sum]
    simp only [Complex.re_ofReal_mul, Complex.im_ofReal_mul]
  rw [h1]
  refine Real.le_sqrt_of_sq_le ?_
  have h2 : ‖∑ i, (w i : ℂ) * (a i * starRingEnd ℂ (b i))‖ ≤ ∑ i, w i * (‖a i‖ * ‖b i‖) := by
    refine (norm_sum_le _ _).trans (le_of_eq (sum_congr rfl fun i _ => ?_))
    rw [norm_mul, norm_mul, Complex.norm_conj, Complex.norm_real, Real.norm_of_nonneg (hw i)]
  have h3 : (∑ i, w i * (‖a i‖ * ‖b i‖)) ^ 2 ≤ (∑ i, w i * ‖a i‖ ^ 2) * ∑ i, w i * ‖b i‖ ^ 2 := by
    refine sum_sq_le_sum_mul_sum_of_sq_eq_mul _ (fun i _ => mul_nonneg (hw i) (sq_nonneg _)) (fun i _ => mul_nonneg (hw i) (sq_nonneg _))
      fun i _ => by ring
  exact (pow_le_pow_left₀ (norm_nonneg _) h2 2).trans h3

theorem frcRing_bounds (taper x y : Pixel dims → ℝ) (k : ℕ) : 0 ≤ frcRing taper x y k ∧ frcRing taper x y k ≤ 1 := by
  unfold frcRing
  simp only [azimuthal_eq]
  refine ⟨by positivity, ?_⟩
  have hc := weighted_cauchy (fun p : Pixel dims => azWeight true p k) (fun p => azWeight_nonneg true p k)
    (fftn (fun p => x p * taper p)) (fftn (fun p => y p * taper p))
  have he : 0 ≤ (∑ p, azWeight true p k * ‖fftn (fun p => x p * taper p) p‖ ^ 2) *
      ∑ p, azWeight true p k * ‖fftn (fun p => y p * taper p) p‖ ^ 2 :=
    mul_nonneg (sum_nonneg fun p _ => mul_nonneg (azWeight_nonneg true p k) (sq_nonneg _))
      (sum_nonneg fun p _ => mul_nonneg (azWeight_nonneg true p k) (sq_nonneg _))
  refine div_le_one_of_le₀ (hc.trans (Real.sqrt_le_sqrt ?_)) (Real.sqrt_nonneg _)
  split_ifs <;> linarith

/-- The energy of an image on a ring. -/
noncomputable def ringEnergy (taper x : Pixel dims → ℝ) (k : ℕ) : ℝ := azimuthal true (fun p => ‖fftn (fun p => x p * taper p) p‖ ^ 2) k

theorem fftn_smul (taper x : Pixel dims → ℝ) (c : ℝ) (p : Pixel dims) :
    fftn (fun p => c * x p * taper p) p = c * fftn (fun p => x p * taper p) p := by
  unfold fftn
  rw [mul_sum]
  refine sum_congr rfl fun q _ => ?_
  push_cast
  ring

theorem frcRing_self (taper x : Pixel dims → ℝ) (c : ℝ) (hc : c ≠ 0) (k : ℕ) (h : 0 < ringEnergy taper x k) :
    frcRing taper x (fun p => c * x p) k = 1 := by
  unfold ringEnergy at h
  unfold frcRing
  simp only [fftn_smul]
  set f := fftn (fun p => x p * taper p) with hf
  have hz : ∀ p, f p * starRingEnd ℂ ((c : ℂ) * f p) = ((c * ‖f p‖ ^ 2 : ℝ) : ℂ) := by
    intro p
    rw [map_mul, Complex.conj_ofReal, mul_left_comm, Complex.mul_conj, Complex.normSq_eq_norm_sq]
    push_cast
    ring
  have hr : azimuthal true (fun p => (f p * starRingEnd ℂ ((c : ℂ) * f p)).re) k = c * azimuthal true (fun p => ‖f p‖ ^ 2) k := by
    simp only [azimuthal_eq, hz, Complex.ofReal_re, mul_sum]
    exact sum_congr rfl fun p _ => by ring
  have hi : azimuthal true (fun p => (f p * starRingEnd ℂ ((c : ℂ) * f p)).im) k = 0 := by
    simp only [azimuthal_eq, hz, Complex.ofReal_im, mul_zero, sum_const_zero]
  have h2 : azimuthal true (fun p => ‖(c : ℂ) * f p‖ ^ 2) k = c ^ 2 * azimuthal true (fun p => ‖f p‖ ^ 2) k := by
    simp only [azimuthal_eq, norm_mul, Complex.norm_real, mul_pow, Real.norm_eq_abs, sq_abs, mul_sum]
    exact sum_congr rfl fun p _ => by ring
  rw [hr, hi, h2]
  set e := azimuthal true (fun p => ‖f p‖ ^ 2) k with he
  have hce : 0 < c ^ 2 := by positivity
  rw [if_neg (by positivity), add_zero]
  have : (c * e) ^ 2 + 0 ^ 2 = e * (c ^ 2 * e) := by ring
  rw [this]
  exact div_self (Real.sqrt_ne_zero'.2 (by positivity))

theorem frcRing_symm (taper x y : Pixel dims → ℝ) (k : ℕ) : frcRing taper x y k = frcRing taper y x k := by
  unfold frcRing
  simp only
  set f := fftn (fun p => x p * taper p)
  set g := fftn (fun p => y p * taper p)
  have hz : ∀ p, f p * starRingEnd ℂ (g p) = starRingEnd ℂ (g p * starRingEnd ℂ (f p)) := by
    intro p
    rw [map_mul, Complex.conj_conj, mul_comm]
  simp only [hz, Complex.conj_re, Complex.conj_im, azimuthal_eq, mul_neg, sum_neg_distrib, neg_sq]
  rw [mul_comm (∑ p, azWeight true p k * ‖f p‖ ^ 2)]

theorem frcRing_scale (taper x y : Pixel dims → ℝ) (c : ℝ) (hc : c ≠ 0) (k : ℕ) :
    frcRing taper (fun p => c * x p) y k = frcRing taper x y k := by
  unfold frcRing
  simp only [fftn_smul]
  set f := fftn (fun p => x p * taper p)
  set g := fftn (fun p => y p * taper p)
  have hr : azimuthal true (fun p => ((c : ℂ) * f p * starRingEnd ℂ (g p)).re) k = c * azimuthal true (fun p => (f p * starRingEnd ℂ (g p)).re) k := by
    simp only [azimuthal_eq, mul_assoc, Complex.re_ofReal_mul, mul_sum]
    exact sum_congr rfl fun p _ => by ring
  have hi : azimuthal true (fun p => ((c : ℂ) * f p * starRingEnd ℂ (g p)).im) k = c * azimuthal true (fun p => (f p * starRingEnd ℂ (g p)).im) k := by
    simp only [azimuthal_eq, mul_assoc, Complex.im_ofReal_mul, mul_sum]
    exact sum_congr rfl fun p _ => by ring
  have h2 : azimuthal true (fun p => ‖(c : ℂ) * f p‖ ^ 2) k = c ^ 2 * azimuthal true (fun p => ‖f p‖ ^ 2) k := by
    simp only [azimuthal_eq, norm_mul, Complex.norm_real, mul_pow, Real.norm_eq_abs, sq_abs, mul_sum]
    exact sum_congr rfl fun p _ => by ring
  rw [hr, hi, h2]
  have hcauchy : ∀ e1 e2 r i : ℝ, e1 * e2 = 0 → Real.sqrt (r ^ 2 + i ^ 2) ≤ Real.sqrt (e1 * e2) → r = 0 ∧ i = 0 := by
    intro e1 e2 r i h h1
    rw [h, Real.sqrt_zero] at h1
    have h2 := Real.sqrt_eq_zero'.1 (le_antisymm h1 (Real.sqrt_nonneg _))
    constructor <;> nlinarith [sq_nonneg r, sq_nonneg i]
  have hW := weighted_cauchy (fun p : Pixel dims => azWeight true p k) (fun p => azWeight_nonneg true p k) f g
  simp only [← azimuthal_eq] at hW
  generalize azimuthal true (fun p => (f p * starRingEnd ℂ (g p)).re) k = r at *
  generalize azimuthal true (fun p => (f p * starRingEnd ℂ (g p)).im) k = i at *
  generalize azimuthal true (fun p => ‖f p‖ ^ 2) k = e1 at *
  generalize azimuthal true (fun p => ‖g p‖ ^ 2) k = e2 at *
  by_cases he : e1 * e2 = 0
  · obtain ⟨h3, h4⟩ := hcauchy _ _ _ _ he hW
    rw [h3, h4]
    simp
  · have he' : c ^ 2 * e1 * e2 ≠ 0 := by rw [mul_assoc]; exact mul_ne_zero (pow_ne_zero 2 hc) he
    rw [if_neg he, if_neg he', add_zero, add_zero]
    have q1 : (c * r) ^ 2 + (c * i) ^ 2 = c ^ 2 * (r ^ 2 + i ^ 2) := by ring
    rw [q1, mul_assoc, Real.sqrt_mul (sq_nonneg c), Real.sqrt_mul (sq_nonneg c), mul_div_mul_left _ _ (Real.sqrt_ne_zero'.2 (by positivity))]

theorem hannWindow_nonneg (s i : ℕ) : 0 ≤ hannWindow s i := by
  unfold hannWindow
  linarith [Real.cos_le_one (2 * Real.pi * i / (s - 1 : ℕ))]

theorem hann_sum_pos (s : ℕ) (hs : 3 ≤ s) : 0 < ∑ i ∈ range s, hannWindow s i := by
  refine lt_of_lt_of_le (b := hannWindow s 1) ?_ (single_le_sum (fun i _ => hannWindow_nonneg s i) (mem_range.2 (by omega)))
  unfold hannWindow
  have hs' : (2 : ℝ) ≤ (s - 1 : ℕ) := by exact_mod_cast (by omega : 2 ≤ s - 1)
  have hp := Real.pi_pos
  have h1 : 2 * Real.pi * (1 : ℕ) / (s - 1 : ℕ) ≤ Real.pi := by
    rw [div_le_iff₀ (by linarith)]
    push_cast
    nlinarith
  have h0 : 0 < 2 * Real.pi * (1 : ℕ) / (s - 1 : ℕ) := by positivity
  have := Real.cos_lt_cos_of_nonneg_of_le_pi (le_refl 0) h1 h0
  rw [Real.cos_zero] at this
  linarith

/-! ## C50 -/

/-- **C50.** For any stacks of images of any shape, and any taper: without smoothing, or with a window of any size but 2, the values of the
Fourier ring correlation are defined, and lie between 0 and 1; without smoothing, the correlation of an image with itself or with a
multiple of itself is 1 on each ring that carries energy. -/
theorem C50_frc_normalised {K : ℕ} (hK : 0 < K) (taper : Pixel dims → ℝ) (img1 img2 : Fin K → Pixel dims → ℝ) (smooth : Option ℕ)
    (hs : smooth ≠ some 2) :
    (∃ f, computeFrc taper img1 img2 smooth = some f ∧ ∀ k, 0 ≤ f k ∧ f k ≤ 1) ∧
    (∀ c : Fin K → ℝ, (∀ s, c s ≠ 0) → ∃ f, computeFrc taper img1 (fun s p => c s * img1 s p) none = some f ∧
      ∀ k, (∀ s, 0 < ringEnergy taper (img1 s) k) → f k = 1) := by
  have hK' : (0 : ℝ) < K := by exact_mod_cast hK
  have hb : ∀ k, 0 ≤ (∑ s, frcRing taper (img1 s) (img2 s) k) / K ∧ (∑ s, frcRing taper (img1 s) (img2 s) k) / K ≤ 1 := by
    intro k
    refine ⟨div_nonneg (sum_nonneg fun s _ => (frcRing_bounds _ _ _ k).1) hK'.le, ?_⟩
    rw [div_le_one hK']
    refine (sum_le_sum fun s _ => (frcRing_bounds taper (img1 s) (img2 s) k).2).trans ?_
    simp
  constructor
  · unfold computeFrc
    cases smooth with
    | none => exact ⟨_, rfl, hb⟩
    | some s =>
      simp only
      by_cases h1 : 1 < s
      · rw [if_pos h1]
        have h3 : 3 ≤ s := by
          have : s ≠ 2 := fun h => hs (by rw [h])
          omega
        have ht := hann_sum_pos s h3
        unfold hannSmooth
        simp only
        rw [if_neg ht.ne']
        refine ⟨_, rfl, fun k => ⟨sum_nonneg fun i _ => mul_nonneg (div_nonneg (hannWindow_nonneg s i) ht.le) (hb _).1, ?_⟩⟩
        have : ∑ i ∈ range s, hannWindow s i / ∑ i ∈ range s, hannWindow s i = 1 := by rw [← sum_div, div_self ht.ne']
        rw [← this]
        refine sum_le_sum fun i _ => ?_
        exact mul_le_of_le_one_right (div_nonneg (hannWindow_nonneg s i) ht.le) (hb _).2
      · rw [if_neg h1]
        exact ⟨_, rfl, hb⟩
  · intro c hc
    refine ⟨_, rfl, fun k hk => ?_⟩
    have : ∀ s, frcRing taper (img1 s) (fun p => c s * img1 s p) k = 1 := fun s => frcRing_self _ _ _ (hc s) k (hk s)
    simp only [this]
    simp [hK'.ne']

/-- Not vacuous: on a single pixel, ring zero carries the energy of the pixel. -/
example : ringEnergy (dims := fun _ : Fin 1 => 1) (fun _ => 1) (fun _ => 3) 0 = 9 := by
  have e : ∀ p : Pixel (fun _ : Fin 1 => 1), azRadius true p = 0 := by
    intro p
    unfold azRadius azCoord fftfreq
    simp [Fin.fin_one_eq_zero]
  unfold ringEnergy fftn
  rw [azimuthal_eq]
  simp only [azWeight, e]
  simp
  norm_num

/-! ## C109 -/

/-- **C109.** The correlation does not depend on the order of the two images, nor on the scale (nor sign) of either of them. -/
theorem C109_frc_invariant {K : ℕ} (taper : Pixel dims → ℝ) (x y : Fin K → Pixel dims → ℝ) (smooth : Option ℕ) (c : Fin K → ℝ)
    (hc : ∀ s, c s ≠ 0) :
    computeFrc taper x y smooth = computeFrc taper y x smooth ∧
    computeFrc taper (fun s p => c s * x s p) y smooth = computeFrc taper x y smooth ∧
    computeFrc taper x (fun s p => c s * y s p) smooth = computeFrc taper x y smooth := by
  have h2 : ∀ x y : Fin K → Pixel dims → ℝ, computeFrc taper (fun s p => c s * x s p) y smooth = computeFrc taper x y smooth := by
    intro x y
    unfold computeFrc
    simp only [fun s k => frcRing_scale taper (x s) (y s) (c s) (hc s) k]
  have h1 : ∀ x y : Fin K → Pixel dims → ℝ, computeFrc taper x y smooth = computeFrc taper y x smooth := by
    intro x y
    unfold computeFrc
    simp only [fun s k => frcRing_symm taper (x s) (y s) k]
  exact ⟨h1 x y, h2 x y, by rw [h1, h2, h1]⟩

/-- Not vacuous: one pair of images, the first with its sign changed, and the default smoothing. -/
example (x y : Fin 1 → Pixel (fun _ : Fin 2 => 4) → ℝ) :
    computeFrc (fun _ => 1) (fun s p => -1 * x s p) y (some 5) = computeFrc (fun _ => 1) x y (some 5) :=
  (C109_frc_invariant (fun _ => 1) x y (some 5) (fun _ => -1) (fun _ => by norm_num)).2.1

/-! ## C110 -/

/-- **C110 (violated).** The correlation is defined for any size of the smoothing window: that of size 2 is zero, and its normalisation
divides by zero. -/
theorem C110_frc_smoothing_violated :
    ¬ ∀ (d : ℕ) (dims : Fin d → ℕ) (taper : Pixel dims → ℝ) (K : ℕ) (x y : Fin K → Pixel dims → ℝ) (s : ℕ), 0 < K →
      ∃ f, computeFrc taper x y (some s) = some f := by
  intro h
  obtain ⟨f, hf⟩ := h 1 (fun _ => 4) (fun _ => 1) 1 (fun _ _ => 1) (fun _ _ => 1) 2 one_pos
  have h0 : ∑ i ∈ range 2, hannWindow 2 i = 0 := by
    simp [sum_range_succ, hannWindow]
    norm_num
  unfold computeFrc at hf
  simp only [Nat.one_lt_ofNat, if_true] at hf
  unfold hannSmooth at hf
  simp [h0] at hf

/-- **C110 (partial).** It is defined for all other sizes. -/
theorem C110_frc_smoothing_partial {K : ℕ} (hK : 0 < K) (taper : Pixel dims → ℝ) (x y : Fin K → Pixel dims → ℝ) (s : ℕ) (hs : s ≠ 2) :
    ∃ f, computeFrc taper x y (some s) = some f := by
  obtain ⟨⟨f, hf, -⟩, -⟩ := C50_frc_normalised hK taper x y (some s) (by simpa using hs)
  exact ⟨f, hf⟩

end Verif
