import Mathlib.Analysis.SpecialFunctions.Trigonometric.Bounds
import Verif.Model.Physics
import Verif.Props.CrossCorrelation

/-!
# Phase contrast: C127 (propagation filters), C128 (zeros of the CTF), C129 (real-space filters)
-/

namespace Verif

open ZMod Complex

/-! ## Squared frequencies -/

theorem fftfreq_sq_neg {m : ℕ} [NeZero m] (k : ZMod m) : (fftfreq m (-k).val : ℝ) ^ 2 = (fftfreq m k.val : ℝ) ^ 2 := by
  have hm : 0 < m := NeZero.pos m
  rcases eq_or_ne k 0 with rfl | hk
  · simp
  · have hv : (-k).val = m - k.val := by
      haveI : NeZero k := ⟨hk⟩
      exact ZMod.val_neg_of_ne_zero k
    have hlt : k.val < m := ZMod.val_lt k
    have hk0 : k.val ≠ 0 := by rwa [ne_eq, ZMod.val_eq_zero]
    have : (fftfreq m (-k).val) ^ 2 = (fftfreq m k.val) ^ 2 := by
      rw [hv]
      unfold fftfreq
      rw [Nat.cast_sub hlt.le]
      split_ifs with h1 h2 h2
      · omega
      · ring
      · ring
      · have : (m : ℤ) = 2 * k.val := by omega
        rw [this]; ring
    exact_mod_cast this

/-- The squared frequencies of a symmetric index. -/
theorem freqSq_neg {m n : ℕ} [NeZero m] [NeZero n] (pix : ℝ) (k : ZMod m) (l : ZMod n) :
    freqSq false m n pix (-k).val (-l).val = freqSq false m n pix k.val l.val := by
  unfold freqSq
  simp only [Bool.false_eq_true, if_false, div_pow, fftfreq_sq_neg]

/-- The frequencies of the real transform are those of the full one. -/
theorem freqSq_rfft (m n : ℕ) (pix : ℝ) (k l : ℕ) (h : 2 * l ≤ n) : freqSq true m n pix k l = freqSq false m n pix k l := by
  unfold freqSq
  simp only [Bool.false_eq_true, if_false, if_true]
  congr 1
  unfold fftfreq
  split_ifs with h1
  · norm_num
  · have : n = 2 * l := by omega
    subst this
    push_cast
    ring

/-! ## Inversion of the real transform in two dimensions -/

/-- `irfft2` of the first half of a spectrum with the Hermitian symmetry is the inverse transform of the whole. -/
theorem irfft2_full {m h : ℕ} [NeZero m] [NeZero (2 * h)] (hh : 0 < h) (Z : ℕ → ZMod m → ℂ) (Y : ZMod m → ZMod (2 * h) → ℂ)
    (hY : ∀ k l, Y (-k) (-l) = starRingEnd ℂ (Y k l)) (hZ : ∀ k l, l ≤ h → Z l k = Y k (l : ZMod (2 * h))) (a b : ℕ) :
    irfft2 m (2 * h) (fun k l => Z l k) a b =
      ((∑ l, (∑ k, Y k l * stdAddChar (k * (a : ZMod m))) / m * stdAddChar (l * (b : ZMod (2 * h)))) / (2 * h : ℕ)).re := by
  rw [← irfft_even hh (fun l => (∑ k, Y k l * stdAddChar (k * (a : ZMod m))) / m)]
  · unfold irfft2 irfftDefault
    have hd : 2 * h / 2 = h := by omega
    rw [hd]
    simp only [hZ _ 0 (Nat.zero_le h), hZ _ h le_rfl]
    congr 2
    congr 1
    refine Finset.sum_congr rfl fun l hl => ?_
    rw [Finset.mem_Ico] at hl
    simp only [hZ _ l hl.2.le]
  · intro l
    rw [map_div₀, map_sum, map_natCast]
    congr 1
    rw [← Equiv.sum_comp (Equiv.neg (ZMod m))]
    refine Finset.sum_congr rfl fun k _ => ?_
    simp only [Equiv.neg_apply]
    rw [hY, map_mul (starRingEnd ℂ), conj_char, neg_mul]

/-- The spectra of real images are Hermitian. -/
theorem fft2_neg {m n : ℕ} [NeZero m] [NeZero n] (z : ZMod m → ZMod n → ℝ) (k : ZMod m) (l : ZMod n) :
    fft2 z (-k) (-l) = starRingEnd ℂ (fft2 z k l) := by
  unfold fft2
  simp only [map_sum, map_mul, conj_ofReal, conj_char]
  refine Finset.sum_congr rfl fun i _ => Finset.sum_congr rfl fun j _ => ?_
  rw [neg_mul, neg_mul]

/-- Inversion of the transform of an image. -/
theorem fft2_inverse {m n : ℕ} [NeZero m] [NeZero n] (x : ZMod m → ZMod n → ℝ) (a : ZMod m) (b : ZMod n) :
    (∑ l, (∑ k, fft2 x k l * stdAddChar (k * a)) / m * stdAddChar (l * b)) / n = (x a b : ℂ) := by
  have hm : (m : ℂ) ≠ 0 := by exact_mod_cast NeZero.ne m
  have hn : (n : ℂ) ≠ 0 := by exact_mod_cast NeZero.ne n
  have h := xc_theorem x (fun i j => if i = 0 ∧ j = 0 then 1 else 0) a b
  have hc : circCorr x (fun i j => if i = 0 ∧ j = 0 then 1 else 0) a b = x a b := by
    unfold circCorr
    rw [Finset.sum_eq_single 0, Finset.sum_eq_single 0]
    · simp
    · intro j _ hj; simp [hj]
    · simp
    · intro i _ hi; simp [hi]
    · simp
  have hd : ∀ k l, fft2 (m := m) (n := n) (fun i j => if i = 0 ∧ j = 0 then (1 : ℝ) else 0) k l = 1 := by
    intro k l
    unfold fft2
    rw [Finset.sum_eq_single 0, Finset.sum_eq_single 0]
    · simp
    · intro j _ hj; simp [hj]
    · simp
    · intro i _ hi; simp [hi]
    · simp
  simp only [xcSpectrum, hd, map_one, mul_one, hc] at h
  have : ∑ l, (∑ k, fft2 x k l * stdAddChar (k * a)) / m * stdAddChar (l * b) =
      (∑ l, ∑ k, fft2 x k l * stdAddChar (k * a) * stdAddChar (l * b)) / (m : ℂ) := by
    rw [Finset.sum_div]
    refine Finset.sum_congr rfl fun l _ => ?_
    rw [← Finset.sum_mul]; ring
  rw [this, h]
  field_simp

/-! ## The propagation as an inverse filter -/

/-- The filter on all frequencies. -/
noncomputable def propFull (f : PropFilter) (m n : ℕ) (pix dist wl db : ℝ) (k : ZMod m) (l : ZMod n) : ℝ :=
  propFilter false f m n pix dist wl db k.val l.val

/-- The padded image, whose first pixel is that of the image. -/
def edgePad (v u : ℕ) [NeZero (2 * v)] [NeZero (2 * u)] (data : ℕ → ℕ → ℝ) (i : ZMod (2 * v)) (j : ZMod (2 * u)) : ℝ :=
  data (edgePos v (i + ((v - v / 2 : ℕ) : ZMod (2 * v))).val) (edgePos u (j + ((u - u / 2 : ℕ) : ZMod (2 * u))).val)

theorem fft2_shift {m n : ℕ} [NeZero m] [NeZero n] (x : ZMod m → ZMod n → ℝ) (s : ZMod m) (t : ZMod n) (k : ZMod m) (l : ZMod n) :
    fft2 (fun i j => x (i + s) (j + t)) k l = fft2 x k l * (stdAddChar (k * s) * stdAddChar (l * t)) := by
  unfold fft2
  symm
  rw [Finset.sum_mul, ← Equiv.sum_comp (Equiv.addRight s)]
  refine Finset.sum_congr rfl fun i _ => ?_
  rw [Finset.sum_mul, ← Equiv.sum_comp (Equiv.addRight t)]
  refine Finset.sum_congr rfl fun j _ => ?_
  simp only [Equiv.coe_addRight]
  have e1 : (stdAddChar (-(k * (i + s))) : ℂ) * stdAddChar (k * s) = stdAddChar (-(k * i)) := by
    rw [← AddChar.map_add_eq_mul]; congr 1; ring
  have e2 : (stdAddChar (-(l * (j + t))) : ℂ) * stdAddChar (l * t) = stdAddChar (-(l * j)) := by
    rw [← AddChar.map_add_eq_mul]; congr 1; ring
  rw [← e1, ← e2]; ring

theorem propagationImage_full (f : PropFilter) (v u : ℕ) [NeZero (2 * v)] [NeZero (2 * u)] (pix dist wl db : ℝ) (data : ℕ → ℕ → ℝ) (a b : ℕ) :
    propagationImage f v u pix dist wl db data a b =
      ((∑ l, (∑ k, fft2 (edgePad v u data) k l / (propFull f (2 * v) (2 * u) pix dist wl db k l : ℂ) * stdAddChar (k * (a : ZMod (2 * v)))) /
        (2 * v : ℕ) * stdAddChar (l * (b : ZMod (2 * u)))) / (2 * u : ℕ)).re := by
  have hu : 0 < u := by have := NeZero.pos (2 * u); omega
  unfold propagationImage
  simp only
  rw [irfft2_full (m := 2 * v) (h := u) hu
    (fun l k => fft2 (fun i j => data (edgePos v i.val) (edgePos u j.val)) k (l : ZMod (2 * u)) *
      (stdAddChar (k * ((v - v / 2 : ℕ) : ZMod (2 * v))) * stdAddChar ((l : ZMod (2 * u)) * ((u - u / 2 : ℕ) : ZMod (2 * u)))) /
        (propFilter true f (2 * v) (2 * u) pix dist wl db k.val l : ℂ))
    (fun k l => fft2 (edgePad v u data) k l / (propFull f (2 * v) (2 * u) pix dist wl db k l : ℂ))]
  · intro k l
    rw [fft2_neg, map_div₀ (starRingEnd ℂ), conj_ofReal]
    unfold propFull propFilter
    rw [freqSq_neg]
  · intro k l hl
    have hv : ((l : ZMod (2 * u))).val = l := ZMod.val_natCast_of_lt (by omega)
    unfold edgePad
    rw [fft2_shift (fun i j => data (edgePos v i.val) (edgePos u j.val))]
    unfold propFull propFilter
    rw [hv, freqSq_rfft _ _ _ _ _ (by omega)]

/-! ## C127 -/

theorem freqSq_nonneg (r : Bool) (m n : ℕ) (pix : ℝ) (k l : ℕ) : 0 ≤ freqSq r m n pix k l := by
  unfold freqSq; positivity

/-- **C127 (filters).** The filter of any type is 1 at zero frequency, and for zero distance everywhere; the TIE filter is at least 1, so
that no division by zero occurs, if the material parameters are not negative; and it is the CTF filter to the second order of the
propagation distance. -/
theorem C127_filters (rfft : Bool) (m n : ℕ) (pix dist wl db : ℝ) (k l : ℕ) :
    (∀ f, 0 < m → 0 < n → propFilter rfft f m n pix dist wl db 0 0 = 1) ∧
    (∀ f, propFilter rfft f m n pix 0 wl db k l = 1) ∧
    (0 ≤ dist → 0 ≤ wl → 0 ≤ db → 1 ≤ propFilter rfft .tie m n pix dist wl db k l ∧
      let s := dist * wl * Real.pi * freqSq rfft m n pix k l
      |propFilter rfft .ctf m n pix dist wl db k l - propFilter rfft .tie m n pix dist wl db k l| ≤ s ^ 2 / 2 + db * s ^ 3 / 6) := by
  refine ⟨fun f hm hn => ?_, fun f => ?_, fun hd hw hb => ⟨?_, ?_⟩⟩
  · have : freqSq rfft m n pix 0 0 = 0 := by
      unfold freqSq fftfreq
      rw [if_pos (by omega : 2 * 0 < m), if_pos (by omega : 2 * 0 < n)]
      simp
    unfold propFilter
    rw [this]
    cases f <;> simp [freqResponse]
  · unfold propFilter
    cases f <;> simp [freqResponse]
  · unfold propFilter freqResponse
    have := freqSq_nonneg rfft m n pix k l
    have : 0 ≤ db * dist * wl * Real.pi * freqSq rfft m n pix k l := by positivity
    simp only
    linarith
  · intro s
    have hs : 0 ≤ s := by
      have := freqSq_nonneg rfft m n pix k l
      positivity
    have e : propFilter rfft .ctf m n pix dist wl db k l - propFilter rfft .tie m n pix dist wl db k l =
        (Real.cos s - 1) + db * (Real.sin s - s) := by
      unfold propFilter freqResponse
      simp only
      rw [show db * dist * wl * Real.pi * freqSq rfft m n pix k l = db * s by simp only [s]; ring]
      ring
    rw [e]
    have h1 := Real.one_sub_sq_div_two_le_cos (x := s)
    have h2 := Real.cos_le_one s
    have h3 : Real.sin s ≤ s := Real.sin_le hs
    have h4 : s - s ^ 3 / 6 ≤ Real.sin s := by
      have := Real.sin_ge_sub_cube hs
      have : 0 ≤ s ^ 3 := by positivity
      linarith
    have h6 : 0 ≤ db * (s - Real.sin s) := mul_nonneg hb (by linarith)
    have h7 : db * (s - Real.sin s) ≤ db * (s ^ 3 / 6) := mul_le_mul_of_nonneg_left (by linarith) hb
    rw [abs_le]
    constructor <;> nlinarith

/-- The transform of the inverse transform. -/
theorem fft2_of_inverse {m n : ℕ} [NeZero m] [NeZero n] (Y : ZMod m → ZMod n → ℂ) (y : ZMod m → ZMod n → ℝ)
    (hy : ∀ a b, (y a b : ℂ) = (∑ l, (∑ k, Y k l * stdAddChar (k * a)) / m * stdAddChar (l * b)) / n) (k' : ZMod m) (l' : ZMod n) :
    fft2 y k' l' = Y k' l' := by
  have hm : (m : ℂ) ≠ 0 := by exact_mod_cast NeZero.ne m
  have hn : (n : ℂ) ≠ 0 := by exact_mod_cast NeZero.ne n
  unfold fft2
  simp only [hy]
  have h1 : ∀ i j, (∑ l, (∑ k, Y k l * stdAddChar (k * i)) / m * stdAddChar (l * j)) / n * (stdAddChar (-(k' * i)) * stdAddChar (-(l' * j))) =
      ∑ l, ∑ k, Y k l / (m * n) * (stdAddChar ((k - k') * i) * stdAddChar ((l - l') * j)) := by
    intro i j
    rw [Finset.sum_div, Finset.sum_mul]
    refine Finset.sum_congr rfl fun l _ => ?_
    rw [Finset.sum_div, Finset.sum_mul, Finset.sum_div, Finset.sum_mul]
    refine Finset.sum_congr rfl fun k _ => ?_
    have e1 : (stdAddChar ((k - k') * i) : ℂ) = stdAddChar (k * i) * stdAddChar (-(k' * i)) := by
      rw [← AddChar.map_add_eq_mul]; congr 1; ring
    have e2 : (stdAddChar ((l - l') * j) : ℂ) = stdAddChar (l * j) * stdAddChar (-(l' * j)) := by
      rw [← AddChar.map_add_eq_mul]; congr 1; ring
    rw [e1, e2]; field_simp
  simp only [h1]
  have h2 : ∑ i : ZMod m, ∑ j : ZMod n, ∑ l, ∑ k, Y k l / (m * n) * (stdAddChar ((k - k') * i) * stdAddChar ((l - l') * j)) =
      ∑ l, ∑ k, Y k l / (m * n) * ((∑ i : ZMod m, stdAddChar (i * (k - k'))) * ∑ j : ZMod n, stdAddChar (j * (l - l'))) := by
    have s1 : ∀ i : ZMod m, ∑ j : ZMod n, ∑ l, ∑ k, Y k l / (m * n) * (stdAddChar ((k - k') * i) * stdAddChar ((l - l') * j)) =
        ∑ l, ∑ k, Y k l / (m * n) * (stdAddChar (i * (k - k')) * ∑ j : ZMod n, stdAddChar (j * (l - l'))) := by
      intro i
      rw [Finset.sum_comm]
      refine Finset.sum_congr rfl fun l _ => ?_
      rw [Finset.sum_comm]
      refine Finset.sum_congr rfl fun k _ => ?_
      rw [Finset.mul_sum, Finset.mul_sum]
      refine Finset.sum_congr rfl fun j _ => ?_
      rw [mul_comm (k - k') i, mul_comm (l - l') j]
    simp only [s1]
    rw [Finset.sum_comm]
    refine Finset.sum_congr rfl fun l _ => ?_
    rw [Finset.sum_comm]
    refine Finset.sum_congr rfl fun k _ => ?_
    rw [Finset.sum_mul, Finset.mul_sum]
  rw [h2]
  simp only [char_sum]
  rw [Finset.sum_eq_single l', Finset.sum_eq_single k']
  · simp; field_simp
  · intro k _ hk
    rw [if_neg (c := k - k' = 0) (sub_ne_zero.2 hk)]; simp
  · simp
  · intro l _ hl
    refine Finset.sum_eq_zero fun k _ => ?_
    rw [if_neg (c := l - l' = 0) (sub_ne_zero.2 hl)]; simp
  · simp

/-- The inverse transform of a Hermitian spectrum is real. -/
theorem inverse_real {m n : ℕ} [NeZero m] [NeZero n] (Y : ZMod m → ZMod n → ℂ) (hY : ∀ k l, Y (-k) (-l) = starRingEnd ℂ (Y k l)) (a : ZMod m)
    (b : ZMod n) : (((∑ l, (∑ k, Y k l * stdAddChar (k * a)) / m * stdAddChar (l * b)) / n : ℂ).re : ℂ) =
      (∑ l, (∑ k, Y k l * stdAddChar (k * a)) / m * stdAddChar (l * b)) / n := by
  rw [← Complex.conj_eq_iff_re]
  rw [map_div₀, map_sum, map_natCast]
  congr 1
  rw [← Equiv.sum_comp (Equiv.neg (ZMod n))]
  refine Finset.sum_congr rfl fun l _ => ?_
  rw [map_mul (starRingEnd ℂ), map_div₀, map_sum, map_natCast, conj_char]
  simp only [Equiv.neg_apply]
  rw [neg_mul, neg_neg]
  congr 2
  rw [← Equiv.sum_comp (Equiv.neg (ZMod m))]
  refine Finset.sum_congr rfl fun k _ => ?_
  simp only [Equiv.neg_apply]
  rw [map_mul (starRingEnd ℂ), conj_char, hY, starRingEnd_self_apply, neg_mul, neg_neg]

/-- Parseval. -/
theorem parseval2 {m n : ℕ} [NeZero m] [NeZero n] (y : ZMod m → ZMod n → ℝ) :
    (m * n : ℝ) * ∑ i, ∑ j, y i j ^ 2 = ∑ l, ∑ k, ‖fft2 y k l‖ ^ 2 := by
  have h := xc_theorem y y 0 0
  simp only [mul_zero, AddChar.map_zero_eq_one, mul_one, xcSpectrum, Complex.mul_conj'] at h
  have hc : circCorr y y 0 0 = ∑ i, ∑ j, y i j ^ 2 := by
    unfold circCorr
    simp [sq]
  rw [hc] at h
  exact_mod_cast h.symm

theorem pos_of_neZero_two_mul (v : ℕ) [h : NeZero (2 * v)] : 0 < v := by
  have := NeZero.pos (2 * v); omega

/-- The padded image at the pixels of the image. -/
theorem edgePad_inside (v u : ℕ) [NeZero (2 * v)] [NeZero (2 * u)] (data : ℕ → ℕ → ℝ) (a b : ℕ) (ha : a < v) (hb : b < u) :
    edgePad v u data (a : ZMod (2 * v)) (b : ZMod (2 * u)) = data a b := by
  have h : ∀ (v a : ℕ) [NeZero (2 * v)], a < v → edgePos v ((a : ZMod (2 * v)) + ((v - v / 2 : ℕ) : ZMod (2 * v))).val = a := by
    intro v a _ ha
    rw [← Nat.cast_add, ZMod.val_natCast_of_lt (by omega)]
    unfold edgePos
    omega
  unfold edgePad
  rw [h v a ha, h u b hb]

/-- All pixels of the padded image are copies of pixels of the image. -/
theorem edgePos_lt (v i : ℕ) (hv : 0 < v) : edgePos v i < v := by unfold edgePos; omega

/-- The result on the whole padded grid. -/
noncomputable def propagatedFull (f : PropFilter) (v u : ℕ) [NeZero (2 * v)] [NeZero (2 * u)] (pix dist wl db : ℝ) (data : ℕ → ℕ → ℝ)
    (i : ZMod (2 * v)) (j : ZMod (2 * u)) : ℝ := propagationImage f v u pix dist wl db data i.val j.val

theorem propagatedFull_spec (f : PropFilter) (v u : ℕ) [NeZero (2 * v)] [NeZero (2 * u)] (pix dist wl db : ℝ) (data : ℕ → ℕ → ℝ)
    (k : ZMod (2 * v)) (l : ZMod (2 * u)) : fft2 (propagatedFull f v u pix dist wl db data) k l =
      fft2 (edgePad v u data) k l / (propFull f (2 * v) (2 * u) pix dist wl db k l : ℂ) := by
  refine fft2_of_inverse (fun k l => fft2 (edgePad v u data) k l / (propFull f (2 * v) (2 * u) pix dist wl db k l : ℂ)) _ (fun a b => ?_) k l
  unfold propagatedFull
  rw [propagationImage_full, ZMod.natCast_zmod_val, ZMod.natCast_zmod_val]
  refine inverse_real (fun k l => fft2 (edgePad v u data) k l / (propFull f (2 * v) (2 * u) pix dist wl db k l : ℂ)) (fun k l => ?_) a b
  rw [fft2_neg, map_div₀ (starRingEnd ℂ), conj_ofReal]
  unfold propFull propFilter
  rw [freqSq_neg]

theorem propFull_zero (f : PropFilter) (m n : ℕ) [NeZero m] [NeZero n] (pix dist wl db : ℝ) : propFull f m n pix dist wl db 0 0 = 1 := by
  unfold propFull
  rw [ZMod.val_zero, ZMod.val_zero]
  exact (C127_filters false m n pix dist wl db 0 0).1 f (NeZero.pos m) (NeZero.pos n)

theorem propagationImage_values (f : PropFilter) (v u : ℕ) [NeZero (2 * v)] [NeZero (2 * u)] (pix dist wl db : ℝ) (a b : ℕ) :
    (∀ (r s : ℝ) (x y : ℕ → ℕ → ℝ), propagationImage f v u pix dist wl db (fun i j => r * x i j + s * y i j) a b =
      r * propagationImage f v u pix dist wl db x a b + s * propagationImage f v u pix dist wl db y a b) ∧
    (∀ c : ℝ, propagationImage f v u pix dist wl db (fun _ _ => c) a b = c) ∧
    (∀ x : ℕ → ℕ → ℝ, a < v → b < u → propagationImage f v u pix 0 wl db x a b = x a b) := by
  refine ⟨fun r s x y => ?_, fun c => ?_, fun x ha hb => ?_⟩
  · simp only [propagationImage_full]
    have e : ∀ k l, fft2 (edgePad v u fun i j => r * x i j + s * y i j) k l = r * fft2 (edgePad v u x) k l + s * fft2 (edgePad v u y) k l := by
      intro k l
      unfold fft2 edgePad
      simp only [Finset.mul_sum, ← Finset.sum_add_distrib]
      refine Finset.sum_congr rfl fun i _ => Finset.sum_congr rfl fun j _ => ?_
      push_cast; ring
    rw [← Complex.re_ofReal_mul, ← Complex.re_ofReal_mul, ← Complex.add_re]
    congr 1
    simp only [e]
    rw [mul_div_assoc', mul_div_assoc', ← add_div, Finset.mul_sum, Finset.mul_sum, ← Finset.sum_add_distrib]
    congr 1
    refine Finset.sum_congr rfl fun l _ => ?_
    rw [← mul_assoc, ← mul_assoc, ← add_mul, mul_div_assoc', mul_div_assoc', ← add_div, Finset.mul_sum, Finset.mul_sum,
      ← Finset.sum_add_distrib]
    congr 2
    refine Finset.sum_congr rfl fun k _ => ?_
    ring
  · rw [propagationImage_full]
    have e : ∀ k l, fft2 (edgePad v u fun _ _ => c) k l / (propFull f (2 * v) (2 * u) pix dist wl db k l : ℂ) =
        fft2 (edgePad v u fun _ _ => c) k l := by
      intro k l
      by_cases h : k = 0 ∧ l = 0
      · rw [h.1, h.2, propFull_zero]; simp
      · have : fft2 (edgePad v u fun _ _ => c) k l = 0 := by
          unfold fft2 edgePad
          simp only [← Finset.mul_sum]
          have c1 : ∑ j : ZMod (2 * u), (stdAddChar (-(l * j)) : ℂ) = if l = 0 then ((2 * u : ℕ) : ℂ) else 0 := by
            rw [← char_sum l, ← Equiv.sum_comp (Equiv.neg (ZMod (2 * u)))]
            refine Finset.sum_congr rfl fun j _ => ?_
            simp only [Equiv.neg_apply]
            congr 1; ring
          have c2 : ∑ i : ZMod (2 * v), (stdAddChar (-(k * i)) : ℂ) = if k = 0 then ((2 * v : ℕ) : ℂ) else 0 := by
            rw [← char_sum k, ← Equiv.sum_comp (Equiv.neg (ZMod (2 * v)))]
            refine Finset.sum_congr rfl fun j _ => ?_
            simp only [Equiv.neg_apply]
            congr 1; ring
          rw [c1, ← Finset.sum_mul, c2]
          by_cases hk : k = 0
          · rw [if_neg (c := l = 0) (fun hl => h ⟨hk, hl⟩)]; simp
          · rw [if_neg hk]; simp
        rw [this]; simp
    simp only [e]
    rw [fft2_inverse]
    simp [edgePad]
  · rw [propagationImage_full]
    have e : ∀ k l, fft2 (edgePad v u x) k l / (propFull f (2 * v) (2 * u) pix 0 wl db k l : ℂ) = fft2 (edgePad v u x) k l := by
      intro k l
      have : propFull f (2 * v) (2 * u) pix 0 wl db k l = 1 := (C127_filters false (2 * v) (2 * u) pix 0 wl db k.val l.val).2.1 f
      rw [this]; simp
    simp only [e]
    rw [fft2_inverse, ofReal_re, edgePad_inside v u x a b ha hb]

theorem applyPropagation_some {f : PropFilter} {v u : ℕ} [NeZero (2 * v)] [NeZero (2 * u)] {pix dist wl db : ℝ} {data z : ℕ → ℕ → ℝ}
    (h : applyPropagation f v u pix dist wl db data = some z) :
    z = propagationImage f v u pix dist wl db data ∧ (∀ k < 2 * v, ∀ l ≤ u, propFilter true f (2 * v) (2 * u) pix dist wl db k l ≠ 0) := by
  unfold applyPropagation at h
  by_cases hz : ∃ k < 2 * v, ∃ l ≤ u, propFilter true f (2 * v) (2 * u) pix dist wl db k l = 0
  · rw [if_pos hz] at h; cases h
  · rw [if_neg hz] at h
    push Not at hz
    exact ⟨(Option.some.inj h).symm, hz⟩

theorem applyPropagation_of_ne {f : PropFilter} {v u : ℕ} [NeZero (2 * v)] [NeZero (2 * u)] {pix dist wl db : ℝ}
    (hz : ∀ k < 2 * v, ∀ l ≤ u, propFilter true f (2 * v) (2 * u) pix dist wl db k l ≠ 0) (data : ℕ → ℕ → ℝ) :
    applyPropagation f v u pix dist wl db data = some (propagationImage f v u pix dist wl db data) := by
  unfold applyPropagation
  rw [if_neg]
  rintro ⟨k, hk, l, hl, h⟩
  exact hz k hk l hl h

/-- No zero among the frequencies of the real transform means no zero at all. -/
theorem propFull_ne {f : PropFilter} {v u : ℕ} [NeZero (2 * v)] [NeZero (2 * u)] {pix dist wl db : ℝ}
    (hz : ∀ k < 2 * v, ∀ l ≤ u, propFilter true f (2 * v) (2 * u) pix dist wl db k l ≠ 0) (k : ZMod (2 * v)) (l : ZMod (2 * u)) :
    propFull f (2 * v) (2 * u) pix dist wl db k l ≠ 0 := by
  have hu := pos_of_neZero_two_mul u
  have key : ∀ (k : ZMod (2 * v)) (l : ZMod (2 * u)), l.val ≤ u → propFull f (2 * v) (2 * u) pix dist wl db k l ≠ 0 := by
    intro k l hl
    have := hz k.val (ZMod.val_lt k) l.val hl
    unfold propFull propFilter
    unfold propFilter at this
    rwa [freqSq_rfft _ _ _ _ _ (by omega)] at this
  by_cases hl : l.val ≤ u
  · exact key k l hl
  · have h0 : l ≠ 0 := by rintro rfl; simp at hl
    have h1 : (-l).val ≤ u := by
      haveI : NeZero l := ⟨h0⟩
      rw [ZMod.val_neg_of_ne_zero]; omega
    have := key (-k) (-l) h1
    unfold propFull propFilter at this ⊢
    rwa [freqSq_neg] at this

/-- **C127 (images).** `apply_propagation_filter` is linear, leaves constant images as they are, and is the identity for distance zero: for
images of any size, even or odd, any parameters and type of filter for which it gives numbers at all (C128). -/
theorem C127_images (f : PropFilter) (v u : ℕ) [NeZero (2 * v)] [NeZero (2 * u)] (pix dist wl db : ℝ) :
    (∀ (r s : ℝ) (x y x' y' : ℕ → ℕ → ℝ), applyPropagation f v u pix dist wl db x = some x' → applyPropagation f v u pix dist wl db y = some y' →
      applyPropagation f v u pix dist wl db (fun i j => r * x i j + s * y i j) = some fun i j => r * x' i j + s * y' i j) ∧
    (∀ (c : ℝ) (z : ℕ → ℕ → ℝ), applyPropagation f v u pix dist wl db (fun _ _ => c) = some z → ∀ a b, z a b = c) ∧
    (∀ x : ℕ → ℕ → ℝ, ∃ z, applyPropagation f v u pix 0 wl db x = some z ∧ ∀ a < v, ∀ b < u, z a b = x a b) := by
  refine ⟨fun r s x y x' y' hx hy => ?_, fun c z hz a b => ?_, fun x => ?_⟩
  · obtain ⟨rfl, hn⟩ := applyPropagation_some hx
    obtain ⟨rfl, -⟩ := applyPropagation_some hy
    rw [applyPropagation_of_ne hn]
    congr 1
    funext a b
    exact (propagationImage_values f v u pix dist wl db a b).1 r s x y
  · obtain ⟨rfl, -⟩ := applyPropagation_some hz
    exact (propagationImage_values f v u pix dist wl db a b).2.1 c
  · refine ⟨_, applyPropagation_of_ne (fun k _ l _ => ?_) x, fun a ha b hb => (propagationImage_values f v u pix 0 wl db a b).2.2 x ha hb⟩
    rw [(C127_filters true (2 * v) (2 * u) pix 0 wl db k l).2.1 f]
    exact one_ne_zero

theorem inversion_values (v u : ℕ) [NeZero (2 * v)] [NeZero (2 * u)] (pix dist wl db : ℝ) (data : ℕ → ℕ → ℝ) :
    (∀ f k l, propFull f (2 * v) (2 * u) pix dist wl db k l ≠ 0 → fft2 (propagatedFull f v u pix dist wl db data) k l *
      (propFull f (2 * v) (2 * u) pix dist wl db k l : ℂ) = fft2 (edgePad v u data) k l) ∧
    (0 ≤ dist → 0 ≤ wl → 0 ≤ db →
      ∑ a ∈ Finset.range v, ∑ b ∈ Finset.range u, propagationImage .tie v u pix dist wl db data a b ^ 2 ≤ ∑ i, ∑ j, edgePad v u data i j ^ 2) := by
  refine ⟨fun f k l h => ?_, fun hd hw hb => ?_⟩
  · have h' : (propFull f (2 * v) (2 * u) pix dist wl db k l : ℂ) ≠ 0 := by exact_mod_cast h
    rw [propagatedFull_spec]
    field_simp
  · have h1 : ∑ i, ∑ j, propagatedFull .tie v u pix dist wl db data i j ^ 2 ≤ ∑ i, ∑ j, edgePad v u data i j ^ 2 := by
      have hv := pos_of_neZero_two_mul v
      have hu := pos_of_neZero_two_mul u
      have hp : (0 : ℝ) < ((2 * v : ℕ) : ℝ) * ((2 * u : ℕ) : ℝ) := by
        have : (0 : ℝ) < ((2 * v : ℕ) : ℝ) := by exact_mod_cast (by omega : 0 < 2 * v)
        have : (0 : ℝ) < ((2 * u : ℕ) : ℝ) := by exact_mod_cast (by omega : 0 < 2 * u)
        positivity
      refine le_of_mul_le_mul_left ?_ hp
      rw [parseval2, parseval2]
      refine Finset.sum_le_sum fun l _ => Finset.sum_le_sum fun k _ => ?_
      rw [propagatedFull_spec, norm_div, div_pow]
      have hF := ((C127_filters false (2 * v) (2 * u) pix dist wl db k.val l.val).2.2 hd hw hb).1
      have hF' : 1 ≤ ‖(propFull .tie (2 * v) (2 * u) pix dist wl db k l : ℂ)‖ := by
        rw [Complex.norm_real, Real.norm_eq_abs]
        exact hF.trans (le_abs_self _)
      exact div_le_self (by positivity) (one_le_pow₀ hF')
    refine le_trans ?_ h1
    have toZ : ∀ (n : ℕ) [NeZero (2 * n)] (g : ZMod (2 * n) → ℝ), (∀ i, 0 ≤ g i) →
        ∑ a ∈ Finset.range n, g (a : ZMod (2 * n)) ≤ ∑ i, g i := by
      intro n _ g hg
      rw [← Finset.sum_image (f := g) (g := fun a : ℕ => (a : ZMod (2 * n))) (s := Finset.range n)]
      · exact Finset.sum_le_sum_of_subset_of_nonneg (Finset.subset_univ _) fun i _ _ => hg i
      · intro a ha b hb hab
        rw [Finset.coe_range, Set.mem_Iio] at ha hb
        have := congrArg ZMod.val hab
        simp only at this
        rwa [ZMod.val_natCast_of_lt (by omega), ZMod.val_natCast_of_lt (by omega)] at this
    refine le_trans ?_ (toZ v (fun i => ∑ j, propagatedFull .tie v u pix dist wl db data i j ^ 2) fun i => Finset.sum_nonneg fun j _ => sq_nonneg _)
    refine Finset.sum_le_sum fun a ha => ?_
    refine le_trans (le_of_eq ?_) (toZ u (fun j => propagatedFull .tie v u pix dist wl db data (a : ZMod (2 * v)) j ^ 2) fun j => sq_nonneg _)
    refine Finset.sum_congr rfl fun b hb' => ?_
    rw [Finset.mem_range] at ha hb'
    unfold propagatedFull
    rw [ZMod.val_natCast_of_lt (by omega), ZMod.val_natCast_of_lt (by omega)]

/-- **C127 (inversion).** On the padded grid the result is the image whose propagation gives the data: if the function returns `z`, then `z` continues to
an image on the padded grid whose transform times the filter is the transform of the padded data, at every frequency. With the TIE filter the function always returns
numbers, and the energy of the result is at most that of the padded data: noise is not amplified. -/
theorem C127_inversion (v u : ℕ) [NeZero (2 * v)] [NeZero (2 * u)] (pix dist wl db : ℝ) (data : ℕ → ℕ → ℝ) :
    (∀ f z, applyPropagation f v u pix dist wl db data = some z → ∃ w : ZMod (2 * v) → ZMod (2 * u) → ℝ, (∀ i j, w i j = z i.val j.val) ∧
      ∀ k l, fft2 w k l * (propFull f (2 * v) (2 * u) pix dist wl db k l : ℂ) = fft2 (edgePad v u data) k l) ∧
    (0 ≤ dist → 0 ≤ wl → 0 ≤ db → ∃ z, applyPropagation .tie v u pix dist wl db data = some z ∧
      ∑ a ∈ Finset.range v, ∑ b ∈ Finset.range u, z a b ^ 2 ≤ ∑ i, ∑ j, edgePad v u data i j ^ 2) := by
  refine ⟨fun f z hz => ?_, fun hd hw hb => ?_⟩
  · obtain ⟨rfl, hn⟩ := applyPropagation_some hz
    exact ⟨propagatedFull f v u pix dist wl db data, fun _ _ => rfl, fun k l => (inversion_values v u pix dist wl db data).1 f k l (propFull_ne hn k l)⟩
  · refine ⟨_, applyPropagation_of_ne (fun k _ l _ => ?_) data, (inversion_values v u pix dist wl db data).2 hd hw hb⟩
    have := ((C127_filters true (2 * v) (2 * u) pix dist wl db k l).2.2 hd hw hb).1
    intro h0
    linarith

example : ∃ z, applyPropagation .tie 3 5 1 10 (1 / 10) 100 (fun _ _ => 7) = some z ∧ z 2 4 = 7 := by
  obtain ⟨z, hz, -⟩ := (C127_inversion 3 5 1 10 (1 / 10) 100 fun _ _ => 7).2 (by norm_num) (by norm_num) (by norm_num)
  exact ⟨z, hz, (C127_images .tie 3 5 1 10 (1 / 10) 100).2.1 7 z hz 2 4⟩

/-! ## C128 -/

/-- **C128 (violated).** No propagation filter is zero at a frequency of the image: the CTF filter may be. -/
theorem C128_no_zero_violated :
    ¬ ∀ (f : PropFilter) (m n : ℕ) (pix dist wl db : ℝ) (k l : ℕ), 0 < pix → 0 < dist → 0 < wl → 0 ≤ db → k < m → l ≤ n / 2 →
      propFilter true f m n pix dist wl db k l ≠ 0 := by
  intro h
  refine h .ctf 4 4 1 8 1 0 1 0 one_pos (by norm_num) one_pos le_rfl (by norm_num) (by norm_num) ?_
  have : freqSq true 4 4 1 1 0 = 1 / 16 := by
    unfold freqSq fftfreq; norm_num
  unfold propFilter freqResponse
  simp only
  rw [this, show (8 * 1 * Real.pi * (1 / 16) : ℝ) = Real.pi / 2 by ring]
  simp

/-- **C128 (violated, effect).** With such a zero no pixel of the result is a number, whatever the image: here for images of 2 × 2 pixels. -/
theorem C128_nan_violated (data : ℕ → ℕ → ℝ) : applyPropagation .ctf 2 2 1 8 1 0 data = none := by
  unfold applyPropagation
  rw [if_pos]
  refine ⟨1, by norm_num, 0, by norm_num, ?_⟩
  have : freqSq true (2 * 2) (2 * 2) 1 1 0 = 1 / 16 := by
    unfold freqSq fftfreq; norm_num
  unfold propFilter freqResponse
  simp only
  rw [this, show (8 * 1 * Real.pi * (1 / 16) : ℝ) = Real.pi / 2 by ring]
  simp

/-- **C128 (partial).** The TIE filter never is, and the CTF filter is positive at all frequencies for which the product of distance,
wavelength and squared frequency is below one half. -/
theorem C128_no_zero_partial (rfft : Bool) (m n : ℕ) (pix dist wl db : ℝ) (k l : ℕ) (hd : 0 ≤ dist) (hw : 0 ≤ wl) (hb : 0 ≤ db) :
    0 < propFilter rfft .tie m n pix dist wl db k l ∧
    (dist * wl * freqSq rfft m n pix k l < 1 / 2 → 0 < propFilter rfft .ctf m n pix dist wl db k l) := by
  refine ⟨lt_of_lt_of_le one_pos ((C127_filters rfft m n pix dist wl db k l).2.2 hd hw hb).1, fun h => ?_⟩
  have h0 := freqSq_nonneg rfft m n pix k l
  have hs : 0 ≤ dist * wl * Real.pi * freqSq rfft m n pix k l := by positivity
  have hlt : dist * wl * Real.pi * freqSq rfft m n pix k l < Real.pi / 2 := by
    have := mul_lt_mul_of_pos_right h Real.pi_pos
    nlinarith
  unfold propFilter freqResponse
  simp only
  have h1 : 0 < Real.cos (dist * wl * Real.pi * freqSq rfft m n pix k l) := Real.cos_pos_of_mem_Ioo ⟨by linarith [Real.pi_pos], hlt⟩
  have h2 : 0 ≤ Real.sin (dist * wl * Real.pi * freqSq rfft m n pix k l) :=
    Real.sin_nonneg_of_nonneg_of_le_pi hs (by linarith [Real.pi_pos])
  have := mul_nonneg hb h2
  linarith

/-! ## C129 -/

/-- **C129.** The real-space filter is the same with both kinds of transforms, for any number of rows and an even number of columns; it is
even, and sums to one. -/
theorem C129_direct_filter (f : PropFilter) (m h : ℕ) [NeZero m] [NeZero (2 * h)] (pix dist wl db : ℝ) :
    (∀ a b, propFilterDirect true f m (2 * h) pix dist wl db a b = propFilterDirect false f m (2 * h) pix dist wl db a b) ∧
    (∀ (a : ZMod m) (b : ZMod (2 * h)), propFilterDirect true f m (2 * h) pix dist wl db (-a).val (-b).val =
      propFilterDirect true f m (2 * h) pix dist wl db a.val b.val) ∧
    ∑ a : ZMod m, ∑ b : ZMod (2 * h), propFilterDirect true f m (2 * h) pix dist wl db a.val b.val = 1 := by
  have hh := pos_of_neZero_two_mul h
  have e1 : ∀ a b, propFilterDirect true f m (2 * h) pix dist wl db a b = propFilterDirect false f m (2 * h) pix dist wl db a b := by
    intro a b
    unfold propFilterDirect
    rw [if_pos rfl, if_neg (by simp)]
    rw [irfft2_full (m := m) (h := h) hh (fun l k => (propFilter true f m (2 * h) pix dist wl db k.val l : ℂ))
      (fun k l => (propFilter false f m (2 * h) pix dist wl db k.val l.val : ℂ))]
    · intro k l
      rw [conj_ofReal]
      unfold propFilter
      rw [freqSq_neg]
    · intro k l hl
      rw [ZMod.val_natCast_of_lt (by omega)]
      unfold propFilter
      rw [freqSq_rfft _ _ _ _ _ (by omega)]
  refine ⟨e1, fun a b => ?_, ?_⟩
  · rw [e1, e1]
    unfold propFilterDirect
    rw [if_neg (by simp), if_neg (by simp), ZMod.natCast_zmod_val, ZMod.natCast_zmod_val, ZMod.natCast_zmod_val, ZMod.natCast_zmod_val]
    congr 2
    rw [← Equiv.sum_comp (Equiv.neg (ZMod (2 * h)))]
    refine Finset.sum_congr rfl fun l _ => ?_
    simp only [Equiv.neg_apply]
    rw [neg_mul_neg]
    congr 2
    rw [← Equiv.sum_comp (Equiv.neg (ZMod m))]
    refine Finset.sum_congr rfl fun k _ => ?_
    simp only [Equiv.neg_apply]
    rw [neg_mul_neg]
    unfold propFilter
    rw [freqSq_neg]
  · have key := fft2_of_inverse (m := m) (n := 2 * h) (fun k l => (propFilter false f m (2 * h) pix dist wl db k.val l.val : ℂ))
      (fun a b => propFilterDirect false f m (2 * h) pix dist wl db a.val b.val) (fun a b => by
        unfold propFilterDirect
        rw [if_neg (by simp), ZMod.natCast_zmod_val, ZMod.natCast_zmod_val]
        refine inverse_real (fun k l => (propFilter false f m (2 * h) pix dist wl db k.val l.val : ℂ)) (fun k l => ?_) a b
        rw [conj_ofReal]
        unfold propFilter
        rw [freqSq_neg]) 0 0
    rw [show propFilter false f m (2 * h) pix dist wl db (0 : ZMod m).val (0 : ZMod (2 * h)).val = 1 from propFull_zero f m (2 * h) pix dist wl db] at key
    unfold fft2 at key
    simp only [zero_mul, neg_zero, AddChar.map_zero_eq_one, mul_one] at key
    simp only [e1]
    exact_mod_cast key

example : ∑ a : ZMod 3, ∑ b : ZMod (2 * 4), propFilterDirect true .ctf 3 (2 * 4) 1 10 (1 / 10) 100 a.val b.val = 1 :=
  (C129_direct_filter .ctf 3 4 1 10 (1 / 10) 100).2.2

end Verif
