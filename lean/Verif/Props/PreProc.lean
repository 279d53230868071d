import Verif.Model.PreProc
import Verif.Props.Snip
import Verif.Props.CrossCorrelation

/-!
# Properties of the padding, of the shifts and of the corrections of projections

`src/corrct/processing/pre.py`.
-/

namespace Verif

open Finset

variable {d : ℕ}

/-! ## C165: padding -/

theorem pyAxis_eq (d : ℕ) (a : Fin d) (axis : ℤ) (h : axis = a ∨ axis = (a : ℤ) - d) : pyAxis d axis = some a := by
  unfold pyAxis
  have hk : (if axis < 0 then axis + d else axis) = ((a : ℕ) : ℤ) := by
    have := a.isLt
    split_ifs <;> omega
  simp only [hk]
  rw [dif_pos ⟨by omega, by exact_mod_cast a.isLt⟩]
  simp

theorem pyAxis_none (d : ℕ) (axis : ℤ) : pyAxis d axis = none ↔ axis < -d ∨ (d : ℤ) ≤ axis := by
  unfold pyAxis
  simp only
  split_ifs <;> simp <;> omega

/-- **C165.** `pad_sinogram` lengthens the chosen axis (counted from the start or from the end) by the widths before and after, and only
it; the original values are found, unchanged, behind the first width; the values added before (after) are those of the first (last)
original position along that axis; one number is the same as twice that number; axes that do not exist, and widths that are neither one
nor two numbers, are errors. -/
theorem C165_pad_sinogram (shape : Fin d → ℕ) (hs : ∀ k, 0 < shape k) (img : (Fin d → ℤ) → ℝ) :
    (∀ (a : Fin d) (axis : ℤ) (_ : axis = a ∨ axis = (a : ℤ) - d) (before after : ℕ),
      ∃ shape' img', padSinogram shape img [before, after] axis = some (shape', img') ∧
        shape' a = before + shape a + after ∧ (∀ k, k ≠ a → shape' k = shape k) ∧
        (∀ i, Inside shape i → img' (Function.update i a (i a + before)) = img i) ∧
        (∀ i, Inside shape' i → i a < before → img' i = img (Function.update i a 0)) ∧
        (∀ i, Inside shape' i → (before : ℤ) + shape a ≤ i a → img' i = img (Function.update i a ((shape a : ℤ) - 1)))) ∧
    (∀ (w : ℕ) (axis : ℤ), padSinogram shape img [w] axis = padSinogram shape img [w, w] axis) ∧
    (∀ (width : List ℕ) (axis : ℤ), padSinogram shape img width axis = none ↔
      (axis < -d ∨ (d : ℤ) ≤ axis) ∨ (width.length ≠ 1 ∧ width.length ≠ 2)) := by
  refine ⟨?_, fun w axis => by simp [padSinogram, padPair], ?_⟩
  · intro a axis ha before after
    refine ⟨fun k => if k = a then before + shape k + after else shape k,
      fun i => img fun k => if k = a then clampPos (shape k) (i k - before) else i k, ?_, by simp, fun k hk => by simp [hk], ?_, ?_, ?_⟩
    · simp [padSinogram, padPair, pyAxis_eq d a axis ha]
    · intro i hi
      show img _ = img i
      congr 1
      funext k
      by_cases hk : k = a
      · subst hk
        have := hi k
        simp only [if_true, Function.update_self]
        unfold clampPos; omega
      · simp [hk]
    · intro i _ hlt
      show img _ = img _
      congr 1
      funext k
      by_cases hk : k = a
      · subst hk
        have := hs k
        simp only [if_true, Function.update_self]
        unfold clampPos; omega
      · simp [hk]
    · intro i _ hge
      show img _ = img _
      congr 1
      funext k
      by_cases hk : k = a
      · subst hk
        have := hs k
        simp only [if_true, Function.update_self]
        unfold clampPos; omega
      · simp [hk]
  · intro width axis
    rw [← pyAxis_none]
    cases hp : pyAxis d axis with
    | none => simp [padSinogram, hp]
    | some a =>
      rcases width with _ | ⟨w, _ | ⟨v, _ | ⟨z, t⟩⟩⟩ <;> simp [padSinogram, hp, padPair]

/-- Not vacuous: a row `5, 7` padded by one on the left and two on the right. -/
example : ∃ img', padSinogram (fun _ : Fin 1 => 2) (fun i => if i 0 = 0 then 5 else 7) [1, 2] (-1) = some (fun _ => 5, img') ∧
    (List.range 5).map (fun j : ℕ => img' fun _ => (j : ℤ)) = [5, 5, 7, 7, 7] := by
  refine ⟨fun i => if clampPos 2 (i 0 - 1) = 0 then 5 else 7, ?_, ?_⟩
  · simp only [padSinogram, padPair, pyAxis_eq 1 0 (-1) (by simp)]
    simp
    funext k
    fin_cases k; rfl
  · simp [List.range_succ, clampPos]

/-! ## C166: shifts by interpolation -/

theorem shiftCoord_range (n : ℕ) (hn : 0 < n) (s : ℝ) (i : ℤ) : 0 ≤ shiftCoord n s i ∧ shiftCoord n s i ≤ (n : ℝ) - 1 := by
  unfold shiftCoord
  have : (1 : ℝ) ≤ n := by exact_mod_cast hn
  exact ⟨le_max_left _ _, max_le (by linarith) (min_le_right _ _)⟩

theorem shiftCoord_int (n : ℕ) (s i : ℤ) : shiftCoord n s i = (clampPos n (i - s) : ℤ) := by
  unfold shiftCoord clampPos
  push_cast
  rfl

theorem prod_bool_sum (f : Fin d → Bool → ℝ) (hf : ∀ a, f a true + f a false = 1) : ∑ c : Fin d → Bool, ∏ a, f a (c a) = 1 := by
  rw [← Fintype.prod_sum]
  rw [Finset.prod_eq_one]
  intro a _
  rw [Fintype.sum_bool, hf]

/-- A weighted mean is within the range of the values. -/
theorem weighted_range {ι : Type} [Fintype ι] (w x : ι → ℝ) (hw : ∀ c, 0 ≤ w c) (h1 : ∑ c, w c = 1) (lo hi : ℝ)
    (hx : ∀ c, lo ≤ x c ∧ x c ≤ hi) : lo ≤ ∑ c, w c * x c ∧ ∑ c, w c * x c ≤ hi := by
  have e : ∀ z : ℝ, z = ∑ c, w c * z := fun z => by rw [← Finset.sum_mul, h1, one_mul]
  constructor
  · rw [e lo]
    exact Finset.sum_le_sum fun c _ => mul_le_mul_of_nonneg_left (hx c).1 (hw c)
  · rw [e hi]
    exact Finset.sum_le_sum fun c _ => mul_le_mul_of_nonneg_left (hx c).2 (hw c)

/-- The weights of the interpolation are non-negative. -/
theorem shiftWeight_nonneg (shape : Fin d → ℕ) (s : Fin d → ℝ) (i : Fin d → ℤ) (c : Fin d → Bool) :
    0 ≤ ∏ a, (if c a then shiftCoord (shape a) (s a) (i a) - ⌊shiftCoord (shape a) (s a) (i a)⌋
      else 1 - (shiftCoord (shape a) (s a) (i a) - ⌊shiftCoord (shape a) (s a) (i a)⌋)) := by
  refine Finset.prod_nonneg fun a _ => ?_
  have h1 := Int.floor_le (shiftCoord (shape a) (s a) (i a))
  have h2 := Int.lt_floor_add_one (shiftCoord (shape a) (s a) (i a))
  split_ifs <;> linarith

/-- Their sum is one. -/
theorem shiftWeight_sum (shape : Fin d → ℕ) (s : Fin d → ℝ) (i : Fin d → ℤ) :
    ∑ c : Fin d → Bool, ∏ a, (if c a then shiftCoord (shape a) (s a) (i a) - ⌊shiftCoord (shape a) (s a) (i a)⌋
      else 1 - (shiftCoord (shape a) (s a) (i a) - ⌊shiftCoord (shape a) (s a) (i a)⌋)) = 1 :=
  prod_bool_sum (fun a b => if b then shiftCoord (shape a) (s a) (i a) - ⌊shiftCoord (shape a) (s a) (i a)⌋
      else 1 - (shiftCoord (shape a) (s a) (i a) - ⌊shiftCoord (shape a) (s a) (i a)⌋)) (by intro a; simp)

theorem shiftLinear_int (shape : Fin d → ℕ) (s : Fin d → ℤ) (img : (Fin d → ℤ) → ℝ) (i : Fin d → ℤ) :
    shiftLinear shape (fun a => (s a : ℝ)) img i = img fun a => clampPos (shape a) (i a - s a) := by
  unfold shiftLinear
  simp only [shiftCoord_int, Int.floor_intCast, sub_self, sub_zero]
  rw [Finset.sum_eq_single (fun _ => false)]
  · simp only [Bool.false_eq_true, if_false, Finset.prod_const_one, one_mul, add_zero]
    congr 1
    funext a
    unfold clampPos; omega
  · intro c _ hc
    have : ∃ a, c a = true := by
      by_contra h
      push Not at h
      exact hc (funext fun a => by simpa using h a)
    obtain ⟨a, ha⟩ := this
    rw [Finset.prod_eq_zero (Finset.mem_univ a) (by simp [ha]), zero_mul]
  · simp

/-- **C166.** `shift_proj_stack` without Fourier transforms: projections are shifted independently of one another, each by its own
shift; a shift by whole pixels moves every value by exactly that many pixels, repeating the border where nothing is known (so no shift
is no change); any shift keeps the values within the range of the projection; it is linear in the projection. Along one axis, a shift by
a fraction `f` of a pixel takes the fraction `f` of the previous pixel and `1 - f` of the pixel itself. -/
theorem C166_shift_projections (W : ℕ) (shape : Fin d → ℕ) (hs : ∀ a, 0 < shape a) (data : Fin W → (Fin d → ℤ) → ℝ) (shifts : Fin W → Fin d → ℝ) :
    (∀ (data' : Fin W → (Fin d → ℤ) → ℝ) (shifts' : Fin W → Fin d → ℝ) (w : Fin W), data w = data' w → shifts w = shifts' w →
      shiftProjStack W shape data shifts w = shiftProjStack W shape data' shifts' w) ∧
    (∀ (w : Fin W) (k : Fin d → ℤ), (∀ a, shifts w a = k a) → ∀ i,
      shiftProjStack W shape data shifts w i = data w fun a => max 0 (min (i a - k a) (shape a - 1))) ∧
    (∀ (w : Fin W), (∀ a, shifts w a = 0) → ∀ i, Inside shape i → shiftProjStack W shape data shifts w i = data w i) ∧
    (∀ (w : Fin W) (lo hi : ℝ), (∀ i, Inside shape i → lo ≤ data w i ∧ data w i ≤ hi) → ∀ i,
      lo ≤ shiftProjStack W shape data shifts w i ∧ shiftProjStack W shape data shifts w i ≤ hi) ∧
    (∀ (data' : Fin W → (Fin d → ℤ) → ℝ) (p q : ℝ) (w : Fin W) i,
      shiftProjStack W shape (fun w i => p * data w i + q * data' w i) shifts w i =
        p * shiftProjStack W shape data shifts w i + q * shiftProjStack W shape data' shifts w i) := by
  refine ⟨fun data' shifts' w h1 h2 => by unfold shiftProjStack; rw [h1, h2], ?_, ?_, ?_, ?_⟩
  · intro w k hk i
    unfold shiftProjStack
    rw [show shifts w = fun a => ((k a : ℤ) : ℝ) from funext hk, shiftLinear_int]
    rfl
  · intro w hk i hi
    unfold shiftProjStack
    rw [show shifts w = fun a => (((0 : Fin d → ℤ) a : ℤ) : ℝ) from funext fun a => by simp [hk a], shiftLinear_int]
    congr 1
    funext a
    have := hi a
    unfold clampPos
    simp only [Pi.zero_apply, sub_zero]
    omega
  · intro w lo hi hb i
    have hin : ∀ c : Fin d → Bool, Inside shape (fun a => clampPos (shape a) (⌊shiftCoord (shape a) (shifts w a) (i a)⌋ + if c a then 1 else 0)) :=
      fun c a => clampPos_inside _ (hs a) _
    have hsum := shiftWeight_sum shape (shifts w) i
    have hnn := shiftWeight_nonneg shape (shifts w) i
    unfold shiftProjStack shiftLinear
    exact weighted_range _ _ hnn hsum lo hi fun c => hb _ (hin c)
  · intro data' p q w i
    unfold shiftProjStack shiftLinear
    rw [Finset.mul_sum, Finset.mul_sum, ← Finset.sum_add_distrib]
    refine Finset.sum_congr rfl fun c _ => ?_
    ring

/-- **C166**, fractions of a pixel: a row, away from its borders. -/
theorem C166_fraction (n : ℕ) (row : ℤ → ℝ) (k : ℤ) (f : ℝ) (h0 : 0 ≤ f) (h1 : f < 1) (i : ℤ) (hl : k + 1 ≤ i) (hu : i - k < n) :
    shiftProjStack 1 (fun _ : Fin 1 => n) (fun _ j => row (j 0)) (fun _ _ => k + f) 0 (fun _ => i) =
      (1 - f) * row (i - k) + f * row (i - k - 1) := by
  have hc : shiftCoord n (k + f) i = (i : ℝ) - (k + f) := by
    unfold shiftCoord
    have hl' : (k : ℝ) + 1 ≤ i := by exact_mod_cast hl
    have hu' : (i : ℝ) - k + 1 ≤ n := by
      have : i - k + 1 ≤ n := by omega
      exact_mod_cast this
    rw [min_eq_left (by linarith), max_eq_right (by linarith)]
  unfold shiftProjStack shiftLinear
  simp only [hc]
  have e : ∑ c : Fin 1 → Bool, (∏ a : Fin 1, if c a then (i : ℝ) - (k + f) - ⌊(i : ℝ) - (k + f)⌋ else 1 - ((i : ℝ) - (k + f) - ⌊(i : ℝ) - (k + f)⌋)) *
        row (clampPos n (⌊(i : ℝ) - (k + f)⌋ + if c 0 then 1 else 0)) =
      ∑ b : Bool, (if b then (i : ℝ) - (k + f) - ⌊(i : ℝ) - (k + f)⌋ else 1 - ((i : ℝ) - (k + f) - ⌊(i : ℝ) - (k + f)⌋)) *
        row (clampPos n (⌊(i : ℝ) - (k + f)⌋ + if b then 1 else 0)) := by
    rw [← (Equiv.funUnique (Fin 1) Bool).symm.sum_comp]
    refine Finset.sum_congr rfl fun b _ => ?_
    simp
  rw [e, Fintype.sum_bool]
  rcases eq_or_lt_of_le h0 with h | h
  · have hfl : ⌊(i : ℝ) - (k + f)⌋ = i - k := by
      rw [← h, add_zero]
      exact_mod_cast Int.floor_intCast (i - k)
    rw [hfl, ← h]
    push_cast
    simp only [Bool.false_eq_true, if_true, if_false, add_zero]
    rw [show clampPos n (i - k) = i - k by unfold clampPos; omega]
    ring
  · have hfl : ⌊(i : ℝ) - (k + f)⌋ = i - k - 1 := by
      rw [Int.floor_eq_iff]
      push_cast
      constructor <;> linarith
    rw [hfl]
    push_cast
    simp only [Bool.false_eq_true, if_true, if_false, add_zero]
    rw [show clampPos n (i - k - 1 + 1) = i - k by unfold clampPos; omega, show clampPos n (i - k - 1) = i - k - 1 by unfold clampPos; omega]
    ring

/-- Not vacuous: `0, 4, 8` moved by half a pixel, at its middle. -/
example : shiftProjStack 1 (fun _ : Fin 1 => 3) (fun _ j => 4 * ((j 0 : ℤ) : ℝ)) (fun _ _ => ((0 : ℤ) : ℝ) + 1 / 2) 0 (fun _ => 1) = 2 := by
  rw [C166_fraction 3 (fun j => 4 * (j : ℝ)) 0 (1 / 2) (by norm_num) (by norm_num) 1 (by norm_num) (by norm_num)]
  norm_num

/-! ## C167: shifts by Fourier transforms -/

section
open ZMod Complex

theorem stdAddChar_int {N : ℕ} [NeZero N] (z : ZMod N) (j : ℤ) (h : z = (j : ZMod N)) :
    (stdAddChar z : ℂ) = exp (2 * Real.pi * I * j / N) := by
  rw [h]
  exact stdAddChar_coe j

theorem shiftFactor_int {m : ℕ} [NeZero m] (s : ℤ) (k : ZMod m) : shiftFactor m s k.val = stdAddChar (-(k * (s : ZMod m))) := by
  rw [stdAddChar_int (-(k * (s : ZMod m))) (-(fftfreq m k.val * s))]
  · unfold shiftFactor
    congr 1
    push_cast
    ring
  · have : ((fftfreq m k.val : ℤ) : ZMod m) = k := by
      unfold fftfreq
      split_ifs <;> simp
    push_cast
    rw [this]

theorem shiftFactorR_int {n : ℕ} [NeZero n] (s : ℤ) (l : ℕ) : shiftFactorR n s l = stdAddChar (-((l : ZMod n) * (s : ZMod n))) := by
  rw [stdAddChar_int (-((l : ZMod n) * (s : ZMod n))) (-(l * s))]
  · unfold shiftFactorR
    congr 1
    push_cast
    ring
  · push_cast; ring

/-- The inverse transform. -/
theorem fft2_inv {m n : ℕ} [NeZero m] [NeZero n] (x : ZMod m → ZMod n → ℝ) (p : ZMod m) (q : ZMod n) :
    ∑ l : ZMod n, ∑ k : ZMod m, fft2 x k l * (stdAddChar (k * p) * stdAddChar (l * q)) = m * n * (x p q : ℂ) := by
  have e : ∀ (l : ZMod n) (k : ZMod m), fft2 x k l * (stdAddChar (k * p) * stdAddChar (l * q)) =
      ∑ i, ∑ j, (x i j : ℂ) * (stdAddChar (k * (p - i)) * stdAddChar (l * (q - j))) := by
    intro l k
    unfold fft2
    rw [Finset.sum_mul]
    refine Finset.sum_congr rfl fun i _ => ?_
    rw [Finset.sum_mul]
    refine Finset.sum_congr rfl fun j _ => ?_
    rw [show k * (p - i) = -(k * i) + k * p by ring, show l * (q - j) = -(l * j) + l * q by ring, AddChar.map_add_eq_mul, AddChar.map_add_eq_mul]
    ring
  simp only [e]
  have c : ∑ l : ZMod n, ∑ k : ZMod m, ∑ i, ∑ j, (x i j : ℂ) * (stdAddChar (k * (p - i)) * stdAddChar (l * (q - j))) =
      ∑ i, ∑ j, (x i j : ℂ) * ((∑ k : ZMod m, stdAddChar (k * (p - i))) * ∑ l : ZMod n, stdAddChar (l * (q - j))) := by
    rw [Finset.sum_comm]
    rw [Finset.sum_congr rfl fun k _ => Finset.sum_comm, Finset.sum_comm]
    refine Finset.sum_congr rfl fun i _ => ?_
    rw [Finset.sum_congr rfl fun k _ => Finset.sum_comm, Finset.sum_comm]
    refine Finset.sum_congr rfl fun j _ => ?_
    rw [Finset.sum_mul, Finset.mul_sum]
    refine Finset.sum_congr rfl fun k _ => ?_
    rw [Finset.mul_sum, Finset.mul_sum]
  rw [c]
  simp only [char_sum]
  rw [Finset.sum_eq_single p, Finset.sum_eq_single q]
  · simp; ring
  · intro j _ hj
    rw [if_neg (c := q - j = 0) fun h => hj (sub_eq_zero.1 h).symm]; simp
  · simp
  · intro i _ hi
    refine Finset.sum_eq_zero fun j _ => ?_
    rw [if_neg (c := p - i = 0) fun h => hi (sub_eq_zero.1 h).symm]; simp
  · simp

theorem fft2_neg {m n : ℕ} [NeZero m] [NeZero n] (z : ZMod m → ZMod n → ℝ) (k : ZMod m) (l : ZMod n) :
    fft2 z (-k) (-l) = starRingEnd ℂ (fft2 z k l) := by
  unfold fft2
  simp only [map_sum, map_mul, conj_ofReal, conj_char]
  refine Finset.sum_congr rfl fun i _ => Finset.sum_congr rfl fun j _ => ?_
  rw [neg_mul, neg_mul]

/-- The sum of an inverse real transform is its zero frequency. -/
theorem irfft_sum (h : ℕ) (hh : 0 < h) (Y : ℕ → ℂ) : ∑ b ∈ Finset.range (2 * h), irfftDefault (2 * h) Y b = (Y 0).re := by
  haveI : NeZero (2 * h) := ⟨by omega⟩
  unfold irfftDefault
  have hd : 2 * h / 2 = h := by omega
  rw [hd, ← Finset.sum_div]
  have hsplit : ∑ b ∈ Finset.range (2 * h), ((Y 0).re + (-1 : ℝ) ^ b * (Y h).re +
      2 * ∑ l ∈ Finset.Ico 1 h, (Y l * exp (2 * Real.pi * I * (l * b : ℕ) / (2 * h : ℕ))).re) = (2 * h : ℕ) * (Y 0).re := by
    rw [Finset.sum_add_distrib, Finset.sum_add_distrib, ← Finset.mul_sum, ← Finset.sum_mul, Finset.sum_comm]
    have e1 : ∑ b ∈ Finset.range (2 * h), (-1 : ℝ) ^ b = 0 := by
      rw [neg_one_geom_sum, if_pos (by simp)]
    have e2 : ∀ l ∈ Finset.Ico 1 h, ∑ b ∈ Finset.range (2 * h), (Y l * exp (2 * Real.pi * I * (l * b : ℕ) / (2 * h : ℕ))).re = 0 := by
      intro l hl
      rw [Finset.mem_Ico] at hl
      rw [← re_sum, ← Finset.mul_sum]
      have : ∑ b ∈ Finset.range (2 * h), exp (2 * Real.pi * I * (l * b : ℕ) / (2 * h : ℕ)) = 0 := by
        have hc := char_sum ((l : ℕ) : ZMod (2 * h))
        rw [sum_zmod, if_neg] at hc
        · rw [← hc]
          refine Finset.sum_congr rfl fun b _ => ?_
          rw [stdAddChar_int _ ((l * b : ℕ) : ℤ)]
          · push_cast; rfl
          · push_cast; ring
        · intro h0
          rw [ZMod.natCast_eq_zero_iff] at h0
          have := Nat.le_of_dvd (by omega) h0
          omega
      rw [this]; simp
    rw [e1, Finset.sum_eq_zero e2]
    simp
  rw [hsplit]
  have : ((2 * h : ℕ) : ℝ) ≠ 0 := by exact_mod_cast (by omega : 2 * h ≠ 0)
  field_simp

/-- **C167, violated part.** Projections with an odd number of columns cannot be shifted with `use_fft=True`, by any shift: it raises
`ValueError`. -/
theorem C167_fft_shift_violated : (¬ ∀ (n : ℕ) (_ : NeZero n) (img : ZMod 1 → ZMod n → ℝ) (s : ℝ), shiftFft img 0 s ≠ none) ∧
    ∀ (m n : ℕ) (_ : NeZero m) (_ : NeZero n) (img : ZMod m → ZMod n → ℝ) (sv su : ℝ), Odd n → shiftFft img sv su = none := by
  have h : ∀ (m n : ℕ) (_ : NeZero m) (_ : NeZero n) (img : ZMod m → ZMod n → ℝ) (sv su : ℝ), Odd n → shiftFft img sv su = none := by
    intro m n _ _ img sv su ⟨k, hk⟩
    unfold shiftFft
    rw [if_neg (by omega)]
  refine ⟨fun hall => ?_, h⟩
  exact hall 3 ⟨by norm_num⟩ (fun _ _ => 0) 0 (h 1 3 inferInstance _ _ 0 0 ⟨1, rfl⟩)

/-- **C167, proved part.** With an even number of columns, `shift_proj_stack(..., use_fft=True)` moves a projection by whole pixels to
exactly where it should be, with what leaves at one side entering at the opposite one; and by any shift, whole or not, it keeps the sum
of the projection. -/
theorem C167_fft_shift_partial {m n : ℕ} [NeZero m] [NeZero n] (hn : Even n) (img : ZMod m → ZMod n → ℝ) :
    (∀ sv su : ℤ, ∃ r, shiftFft img sv su = some r ∧ ∀ a b : ℕ, r a b = img ((a : ZMod m) - sv) ((b : ZMod n) - su)) ∧
    (∀ sv su : ℝ, ∃ r, shiftFft img sv su = some r ∧
      ∑ a ∈ Finset.range m, ∑ b ∈ Finset.range n, r a b = ∑ i, ∑ j, img i j) := by
  obtain ⟨h, hh⟩ := hn
  have hn2 : n = 2 * h := by omega
  subst hn2
  have hpos : 0 < h := by have := NeZero.pos (2 * h); omega
  have hm : (m : ℂ) ≠ 0 := by exact_mod_cast NeZero.ne m
  have hnn : ((2 * h : ℕ) : ℂ) ≠ 0 := by exact_mod_cast NeZero.ne (2 * h)
  constructor
  · intro sv su
    refine ⟨_, if_pos (by omega), fun a b => ?_⟩
    set Y : ZMod (2 * h) → ℂ := fun l => (∑ k : ZMod m, fft2 img k l * (stdAddChar (-(k * (sv : ZMod m))) * stdAddChar (-(l * (su : ZMod (2 * h))))) *
        stdAddChar (k * (a : ZMod m))) / m with hY
    have e : (fun l : ℕ => (∑ k : ZMod m, fft2 img k (l : ZMod (2 * h)) * (shiftFactor m sv k.val * shiftFactorR (2 * h) su l) *
        stdAddChar (k * (a : ZMod m))) / (m : ℂ)) = fun l : ℕ => Y l := by
      funext l
      simp only [hY, shiftFactor_int, shiftFactorR_int]
    rw [e, irfft_even hpos Y]
    · have f : ∑ l, Y l * stdAddChar (l * (b : ZMod (2 * h))) =
          (∑ l : ZMod (2 * h), ∑ k : ZMod m, fft2 img k l * (stdAddChar (k * ((a : ZMod m) - (sv : ZMod m))) * stdAddChar (l * ((b : ZMod (2 * h)) - (su : ZMod (2 * h)))))) / m := by
        rw [Finset.sum_div]
        refine Finset.sum_congr rfl fun l _ => ?_
        simp only [hY]
        rw [div_mul_eq_mul_div, Finset.sum_mul]
        congr 1
        refine Finset.sum_congr rfl fun k _ => ?_
        rw [show k * ((a : ZMod m) - (sv : ZMod m)) = -(k * (sv : ZMod m)) + k * a by ring, show l * ((b : ZMod (2 * h)) - (su : ZMod (2 * h))) = -(l * (su : ZMod (2 * h))) + l * b by ring,
          AddChar.map_add_eq_mul, AddChar.map_add_eq_mul]
        ring
      rw [f, fft2_inv, show ((m : ℂ) * (2 * h : ℕ) * ((img ((a : ZMod m) - (sv : ZMod m)) ((b : ZMod (2 * h)) - (su : ZMod (2 * h))) : ℝ) : ℂ)) / m / (2 * h : ℕ) =
        ((img ((a : ZMod m) - (sv : ZMod m)) ((b : ZMod (2 * h)) - (su : ZMod (2 * h))) : ℝ) : ℂ) by field_simp, ofReal_re]
    · intro l
      simp only [hY]
      rw [map_div₀, map_sum, map_natCast]
      congr 1
      rw [← Equiv.sum_comp (Equiv.neg (ZMod m))]
      refine Finset.sum_congr rfl fun k _ => ?_
      simp only [Equiv.neg_apply]
      rw [fft2_neg, map_mul (starRingEnd ℂ), map_mul (starRingEnd ℂ), map_mul (starRingEnd ℂ), conj_char, conj_char, conj_char]
      simp only [neg_mul]
  · intro sv su
    refine ⟨_, if_pos (by omega), ?_⟩
    simp only [irfft_sum h hpos, Nat.cast_zero]
    rw [← re_sum, ← Finset.sum_div, Finset.sum_comm]
    have e : ∀ k : ZMod m, ∑ a ∈ Finset.range m, fft2 img k 0 * (shiftFactor m sv k.val * shiftFactorR (2 * h) su 0) * stdAddChar (k * (a : ZMod m)) =
        if k = 0 then m * fft2 img 0 0 else 0 := by
      intro k
      rw [← Finset.mul_sum, ← sum_zmod (fun a : ZMod m => (stdAddChar (k * a) : ℂ))]
      rw [Finset.sum_congr rfl fun a _ => by rw [mul_comm k a], char_sum]
      split_ifs with hk
      · subst hk
        have : shiftFactor m sv (0 : ZMod m).val = 1 := by simp [shiftFactor, fftfreq, NeZero.pos m]
        rw [this]
        simp [shiftFactorR, mul_comm]
      · simp
    simp only [e]
    rw [Finset.sum_ite_eq' Finset.univ (0 : ZMod m), if_pos (Finset.mem_univ _), mul_div_cancel_left₀ _ hm]
    unfold fft2
    simp

/-- Not vacuous: a row of two columns moved by one. -/
example : ∃ r, shiftFft (m := 1) (n := 2) (fun _ j => if j = 0 then 3 else 5) ((0 : ℤ) : ℝ) ((1 : ℤ) : ℝ) = some r ∧ r 0 0 = 5 ∧ r 0 1 = 3 := by
  obtain ⟨r, h1, h2⟩ := (C167_fft_shift_partial (m := 1) (n := 2) ⟨1, rfl⟩ (fun _ j => if j = 0 then 3 else 5)).1 0 1
  refine ⟨r, h1, ?_, ?_⟩
  · rw [h2]; exact if_neg (by decide)
  · rw [h2]; exact if_pos (by decide)

end

end Verif
