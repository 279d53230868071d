import Verif.Props.Filters

/-! # C51: filtering with edge padding -/

namespace Verif

open ZMod Complex

/-- The kernel of the transform of an even kernel `h` given at the offsets between `-T` and `T`. -/
private theorem kernel_of_even (P : ℕ) [NeZero P] (rfft : Bool) (T : ℕ) (h : ℤ → ℝ) (heven : ∀ t, h (-t) = h t) (s : ZMod P) :
    filterKernel rfft P (fun l => ∑ t ∈ Finset.Ioo (-(T : ℤ)) T, h t * Real.cos (2 * Real.pi * l * t / P)) s =
      ∑ t ∈ Finset.Ioo (-(T : ℤ)) T, if (t : ZMod P) = s then h t else 0 := by
  set F : ℕ → ℝ := fun l => ∑ t ∈ Finset.Ioo (-(T : ℤ)) T, h t * Real.cos (2 * Real.pi * l * t / P) with hF
  have hP0 : (P : ℝ) ≠ 0 := by exact_mod_cast NeZero.ne P
  have hP0' : (P : ℂ) ≠ 0 := by exact_mod_cast NeZero.ne P
  have hchar : ∀ (l : ZMod P) (t : ℤ), (stdAddChar (l * (t : ZMod P)) : ℂ).re = Real.cos (2 * Real.pi * l.val * t / P) := by
    intro l t
    have h1 : l * (t : ZMod P) = (((l.val : ℤ) * t : ℤ) : ZMod P) := by
      push_cast
      rw [ZMod.natCast_val, ZMod.cast_id', id]
    rw [h1, stdAddChar_coe]
    have : (2 * Real.pi * I * ((l.val : ℤ) * t : ℤ) / P : ℂ) = ((2 * Real.pi * l.val * t / P : ℝ) : ℂ) * I := by
      push_cast; ring
    rw [this, exp_ofReal_mul_I_re]
  have hper : ∀ l : ZMod P, F (P - l.val) = F l.val := by
    intro l
    simp only [hF]
    refine Finset.sum_congr rfl fun t _ => ?_
    congr 1
    rw [Nat.cast_sub (ZMod.val_lt l).le]
    have : 2 * Real.pi * ((P : ℝ) - l.val) * t / P = (t : ℤ) * (2 * Real.pi) - 2 * Real.pi * l.val * t / P := by
      field_simp
    rw [this, Real.cos_int_mul_two_pi_sub]
  have hfull : ∀ l : ZMod P, fullFilter rfft P F l = F l.val := by
    intro l
    unfold fullFilter
    split_ifs
    · rcases le_total l.val (P - l.val) with h | h
      · rw [min_eq_left h]
      · rw [min_eq_right h, hper]
    · rfl
  have hFc : ∀ l : ZMod P, (F l.val : ℂ) = ∑ t ∈ Finset.Ioo (-(T : ℤ)) T, (h t : ℂ) * stdAddChar (-(l * (t : ZMod P))) := by
    intro l
    apply Complex.ext
    · rw [ofReal_re, re_sum]
      refine Finset.sum_congr rfl fun t _ => ?_
      rw [re_ofReal_mul, ← conj_char, conj_re, hchar]
    · rw [ofReal_im, im_sum]
      have hs : ∑ t ∈ Finset.Ioo (-(T : ℤ)) T, ((h t : ℂ) * stdAddChar (-(l * (t : ZMod P)))).im =
          ∑ t ∈ Finset.Ioo (-(T : ℤ)) T, -((h t : ℂ) * stdAddChar (-(l * (t : ZMod P)))).im := by
        refine Finset.sum_nbij' (fun t => -t) (fun t => -t) ?_ ?_ ?_ ?_ ?_
        · intro t ht; rw [Finset.mem_Ioo] at ht ⊢; omega
        · intro t ht; rw [Finset.mem_Ioo] at ht ⊢; omega
        · intro t _; simp
        · intro t _; simp
        · intro t _
          have hc : (stdAddChar (-(l * ((-t : ℤ) : ZMod P))) : ℂ).im = -(stdAddChar (-(l * (t : ZMod P))) : ℂ).im := by
            rw [← conj_im, conj_char]
            congr 2
            push_cast
            ring
          rw [im_ofReal_mul, im_ofReal_mul, heven, hc]
          ring
      rw [Finset.sum_neg_distrib] at hs
      linarith
  unfold filterKernel
  simp only [hfull, hFc, Finset.sum_mul]
  rw [Finset.sum_comm]
  have hin : ∀ t ∈ Finset.Ioo (-(T : ℤ)) T, ∑ l : ZMod P, (h t : ℂ) * stdAddChar (-(l * (t : ZMod P))) * stdAddChar (l * s) =
      (P : ℂ) * ((if (t : ZMod P) = s then h t else 0 : ℝ) : ℂ) := by
    intro t ht
    have e : ∀ l : ZMod P, (h t : ℂ) * stdAddChar (-(l * (t : ZMod P))) * stdAddChar (l * s) =
        (h t : ℂ) * stdAddChar (l * (s - (t : ZMod P))) := by
      intro l
      rw [mul_assoc, ← AddChar.map_add_eq_mul]
      congr 2
      ring
    simp only [e]
    rw [← Finset.mul_sum, char_sum]
    by_cases ht' : (t : ZMod P) = s
    · rw [if_pos (by rw [ht', sub_self]), if_pos ht', mul_comm]
    · rw [if_neg (fun h => ht' (sub_eq_zero.1 h).symm), if_neg ht', mul_zero, ofReal_zero, mul_zero]
  rw [Finset.sum_congr rfl hin, ← Finset.mul_sum, mul_div_cancel_left₀ _ hP0', ← ofReal_sum, ofReal_re]

/-- The padded row is the data continued by its first and last value, up to half of the padding on each side. -/
private theorem padRoll_edge (P : ℕ) [NeZero P] (N : ℕ) (hN : 0 < N) (hP : 2 * N ≤ P) (data : ℕ → ℝ) (z : ℤ)
    (h1 : -(((P - N) / 2 : ℕ) : ℤ) ≤ z) (h2 : z < N + ((P - N) / 2 : ℕ)) :
    padRoll .edge P N data ((z : ZMod P)).val = data ((max 0 (min z (N - 1))).toNat) := by
  have hv : ((((z : ZMod P)).val : ℕ) : ℤ) = z % P := ZMod.val_intCast z
  have hz : z % P = if 0 ≤ z then z else z + P := by
    split_ifs with h
    · exact Int.emod_eq_of_lt h (by omega)
    · rw [← Int.add_emod_right, Int.emod_eq_of_lt (by omega) (by omega)]
  rw [hz] at hv
  set i := ((z : ZMod P)).val with hi
  unfold padRoll
  simp only
  by_cases h : 0 ≤ z
  · rw [if_pos h] at hv
    have hm : (i + (P - N + 1) / 2) % P = i + (P - N + 1) / 2 := Nat.mod_eq_of_lt (by omega)
    rw [hm, if_neg (by omega)]
    split_ifs with h3
    · congr 1; omega
    · congr 1; omega
  · rw [if_neg h] at hv
    have hm : (i + (P - N + 1) / 2) % P = i + (P - N + 1) / 2 - P := by
      rw [Nat.mod_eq_sub_mod (by omega), Nat.mod_eq_of_lt (by omega)]
    rw [hm, if_pos (by omega)]
    congr 1; omega

/-- **C51 (edge padding).** With edge padding, filtering with the transform of an even kernel whose offsets are below half of the
padding is the convolution of the kernel with the data continued by its first value on the left and by its last value on the
right. -/
theorem C51_edge_padding (rfft : Bool) (N : ℕ) (hN : 0 < N) (T : ℕ) (hT : T ≤ (paddingSize N - N) / 2 + 1) (h : ℤ → ℝ)
    (heven : ∀ t, h (-t) = h t) (data : ℕ → ℝ) (j : ℕ) (hj : j < N) :
    applyFilter rfft .edge N
        (some fun l => ∑ t ∈ Finset.Ioo (-(T : ℤ)) T, h t * Real.cos (2 * Real.pi * l * t / (paddingSize N : ℕ))) data j =
      ∑ t ∈ Finset.Ioo (-(T : ℤ)) T, h t * data ((max 0 (min ((j : ℤ) - t) (N - 1))).toNat) := by
  obtain ⟨-, -, hP, -⟩ := paddingSize_spec N
  unfold applyFilter
  rw [Option.getD_some, applyFilterAt_eq _ (paddingSize_even N)]
  simp only [kernel_of_even (paddingSize N) rfft T h heven, Finset.mul_sum]
  rw [Finset.sum_comm]
  refine Finset.sum_congr rfl fun t ht => ?_
  rw [Finset.mem_Ioo] at ht
  have hiff : ∀ i : ZMod (paddingSize N), ((t : ZMod (paddingSize N)) = (j : ZMod (paddingSize N)) - i) ↔
      i = (((j : ℤ) - t : ℤ) : ZMod (paddingSize N)) := by
    intro i
    push_cast
    constructor
    · intro e; rw [e]; ring
    · intro e; rw [e]; ring
  simp only [hiff, mul_ite, mul_zero]
  rw [Finset.sum_ite_eq', if_pos (Finset.mem_univ _), padRoll_edge (paddingSize N) N hN hP data _ (by omega) (by omega), mul_comm]

/-- Not vacuous: the running mean of three pixels of a row of eight. -/
example (data : ℕ → ℝ) : applyFilter true .edge 8
      (some fun l => ∑ t ∈ Finset.Ioo (-((2 : ℕ) : ℤ)) ((2 : ℕ) : ℤ), (1 / 3) * Real.cos (2 * Real.pi * l * t / (paddingSize 8 : ℕ))) data 0 =
    (2 * data 0 + data 1) / 3 := by
  rw [C51_edge_padding true 8 (by norm_num) 2 (by have := (C51_padding_size 8).2.1; omega) (fun _ => 1 / 3) (fun _ => rfl) data 0 (by norm_num)]
  have : Finset.Ioo (-((2 : ℕ) : ℤ)) ((2 : ℕ) : ℤ) = {-1, 0, 1} := by decide
  rw [this, Finset.sum_insert (by decide), Finset.sum_insert (by decide), Finset.sum_singleton]
  norm_num
  ring
end Verif
