import Mathlib.NumberTheory.LegendreSymbol.QuadraticChar.Basic
import Mathlib.NumberTheory.JacobiSum.Basic
import Verif.Model.StructIllum

/-!
# MURA masks: C55, C56, C130
-/

namespace Verif

open Finset

section
variable {p : ℕ} [hp : Fact p.Prime]

local notation "χ" => quadraticChar (ZMod p)

theorem ringChar_ne_two (h4 : p % 4 = 1) : ringChar (ZMod p) ≠ 2 := by
  rw [ZMod.ringChar_zmod_n]; omega

theorem char_neg_one (h4 : p % 4 = 1) : χ (-1) = 1 := by
  rw [quadraticChar_one_iff_isSquare (neg_ne_zero.2 one_ne_zero), FiniteField.isSquare_neg_one_iff, ZMod.card]
  omega

theorem char_neg (h4 : p % 4 = 1) (t : ZMod p) : χ (-t) = χ t := by
  rw [← neg_one_mul, map_mul, char_neg_one h4, one_mul]

theorem char_shift_sum (h4 : p % 4 = 1) (t : ZMod p) : ∑ j, χ (j + t) = 0 := by
  rw [Fintype.sum_equiv (Equiv.addRight t) (fun j => χ (j + t)) (fun j => χ j) fun j => rfl]
  exact quadraticChar_sum_zero (ringChar_ne_two h4)

/-- Autocorrelation of the quadratic character. -/
theorem char_autocorr (h4 : p % 4 = 1) (t : ZMod p) : ∑ j, χ (j + t) * χ j = if t = 0 then (p : ℤ) - 1 else -1 := by
  split_ifs with ht
  · subst ht
    simp only [add_zero]
    have : ∀ j : ZMod p, χ j * χ j = 1 - if j = 0 then 1 else 0 := by
      intro j
      by_cases hj : j = 0
      · simp [hj]
      · rw [if_neg hj, ← sq, quadraticChar_sq_one hj, sub_zero]
    simp only [this, sum_sub_distrib, sum_ite_eq', mem_univ, if_true]
    simp
  · have hJ : jacobiSum χ (χ)⁻¹ = -χ (-1) := jacobiSum_nontrivial_inv (quadraticChar_ne_one (ringChar_ne_two h4))
    rw [(quadraticChar_isQuadratic (ZMod p)).inv, char_neg_one h4] at hJ
    rw [← hJ]
    unfold jacobiSum
    rw [← Fintype.sum_equiv (Equiv.mulLeft₀ (-t) (neg_ne_zero.2 ht)) (fun x => χ (-t * x + t) * χ (-t * x)) (fun j => χ (j + t) * χ j) fun j => rfl]
    refine sum_congr rfl fun x _ => ?_
    have : -t * x + t = t * (1 - x) := by ring
    rw [this, map_mul, map_mul, char_neg h4]
    have hsq : χ t * χ t = 1 := by rw [← sq, quadraticChar_sq_one ht]
    linear_combination (χ (1 - x) * χ x) * hsq

theorem muraRow_eq (i : ZMod p) (hi : i ≠ 0) : 2 * muraRow i = 1 + χ i := by
  unfold muraRow
  have : (∃ k : ZMod p, k ≠ 0 ∧ k ^ 2 = i) ↔ χ i = 1 := by
    rw [quadraticChar_one_iff_isSquare hi]
    constructor
    · rintro ⟨k, -, rfl⟩; exact ⟨k, by ring⟩
    · rintro ⟨k, rfl⟩
      exact ⟨k, fun h => hi (by simp [h]), by ring⟩
  by_cases h : χ i = 1
  · rw [if_pos (this.2 h), h]; norm_num
  · rw [if_neg (fun hc => h (this.1 hc))]
    rcases quadraticChar_dichotomy hi with h1 | h1
    · exact absurd h1 h
    · rw [h1]; norm_num

/-- The encoding mask by characters. -/
theorem muraEnc_eq (i j : ZMod p) : 2 * muraEnc i j = (1 - if i = 0 then 1 else 0) * (1 + (if j = 0 then 1 else 0) + χ i * χ j) := by
  unfold muraEnc
  by_cases hi : i = 0
  · simp [hi]
  · by_cases hj : j = 0
    · simp [hi, hj]
    · rw [if_neg hi, if_neg hj, if_neg hi, if_neg hj]
      have h1 := muraRow_eq i hi
      have h2 := muraRow_eq j hj
      have s1 : χ i * χ i = 1 := by rw [← sq, quadraticChar_sq_one hi]
      have e1 : χ i = 2 * muraRow i - 1 := by omega
      have e2 : χ j = 2 * muraRow j - 1 := by omega
      rw [e1, e2]; ring

/-- Cross-correlation of the encoding and the decoding mask. -/
theorem mura_corr (h4 : p % 4 = 1) (s t : ZMod p) :
    4 * ∑ i, ∑ j, muraEnc (i + s) (j + t) * muraDec i j = ((p : ℤ) ^ 2 - 1) * (1 + if s = 0 ∧ t = 0 then 1 else 0) := by
  -- inner sum
  have inner : ∀ a b : ℤ, ∀ t : ZMod p,
      ∑ j : ZMod p, (1 + (if j + t = 0 then 1 else 0) + a * χ (j + t)) * (1 + (if j = 0 then 1 else 0) + b * χ j) =
        p + 2 + (if t = 0 then 1 else 0) + (a + b) * χ t + a * b * (if t = 0 then (p : ℤ) - 1 else -1) := by
    intro a b t
    have e : ∀ j : ZMod p, (1 + (if j + t = 0 then 1 else 0) + a * χ (j + t)) * (1 + (if j = 0 then 1 else 0) + b * χ j) =
        (1 : ℤ) + (if j = 0 then 1 else 0) + b * χ j + (if j + t = 0 then 1 else 0) + (if j + t = 0 then 1 else 0) * (if j = 0 then 1 else 0) +
        b * ((if j + t = 0 then 1 else 0) * χ j) + a * χ (j + t) + a * (χ (j + t) * if j = 0 then 1 else 0) + a * b * (χ (j + t) * χ j) := by
      intro j; ring
    simp only [e, sum_add_distrib, ← mul_sum]
    rw [char_autocorr h4, char_shift_sum h4, quadraticChar_sum_zero (ringChar_ne_two h4)]
    have d1 : ∑ j : ZMod p, (if j = 0 then (1 : ℤ) else 0) = 1 := by simp
    have d2 : ∑ j : ZMod p, (if j + t = 0 then (1 : ℤ) else 0) = 1 := by
      simp only [add_eq_zero_iff_eq_neg, sum_ite_eq', mem_univ, if_true]
    have d3 : ∑ j : ZMod p, (if j + t = 0 then (1 : ℤ) else 0) * (if j = 0 then 1 else 0) = if t = 0 then 1 else 0 := by
      rw [sum_eq_single 0]
      · simp
      · intro j _ hj; simp [hj]
      · simp
    have d4 : ∑ j : ZMod p, (if j + t = 0 then (1 : ℤ) else 0) * χ j = χ t := by
      rw [sum_eq_single (-t)]
      · simp [char_neg h4]
      · intro j _ hj
        rw [if_neg (fun h => hj (add_eq_zero_iff_eq_neg.1 h))]; simp
      · simp
    have d5 : ∑ j : ZMod p, χ (j + t) * (if j = 0 then (1 : ℤ) else 0) = χ t := by
      rw [sum_eq_single 0]
      · simp
      · intro j _ hj; simp [hj]
      · simp
    rw [d1, d2, d3, d4, d5]
    simp only [sum_const, card_univ, ZMod.card, nsmul_eq_mul, mul_one, mul_zero]
    ring
  have hdec : ∀ i j : ZMod p, 2 * muraDec i j = 2 * muraEnc i j + 2 * ((if i = 0 then 1 else 0) * if j = 0 then 1 else 0) := by
    intro i j
    unfold muraDec
    by_cases hi : i = 0
    · by_cases hj : j = 0
      · simp [hi, hj, muraEnc]
      · simp [hi, hj]
    · simp [hi]
  have hsum : 4 * ∑ i, ∑ j, muraEnc (i + s) (j + t) * muraDec i j =
      (∑ i : ZMod p, (1 - if i + s = 0 then 1 else 0) * (1 - if i = 0 then (1 : ℤ) else 0) *
        ∑ j : ZMod p, (1 + (if j + t = 0 then 1 else 0) + χ (i + s) * χ (j + t)) * (1 + (if j = 0 then 1 else 0) + χ i * χ j)) +
      2 * ((1 - if s = 0 then 1 else 0) * (1 + (if t = 0 then 1 else 0) + χ s * χ t)) := by
    rw [mul_sum]
    have step : ∀ i : ZMod p, 4 * ∑ j, muraEnc (i + s) (j + t) * muraDec i j =
        (1 - if i + s = 0 then 1 else 0) * (1 - if i = 0 then (1 : ℤ) else 0) *
          (∑ j : ZMod p, (1 + (if j + t = 0 then 1 else 0) + χ (i + s) * χ (j + t)) * (1 + (if j = 0 then 1 else 0) + χ i * χ j)) +
        (if i = 0 then 2 * (2 * muraEnc s t) else 0) := by
      intro i
      rw [mul_sum, mul_sum]
      have z : (if i = 0 then 2 * (2 * muraEnc s t) else 0) = ∑ j : ZMod p, (2 * muraEnc (i + s) (j + t)) *
          (2 * ((if i = 0 then 1 else 0) * if j = 0 then (1 : ℤ) else 0)) := by
        by_cases hi : i = 0
        · subst hi
          rw [sum_eq_single 0]
          · simp; ring
          · intro j _ hj; simp [hj]
          · simp
        · simp [hi]
      rw [z, ← sum_add_distrib]
      refine sum_congr rfl fun j _ => ?_
      have h1 := muraEnc_eq (i + s) (j + t)
      have h2 := muraEnc_eq i j
      have h3 := hdec i j
      calc 4 * (muraEnc (i + s) (j + t) * muraDec i j) = (2 * muraEnc (i + s) (j + t)) * (2 * muraDec i j) := by ring
        _ = (2 * muraEnc (i + s) (j + t)) * (2 * muraEnc i j) +
            (2 * muraEnc (i + s) (j + t)) * (2 * ((if i = 0 then 1 else 0) * if j = 0 then 1 else 0)) := by rw [h3]; ring
        _ = _ := by rw [h2]; nth_rewrite 1 [h1]; ring
    simp only [step, sum_add_distrib]
    congr 1
    rw [sum_ite_eq']
    simp only [mem_univ, if_true]
    rw [muraEnc_eq]
  rw [hsum]
  simp only [inner]
  -- outer sum
  have outer : ∑ i : ZMod p, (1 - if i + s = 0 then 1 else 0) * (1 - if i = 0 then (1 : ℤ) else 0) *
      (p + 2 + (if t = 0 then 1 else 0) + (χ (i + s) + χ i) * χ t + χ (i + s) * χ i * (if t = 0 then (p : ℤ) - 1 else -1)) =
      (p - 2 + if s = 0 then 1 else 0) * (p + 2 + if t = 0 then 1 else 0) - 2 * χ s * χ t +
        (if s = 0 then (p : ℤ) - 1 else -1) * (if t = 0 then (p : ℤ) - 1 else -1) := by
    have e : ∀ i : ZMod p, (1 - if i + s = 0 then 1 else 0) * (1 - if i = 0 then (1 : ℤ) else 0) *
        (p + 2 + (if t = 0 then 1 else 0) + (χ (i + s) + χ i) * χ t + χ (i + s) * χ i * (if t = 0 then (p : ℤ) - 1 else -1)) =
        ((p + 2 + if t = 0 then 1 else 0) * (1 - (if i + s = 0 then 1 else 0) - (if i = 0 then 1 else 0) +
          (if i + s = 0 then 1 else 0) * if i = 0 then 1 else 0) +
        χ t * (χ (i + s) + χ i - χ (i + s) * (if i = 0 then 1 else 0) - χ i * (if i + s = 0 then 1 else 0)) +
        (if t = 0 then (p : ℤ) - 1 else -1) * (χ (i + s) * χ i)) := by
      intro i
      by_cases h1 : i + s = 0
      · by_cases h2 : i = 0
        · rw [if_pos h1, if_pos h2, h1, h2, MulChar.map_zero]; ring
        · simp only [if_pos h1, if_neg h2, h1, MulChar.map_zero]; ring
      · by_cases h2 : i = 0
        · rw [if_neg h1, if_pos h2]
          have : χ i = 0 := by rw [h2, MulChar.map_zero]
          rw [this]; ring
        · simp only [if_neg h1, if_neg h2]; ring
    simp only [e, sum_add_distrib, ← mul_sum, sum_sub_distrib]
    rw [char_autocorr h4, char_shift_sum h4, quadraticChar_sum_zero (ringChar_ne_two h4)]
    have d1 : ∑ j : ZMod p, (if j = 0 then (1 : ℤ) else 0) = 1 := by simp
    have d2 : ∑ j : ZMod p, (if j + s = 0 then (1 : ℤ) else 0) = 1 := by
      simp only [add_eq_zero_iff_eq_neg, sum_ite_eq', mem_univ, if_true]
    have d3 : ∑ j : ZMod p, (if j + s = 0 then (1 : ℤ) else 0) * (if j = 0 then 1 else 0) = if s = 0 then 1 else 0 := by
      rw [sum_eq_single 0]
      · simp
      · intro j _ hj; simp [hj]
      · simp
    have d4 : ∑ j : ZMod p, χ j * (if j + s = 0 then (1 : ℤ) else 0) = χ s := by
      rw [sum_eq_single (-s)]
      · simp [char_neg h4]
      · intro j _ hj
        rw [if_neg (fun h => hj (add_eq_zero_iff_eq_neg.1 h))]; simp
      · simp
    have d5 : ∑ j : ZMod p, χ (j + s) * (if j = 0 then (1 : ℤ) else 0) = χ s := by
      rw [sum_eq_single 0]
      · simp
      · intro j _ hj; simp [hj]
      · simp
    rw [d1, d2, d3, d4, d5]
    simp only [sum_const, card_univ, ZMod.card, nsmul_eq_mul, mul_one]
    ring
  rw [outer]
  by_cases hs : s = 0
  · by_cases ht : t = 0
    · simp only [hs, ht, if_true, and_self, MulChar.map_zero]; ring
    · simp only [hs, ht, if_true, if_false, and_false, MulChar.map_zero]; ring
  · by_cases ht : t = 0
    · simp only [hs, ht, if_true, if_false, false_and, MulChar.map_zero]; ring
    · simp only [hs, ht, if_false, false_and]; ring

/-- The open area of the encoding mask. -/
theorem mura_enc_sum (h4 : p % 4 = 1) : 2 * ∑ i : ZMod p, ∑ j, muraEnc i j = (p : ℤ) ^ 2 - 1 := by
  have inner : ∀ i : ZMod p, 2 * ∑ j, muraEnc i j = (1 - if i = 0 then 1 else 0) * ((p : ℤ) + 1) := by
    intro i
    rw [mul_sum]
    simp only [muraEnc_eq]
    rw [← mul_sum]
    simp only [sum_add_distrib, ← mul_sum]
    rw [quadraticChar_sum_zero (ringChar_ne_two h4)]
    simp [ZMod.card]
  rw [mul_sum]
  simp only [inner]
  rw [← sum_mul, sum_sub_distrib]
  simp [ZMod.card]; ring

theorem mura_dec_sum (h4 : p % 4 = 1) : 2 * ∑ i : ZMod p, ∑ j, muraDec i j = (p : ℤ) ^ 2 + 1 := by
  have hdec : ∀ i j : ZMod p, muraDec i j = muraEnc i j + ((if i = 0 then 1 else 0) * if j = 0 then 1 else 0) := by
    intro i j
    unfold muraDec
    by_cases hi : i = 0
    · by_cases hj : j = 0
      · simp [hi, hj, muraEnc]
      · simp [hi, hj]
    · simp [hi]
  simp only [hdec, sum_add_distrib]
  rw [mul_add, mura_enc_sum h4]
  simp; ring

/-- Sums over all shifts of `sequentialShifts`. -/
theorem sum_sequential (f : ZMod p → ZMod p → ℝ) (l : List (ℕ × ℕ)) (h : sequentialShifts [p, p] none = some l) :
    (l.map fun s => f (s.1 : ZMod p) (s.2 : ZMod p)).sum = ∑ a, ∑ b, f a b := by
  have hr : ∀ g : ZMod p → ℝ, ((List.range p).map fun a : ℕ => g (a : ZMod p)).sum = ∑ a, g a := by
    intro g
    have h1 : ((List.range p).map fun a : ℕ => g (a : ZMod p)).sum = ∑ a ∈ Finset.range p, g (a : ZMod p) := rfl
    rw [h1]
    refine Finset.sum_nbij' (fun a => (a : ZMod p)) ZMod.val ?_ ?_ ?_ ?_ ?_
    · intro a _; exact mem_univ _
    · intro a _; exact Finset.mem_range.2 (ZMod.val_lt a)
    · intro a ha; exact ZMod.val_natCast_of_lt (Finset.mem_range.1 ha)
    · intro a _; exact ZMod.natCast_zmod_val a
    · intro a _; rfl
  have harr : arangeStep p 1 = List.range p := by
    simp [arangeStep]
  simp only [sequentialShifts, intervalShifts, List.reverse_cons, List.reverse_nil, List.nil_append, List.singleton_append, harr] at h
  have hl : l = (List.range p).flatMap fun a => (List.range p).map fun b => (a, b) := by
    simpa using h.symm
  rw [hl, List.map_flatMap, List.flatMap_def, List.sum_flatten]
  simp only [List.map_map, Function.comp_def]
  simp only [hr]
  exact hr fun a => ∑ b, f a b

/-- **C55.** For a prime size `p = 4 k + 1` the correlation of the encoding with the decoding mask has one peak, at the shift zero, that is twice
the constant value at all the other shifts. -/
theorem C55_mura_two_valued (h4 : p % 4 = 1) (s t : ZMod p) :
    (∑ i, ∑ j, (muraEnc (i + s) (j + t) * muraDec i j : ℝ)) = if s = 0 ∧ t = 0 then ((p : ℝ) ^ 2 - 1) / 2 else ((p : ℝ) ^ 2 - 1) / 4 := by
  have h := congrArg (fun z : ℤ => (z : ℝ)) (mura_corr h4 s t)
  push_cast at h
  split_ifs at h ⊢ <;> linarith

/-- **C55.** All the shifts, in the order of `get_sequential_shifts`: decoding the buckets of an image gives the image times a positive constant,
plus a constant background; for every transmission. -/
theorem C55_mura_decodes (h4 : p % 4 = 1) (tr : ℝ) (l : List (ℕ × ℕ)) (hl : sequentialShifts [p, p] none = some l)
    (img : ZMod p × ZMod p → ℝ) (y : ZMod p × ZMod p) :
    ghostBpList l (fun s x => muraShifted tr false s x.1 x.2) (ghostFpList l (fun s x => muraShifted tr true s x.1 x.2) img) y =
      tr ^ 2 * (((p : ℝ) ^ 2 - 1) / 4) * img y + ((1 - tr) * (p : ℝ) ^ 2 + tr ^ 2 * (((p : ℝ) ^ 2 - 1) / 4)) * ∑ x, img x := by
  have key : ∀ x : ZMod p × ZMod p, ∑ a : ZMod p, ∑ b : ZMod p, applyTransmission tr ((muraEnc (x.1 - a) (x.2 - b) : ℤ) : ℝ) *
      applyTransmission tr ((muraDec (y.1 - a) (y.2 - b) : ℤ) : ℝ) =
      (1 - tr) * (p : ℝ) ^ 2 + tr ^ 2 * (((p : ℝ) ^ 2 - 1) / 4) + tr ^ 2 * (((p : ℝ) ^ 2 - 1) / 4) * (if x = y then 1 else 0) := by
    intro x
    have hsub : ∑ a : ZMod p, ∑ b : ZMod p, applyTransmission tr ((muraEnc (x.1 - a) (x.2 - b) : ℤ) : ℝ) *
        applyTransmission tr ((muraDec (y.1 - a) (y.2 - b) : ℤ) : ℝ) =
        ∑ i : ZMod p, ∑ j : ZMod p, applyTransmission tr ((muraEnc (i + (x.1 - y.1)) (j + (x.2 - y.2)) : ℤ) : ℝ) *
        applyTransmission tr ((muraDec i j : ℤ) : ℝ) := by
      refine Fintype.sum_equiv (Equiv.subLeft y.1) _ _ fun a => ?_
      refine Fintype.sum_equiv (Equiv.subLeft y.2) _ _ fun b => ?_
      simp only [Equiv.subLeft_apply]
      have e1 : y.1 - a + (x.1 - y.1) = x.1 - a := by ring
      have e2 : y.2 - b + (x.2 - y.2) = x.2 - b := by ring
      rw [e1, e2]
    rw [hsub]
    have hexp : ∀ e d : ℝ, applyTransmission tr e * applyTransmission tr d = (1 - tr) ^ 2 + (1 - tr) * tr * e + (1 - tr) * tr * d + tr ^ 2 * (e * d) := by
      intro e d; unfold applyTransmission; ring
    simp only [hexp, sum_add_distrib, ← mul_sum]
    rw [C55_mura_two_valued h4]
    have hs : ∑ i : ZMod p, ∑ j : ZMod p, ((muraEnc (i + (x.1 - y.1)) (j + (x.2 - y.2)) : ℤ) : ℝ) = ((p : ℝ) ^ 2 - 1) / 2 := by
      have h1 : ∑ i : ZMod p, ∑ j : ZMod p, ((muraEnc (i + (x.1 - y.1)) (j + (x.2 - y.2)) : ℤ) : ℝ) =
          ∑ i : ZMod p, ∑ j : ZMod p, ((muraEnc i j : ℤ) : ℝ) := by
        refine Fintype.sum_equiv (Equiv.addRight (x.1 - y.1)) _ _ fun a => ?_
        exact Fintype.sum_equiv (Equiv.addRight (x.2 - y.2)) _ _ fun b => rfl
      rw [h1]
      have h := congrArg (fun z : ℤ => (z : ℝ)) (mura_enc_sum (p := p) h4)
      push_cast at h
      linarith
    have hd : ∑ i : ZMod p, ∑ j : ZMod p, ((muraDec i j : ℤ) : ℝ) = ((p : ℝ) ^ 2 + 1) / 2 := by
      have h := congrArg (fun z : ℤ => (z : ℝ)) (mura_dec_sum (p := p) h4)
      push_cast at h
      linarith
    rw [hs, hd]
    have hc : (x.1 - y.1 = 0 ∧ x.2 - y.2 = 0) ↔ x = y := by
      rw [sub_eq_zero, sub_eq_zero, Prod.ext_iff]
    simp only [hc, sum_const, card_univ, ZMod.card, nsmul_eq_mul]
    split_ifs <;> ring
  unfold ghostBpList ghostFpList
  rw [List.zipWith_map_left, List.zipWith_self]
  unfold muraShifted
  simp only [if_true, Bool.false_eq_true, if_false]
  rw [sum_sequential (fun a b => (∑ x : ZMod p × ZMod p, img x * applyTransmission tr ((muraEnc (x.1 - a) (x.2 - b) : ℤ) : ℝ)) *
    applyTransmission tr ((muraDec (y.1 - a) (y.2 - b) : ℤ) : ℝ)) l hl]
  simp only [sum_mul]
  have hswap : ∑ a : ZMod p, ∑ b : ZMod p, ∑ x : ZMod p × ZMod p, img x * applyTransmission tr ((muraEnc (x.1 - a) (x.2 - b) : ℤ) : ℝ) *
      applyTransmission tr ((muraDec (y.1 - a) (y.2 - b) : ℤ) : ℝ) =
      ∑ x : ZMod p × ZMod p, img x * ∑ a : ZMod p, ∑ b : ZMod p, applyTransmission tr ((muraEnc (x.1 - a) (x.2 - b) : ℤ) : ℝ) *
      applyTransmission tr ((muraDec (y.1 - a) (y.2 - b) : ℤ) : ℝ) := by
    have : ∀ a : ZMod p, ∑ b : ZMod p, ∑ x : ZMod p × ZMod p, img x * applyTransmission tr ((muraEnc (x.1 - a) (x.2 - b) : ℤ) : ℝ) *
        applyTransmission tr ((muraDec (y.1 - a) (y.2 - b) : ℤ) : ℝ) = ∑ x : ZMod p × ZMod p, ∑ b : ZMod p, img x * applyTransmission tr ((muraEnc (x.1 - a) (x.2 - b) : ℤ) : ℝ) *
        applyTransmission tr ((muraDec (y.1 - a) (y.2 - b) : ℤ) : ℝ) := fun a => sum_comm
    simp only [this]
    rw [sum_comm]
    simp only [mul_sum, mul_assoc]
  rw [hswap]
  simp only [key]
  have hfin : ∀ x : ZMod p × ZMod p, img x * ((1 - tr) * (p : ℝ) ^ 2 + tr ^ 2 * (((p : ℝ) ^ 2 - 1) / 4) +
      tr ^ 2 * (((p : ℝ) ^ 2 - 1) / 4) * (if x = y then 1 else 0)) =
      ((1 - tr) * (p : ℝ) ^ 2 + tr ^ 2 * (((p : ℝ) ^ 2 - 1) / 4)) * img x + tr ^ 2 * (((p : ℝ) ^ 2 - 1) / 4) * (if x = y then img x else 0) := by
    intro x; split_ifs <;> ring
  simp only [hfin, sum_add_distrib, ← mul_sum, sum_ite_eq', mem_univ, if_true]
  ring

end

/-- The smallest mask: 5 pixels. -/
example : Nat.Prime 5 ∧ 5 % 4 = 1 ∧ (sequentialShifts [5, 5] none).isSome := by decide

/-! ## C56 -/

theorem testPrime_iff {x : ℕ} (h5 : 5 ≤ x) (hodd : x % 2 = 1) : testPrime x = true ↔ x.Prime := by
  unfold testPrime
  simp only [List.all_eq_true, List.mem_range, Bool.not_eq_true', Bool.and_eq_false_iff, decide_eq_false_iff_not]
  constructor
  · intro h
    by_contra hn
    have hm := Nat.minFac_prime (n := x) (by omega)
    have hdvd := Nat.minFac_dvd x
    obtain ⟨m, hm2⟩ := hdvd
    set q := x.minFac with hq
    have hq2 : 2 ≤ q := hm.two_le
    have hqo : q % 2 = 1 := by
      rcases Nat.mod_two_eq_zero_or_one q with h0 | h1
      · exfalso
        have : 2 ∣ x := hm2 ▸ (Nat.dvd_of_mod_eq_zero h0).mul_right m
        omega
      · exact h1
    have hmo : m % 2 = 1 := by
      rcases Nat.mod_two_eq_zero_or_one m with h0 | h1
      · exfalso
        have : 2 ∣ x := hm2 ▸ (Nat.dvd_of_mod_eq_zero h0).mul_left q
        omega
      · exact h1
    have hm1 : m ≠ 1 := by
      intro h1
      apply hn
      rw [h1, mul_one] at hm2
      rw [hm2]; exact hm
    have hm3 : 3 ≤ m := by omega
    have hx : 3 * q ≤ x := by nlinarith
    have hmod : x % q = 0 := by rw [hm2]; exact Nat.mul_mod_right q m
    rcases h q (by omega) with (h1 | h1) | h1
    · omega
    · omega
    · exact h1 hmod
  · intro hp d hd
    by_contra hc
    push Not at hc
    obtain ⟨⟨h1, h2⟩, h3⟩ := hc
    have := (Nat.dvd_prime hp).1 (Nat.dvd_of_mod_eq_zero h3)
    omega

/-- **C56, violated.** The sizes are not all the primes `4 k + 1` up to the field of view: 13 is not among the sizes for 13 pixels. -/
theorem C56_possible_sizes_violated :
    ¬ ∀ fov : ℕ, ∃ l, possibleSizes fov = some l ∧ ∀ p, p ∈ l ↔ p.Prime ∧ p % 4 = 1 ∧ p ≤ fov := by
  intro h
  obtain ⟨l, hl, hp⟩ := h 13
  have h5 : possibleSizes 13 = some [5] := by decide
  have h13 : (13 : ℕ) ∈ l := (hp 13).2 ⟨by norm_num, by norm_num, le_refl _⟩
  rw [h5, Option.some.injEq] at hl
  subst hl
  simp at h13

/-- **C56, violated.** Below 9 pixels there is an error, although 5 is possible from 5 pixels on. -/
theorem C56_small_fov_violated : ∀ fov : ℕ, fov < 9 → possibleSizes fov = none := by
  intro fov h
  interval_cases fov <;> decide

/-- **C56, partial.** For at least 9 pixels the sizes are in increasing order and are exactly the primes `p = 4 k + 1` with `p + 4 ≤ fov`.
Missing: the candidates in the last four pixels. -/
theorem C56_possible_sizes_partial (fov : ℕ) (h9 : 9 ≤ fov) :
    ∃ l, possibleSizes fov = some l ∧ l.Pairwise (· < ·) ∧ ∀ p, p ∈ l ↔ p.Prime ∧ p % 4 = 1 ∧ p + 4 ≤ fov := by
  unfold possibleSizes
  have hne : (List.range ((fov - 1) / 4 - 1)).map (fun i => (i + 1) * 4 + 1) ≠ [] := by
    intro hc
    have := congrArg List.length hc
    simp at this
    omega
  refine ⟨_, if_neg hne, ?_, ?_⟩
  · apply List.Pairwise.filter
    rw [List.pairwise_map]
    refine List.pairwise_lt_range.imp ?_
    intro a b hab
    omega
  · intro p
    rw [List.mem_filter, List.mem_map]
    constructor
    · rintro ⟨⟨i, hi, rfl⟩, ht⟩
      rw [List.mem_range] at hi
      refine ⟨(testPrime_iff (by omega) (by omega)).1 ht, by omega, by omega⟩
    · rintro ⟨hp, h4, hle⟩
      have h2 := hp.two_le
      refine ⟨⟨(p - 1) / 4 - 1, ?_, by omega⟩, (testPrime_iff (by omega) (by omega)).2 hp⟩
      rw [List.mem_range]; omega

example : possibleSizes 41 = some [5, 13, 17, 29, 37] := by decide

/-! ## C130 -/

/-- The number of points of the masks for 9 pixels. -/
theorem muraPoints_nine : muraPoints 9 1 = 9 := by
  unfold muraPoints
  norm_num

/-- **C130, violated.** The masks that the constructor makes are not always decodable: a field of view of 9 pixels gives masks of 9 points, and
the correlation is not two-valued. -/
theorem C130_mura_any_fov_violated :
    ¬ ∀ (fov res : ℝ), 0 < fov → 0 < res → ∀ (n : ℕ) [NeZero n], n = muraPoints fov res →
      ∃ peak flat : ℤ, ∀ s t : ZMod n, ∑ i, ∑ j, muraEnc (i + s) (j + t) * muraDec i j = if s = 0 ∧ t = 0 then peak else flat := by
  intro h
  obtain ⟨peak, flat, hc⟩ := h 9 1 (by norm_num) (by norm_num) 9 muraPoints_nine.symm
  have h1 := hc 0 1
  have h2 := hc 1 1
  rw [if_neg (by decide)] at h1 h2
  have : (∑ i : ZMod 9, ∑ j : ZMod 9, muraEnc (i + 0) (j + 1) * muraDec i j) ≠ ∑ i : ZMod 9, ∑ j : ZMod 9, muraEnc (i + 1) (j + 1) * muraDec i j := by
    decide +kernel
  exact this (h1.trans h2.symm)

/-- **C130, partial.** The masks have `4 k + 1` points, at least as many as asked for and less than four more; when the number is prime they
decode. Missing: composite numbers, for which the constructor gives no error. -/
theorem C130_mura_any_fov_partial (fov res : ℝ) (hf : 0 < fov) (hr : 0 < res) :
    muraPoints fov res % 4 = 1 ∧ fov / res ≤ muraPoints fov res ∧ (1 ≤ fov / res → (muraPoints fov res : ℝ) < fov / res + 4) ∧
    ((muraPoints fov res).Prime → ∀ (n : ℕ) [NeZero n], n = muraPoints fov res → ∀ s t : ZMod n,
      (∑ i, ∑ j, (muraEnc (i + s) (j + t) * muraDec i j : ℝ)) = if s = 0 ∧ t = 0 then ((n : ℝ) ^ 2 - 1) / 2 else ((n : ℝ) ^ 2 - 1) / 4) := by
  have h4 : muraPoints fov res % 4 = 1 := by unfold muraPoints; omega
  refine ⟨h4, ?_, ?_, ?_⟩
  · unfold muraPoints
    have := Nat.le_ceil ((fov / res - 1) / 4)
    push_cast
    linarith
  · intro h1
    unfold muraPoints
    have := Nat.ceil_lt_add_one (a := (fov / res - 1) / 4) (by linarith)
    push_cast
    linarith
  · intro hp n inst hn s t
    haveI : Fact n.Prime := ⟨hn ▸ hp⟩
    have h := C55_mura_two_valued (p := n) (hn ▸ h4) s t
    convert h using 5

example : muraPoints 13 1 = 13 ∧ Nat.Prime 13 := ⟨by unfold muraPoints; norm_num, by norm_num⟩

end Verif
