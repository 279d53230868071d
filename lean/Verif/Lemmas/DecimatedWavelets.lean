import Verif.Model.DecimatedWavelets
import Verif.Lemmas.StationaryWavelets

/-! # Lemmas about the decimated wavelet transform -/

namespace Verif
open Classical Finset

variable {L : ℕ} {κ : Type} [Fintype κ] [DecidableEq κ] {n : κ → ℕ} {m : ℕ}

/-- The filters reconstruct from every second sample: on the taps of each parity `r`, the sums of products of reconstruction and decomposition filters at
distance `z` vanish, except for `z = 0`, where they add up to 1. -/
def DecimatedReconstruction (w : FilterBank L) : Prop := ∀ r z : ℤ,
  (∑ i : Fin L, ∑ j : Fin L, if Even (((i : ℕ) : ℤ) - r) ∧ ((i : ℕ) : ℤ) - (j : ℕ) = z then w.recLo i.rev * w.decLo j + w.recHi i.rev * w.decHi j else 0) =
    if z = 0 then 1 else 0

/-- The positions of an image of the shape `n`. -/
noncomputable def box (n : κ → ℕ) : Finset (κ → ℤ) := Fintype.piFinset fun k => Finset.Ico (0 : ℤ) (n k)

theorem mem_box {p : κ → ℤ} : p ∈ box n ↔ ∀ k, 0 ≤ p k ∧ p k < n k := by simp [box, Fintype.mem_piFinset]

/-! ## Filters -/

/-- Reversing both taps keeps the distance. -/
theorem sum_reverse (c : Fin L → Fin L → ℝ) : ∑ i : Fin L, ∑ j : Fin L, c i j = ∑ i : Fin L, ∑ j : Fin L, c j.rev i.rev := by
  rw [sum_comm, ← Equiv.sum_comp Fin.revPerm]
  refine sum_congr rfl fun i _ => ?_
  rw [← Equiv.sum_comp Fin.revPerm]
  rfl

theorem sign_parity {z : ℤ} (i j : Fin L) (hij : ((i : ℕ) : ℤ) - (j : ℕ) = z) : ((-1 : ℝ) ^ ((i : ℕ) + (j : ℕ)) = if Even z then 1 else -1) := by
  by_cases he : Even z
  · rw [if_pos he, Even.neg_one_pow]
    have : Even (((i : ℕ) : ℤ) - (j : ℕ)) := hij ▸ he
    rw [Int.even_sub] at this
    rw [Nat.even_add]
    simpa using this
  · rw [if_neg he, Odd.neg_one_pow]
    have h' : ¬ Even (((i : ℕ) : ℤ) - (j : ℕ)) := hij ▸ he
    rw [Int.even_sub] at h'
    rw [← Nat.not_even_iff_odd, Nat.even_add]
    simpa using h'

/-- The orthogonal wavelets reconstruct from every second sample. -/
theorem OrthogonalWavelet.reconstructsDecimated {w : FilterBank L} (h : OrthogonalWavelet w) (hL : Even L) : DecimatedReconstruction w := by
  obtain ⟨s, hs, hm⟩ := h.mirror
  intro r z
  have e1 : ∀ i j : Fin L, w.recLo i.rev * w.decLo j + w.recHi i.rev * w.decHi j =
      w.decLo i * w.decLo j + (-1) ^ ((i : ℕ) + (j : ℕ)) * (w.decLo i.rev * w.decLo j.rev) := by
    intro i j
    rw [h.recLo, h.recHi, Fin.rev_rev, hm, hm, pow_add]
    linear_combination ((-1) ^ (i : ℕ) * w.decLo i.rev * ((-1) ^ (j : ℕ) * w.decLo j.rev)) * hs
  have e2 : (∑ i : Fin L, ∑ j : Fin L, if Even (((i : ℕ) : ℤ) - r) ∧ ((i : ℕ) : ℤ) - (j : ℕ) = z then w.recLo i.rev * w.decLo j + w.recHi i.rev * w.decHi j else 0) =
      (∑ i : Fin L, ∑ j : Fin L, if Even (((i : ℕ) : ℤ) - r) ∧ ((i : ℕ) : ℤ) - (j : ℕ) = z then w.decLo i * w.decLo j else 0) +
      ∑ i : Fin L, ∑ j : Fin L, if Even (((i : ℕ) : ℤ) - r) ∧ ((i : ℕ) : ℤ) - (j : ℕ) = z then (-1) ^ ((i : ℕ) + (j : ℕ)) * (w.decLo i.rev * w.decLo j.rev) else 0 := by
    rw [← sum_add_distrib]
    refine sum_congr rfl fun i _ => ?_
    rw [← sum_add_distrib]
    refine sum_congr rfl fun j _ => ?_
    rw [e1]
    split_ifs <;> ring
  have e3 : (∑ i : Fin L, ∑ j : Fin L, if Even (((i : ℕ) : ℤ) - r) ∧ ((i : ℕ) : ℤ) - (j : ℕ) = z then (-1) ^ ((i : ℕ) + (j : ℕ)) * (w.decLo i.rev * w.decLo j.rev) else 0) =
      ∑ i : Fin L, ∑ j : Fin L, if ¬ Even (((i : ℕ) : ℤ) - z - r) ∧ ((i : ℕ) : ℤ) - (j : ℕ) = z then (if Even z then 1 else -1) * (w.decLo i * w.decLo j) else 0 := by
    rw [sum_reverse]
    refine sum_congr rfl fun i _ => sum_congr rfl fun j _ => ?_
    have hi := i.isLt
    have hj := j.isLt
    have hc : (((j.rev : Fin L) : ℕ) : ℤ) - ((i.rev : Fin L) : ℕ) = z ↔ ((i : ℕ) : ℤ) - (j : ℕ) = z := by
      rw [Fin.val_rev, Fin.val_rev]
      omega
    by_cases hz : ((i : ℕ) : ℤ) - (j : ℕ) = z
    · have hp : Even (((j.rev : Fin L) : ℕ) - r : ℤ) ↔ ¬ Even (((i : ℕ) : ℤ) - z - r) := by
        obtain ⟨l, hl⟩ := hL
        rw [Int.even_iff, Int.even_iff, Fin.val_rev]
        omega
      by_cases hq : ¬ Even (((i : ℕ) : ℤ) - z - r)
      · rw [if_pos ⟨hp.mpr hq, hc.mpr hz⟩, if_pos ⟨hq, hz⟩, sign_parity _ _ (hc.mpr hz), Fin.rev_rev, Fin.rev_rev, mul_comm (w.decLo j)]
      · rw [if_neg fun h => hq (hp.mp h.1), if_neg fun h => hq h.1]
    · rw [if_neg fun h => hz (hc.mp h.2), if_neg fun h => hz h.2]
  rw [e2, e3]
  by_cases he : Even z
  · rw [← h.translates z he, ← sum_add_distrib]
    refine sum_congr rfl fun i _ => ?_
    rw [← sum_add_distrib]
    refine sum_congr rfl fun j _ => ?_
    have hp : Even (((i : ℕ) : ℤ) - z - r) ↔ Even (((i : ℕ) : ℤ) - r) := by
      rw [Int.even_iff] at he
      rw [Int.even_iff, Int.even_iff]
      omega
    by_cases hz : ((i : ℕ) : ℤ) - (j : ℕ) = z <;> by_cases hq : Even (((i : ℕ) : ℤ) - r) <;> simp [hz, hq, hp, he]
  · rw [if_neg (fun h0 : z = 0 => he (by rw [h0]; exact Even.zero)), ← sum_add_distrib]
    refine sum_eq_zero fun i _ => ?_
    rw [← sum_add_distrib]
    refine sum_eq_zero fun j _ => ?_
    have hp : ¬ Even (((i : ℕ) : ℤ) - z - r) ↔ Even (((i : ℕ) : ℤ) - r) := by
      rw [Int.even_iff] at he
      rw [Int.even_iff, Int.even_iff]
      omega
    by_cases hz : ((i : ℕ) : ℤ) - (j : ℕ) = z <;> by_cases hq : Even (((i : ℕ) : ℤ) - r) <;> simp [hz, hq, hp, he]

/-- The filters of two letters are orthonormal, with their even translates. -/
theorem OrthogonalWavelet.cross {w : FilterBank L} (h : OrthogonalWavelet w) (hL : Even L) (b b' : Bool) {z : ℤ} (hz : Even z) :
    (∑ i : Fin L, ∑ j : Fin L, if ((i : ℕ) : ℤ) - (j : ℕ) = z then w.dec b' i * w.dec b j else 0) = if z = 0 ∧ b = b' then 1 else 0 := by
  obtain ⟨s, hs, hm⟩ := h.mirror
  obtain ⟨l, hl⟩ := hL
  have hh : (∑ i : Fin L, ∑ j : Fin L, if ((i : ℕ) : ℤ) - (j : ℕ) = z then w.decHi i * w.decHi j else 0) = if z = 0 then 1 else 0 := by
    rw [← h.translates z hz, sum_reverse (fun i j : Fin L => if ((i : ℕ) : ℤ) - (j : ℕ) = z then w.decLo i * w.decLo j else 0)]
    refine sum_congr rfl fun i _ => sum_congr rfl fun j _ => ?_
    have hi := i.isLt
    have hj := j.isLt
    have hc : (((j.rev : Fin L) : ℕ) : ℤ) - ((i.rev : Fin L) : ℕ) = z ↔ ((i : ℕ) : ℤ) - (j : ℕ) = z := by
      rw [Fin.val_rev, Fin.val_rev]
      omega
    by_cases hij : ((i : ℕ) : ℤ) - (j : ℕ) = z
    · rw [if_pos hij, if_pos (hc.mpr hij), hm, hm]
      have := sign_parity i j hij
      rw [if_pos hz, pow_add] at this
      linear_combination (s ^ 2 * w.decLo i.rev * w.decLo j.rev) * this + (w.decLo i.rev * w.decLo j.rev) * hs
    · rw [if_neg hij, if_neg fun h => hij (hc.mp h)]
  have hx : ∀ y : ℤ, Even y → (∑ i : Fin L, ∑ j : Fin L, if ((i : ℕ) : ℤ) - (j : ℕ) = y then w.decHi i * w.decLo j else 0) = 0 := by
    intro y hy
    have e : (∑ i : Fin L, ∑ j : Fin L, if ((i : ℕ) : ℤ) - (j : ℕ) = y then w.decHi i * w.decLo j else 0) =
        -∑ i : Fin L, ∑ j : Fin L, if ((i : ℕ) : ℤ) - (j : ℕ) = y then w.decHi i * w.decLo j else 0 := by
      conv_lhs => rw [sum_reverse]
      rw [← sum_neg_distrib]
      refine sum_congr rfl fun i _ => ?_
      rw [← sum_neg_distrib]
      refine sum_congr rfl fun j _ => ?_
      have hi := i.isLt
      have hj := j.isLt
      have hc : (((j.rev : Fin L) : ℕ) : ℤ) - ((i.rev : Fin L) : ℕ) = y ↔ ((i : ℕ) : ℤ) - (j : ℕ) = y := by
        rw [Fin.val_rev, Fin.val_rev]
        omega
      by_cases hij : ((i : ℕ) : ℤ) - (j : ℕ) = y
      · rw [if_pos hij, if_pos (hc.mpr hij), hm, hm, Fin.rev_rev]
        have e3 : ((-1 : ℝ)) ^ ((j.rev : Fin L) : ℕ) = -(-1) ^ (i : ℕ) := by
          rw [Int.even_iff] at hy
          rcases Nat.even_or_odd (i : ℕ) with h1 | h1
          · rw [h1.neg_one_pow, Odd.neg_one_pow]
            rw [Nat.even_iff] at h1
            rw [Nat.odd_iff, Fin.val_rev]
            omega
          · rw [h1.neg_one_pow, Even.neg_one_pow]
            · norm_num
            rw [Nat.odd_iff] at h1
            rw [Nat.even_iff, Fin.val_rev]
            omega
        rw [e3]
        ring
      · rw [if_neg hij, if_neg fun h => hij (hc.mp h), neg_zero]
    linarith
  cases b <;> cases b' <;> simp only [FilterBank.dec, and_true, reduceCtorEq, and_false, if_false]
  · exact h.translates z hz
  · exact hx z hz
  · refine Eq.trans ?_ (hx (-z) (Even.neg hz))
    rw [sum_comm]
    refine sum_congr rfl fun i _ => sum_congr rfl fun j _ => ?_
    have : ((j : ℕ) : ℤ) - (i : ℕ) = z ↔ ((i : ℕ) : ℤ) - (j : ℕ) = -z := by omega
    simp only [this, mul_comm]
  · exact hh

/-- A sum over pairs of taps by their distance, for `g` that vanishes at the distances where nothing is known. -/
theorem distance_sum' (c : Fin L → Fin L → ℝ) (C : ℝ) (g : ℤ → ℝ)
    (h : ∀ z : ℤ, g z ≠ 0 → (∑ i : Fin L, ∑ j : Fin L, if ((i : ℕ) : ℤ) - (j : ℕ) = z then c i j else 0) = if z = 0 then C else 0) :
    ∑ i : Fin L, ∑ j : Fin L, c i j * g (((i : ℕ) : ℤ) - (j : ℕ)) = C * g 0 := by
  have hS : (0 : ℤ) ∈ Finset.Icc (-(L : ℤ)) L := by simp
  have h1 : ∑ z ∈ Finset.Icc (-(L : ℤ)) L, (∑ i : Fin L, ∑ j : Fin L, if ((i : ℕ) : ℤ) - (j : ℕ) = z then c i j else 0) * g z = C * g 0 := by
    rw [sum_eq_single_of_mem _ hS]
    · by_cases h0 : g 0 = 0
      · rw [h0, mul_zero, mul_zero]
      · rw [h 0 h0, if_pos rfl]
    · intro z _ hz
      by_cases h0 : g z = 0
      · rw [h0, mul_zero]
      · rw [h z h0, if_neg hz, zero_mul]
  rw [← h1]
  simp only [sum_mul]
  symm
  rw [Finset.sum_comm]
  refine sum_congr rfl fun i _ => ?_
  rw [Finset.sum_comm]
  refine sum_congr rfl fun j _ => ?_
  simp only [ite_mul, zero_mul]
  rw [Finset.sum_ite_eq, if_pos]
  have hi := i.isLt
  have hj := j.isLt
  rw [mem_Icc]
  omega

/-! ## One axis -/

/-- The value at position `i` of the extended row. -/
noncomputable def extRead (mode : DwtMode) (N : ℕ) (a : κ) (x : Img κ) (q : κ → ℤ) (i : ℤ) : ℝ :=
  match extPos mode N i with
  | none => 0
  | some t => x (setAt q a t)

omit [Fintype κ] in
theorem dwtAxis_eq (f : Fin L → ℝ) (mode : DwtMode) (N : ℕ) (a : κ) (x : Img κ) (q : κ → ℤ) :
    dwtAxis f mode N a x q = ∑ j : Fin L, f j * extRead mode N a x q (2 * q a + dwtOff mode L - (j : ℕ)) := rfl

omit [Fintype κ] in
theorem setAt_self (p : κ → ℤ) (a : κ) (i : ℤ) : setAt p a i a = i := by simp [setAt]

omit [Fintype κ] in
theorem setAt_setAt (p : κ → ℤ) (a : κ) (i j : ℤ) : setAt (setAt p a i) a j = setAt p a j := by
  funext k
  unfold setAt
  split_ifs <;> rfl

omit [Fintype κ] in
theorem setAt_eq (p : κ → ℤ) (a : κ) : setAt p a (p a) = p := by
  funext k
  unfold setAt
  split_ifs with h
  · rw [h]
  · rfl

omit [Fintype κ] in
theorem extRead_setAt (mode : DwtMode) (N : ℕ) (a : κ) (x : Img κ) (q : κ → ℤ) (k i : ℤ) :
    extRead mode N a x (setAt q a k) i = extRead mode N a x q i := by
  unfold extRead
  cases extPos mode N i with
  | none => rfl
  | some t => simp only [setAt_setAt]

theorem evenUp_eq (N : ℕ) : evenUp N = 2 * ((N + 1) / 2) := by unfold evenUp; omega

/-- Inside the row nothing is extended. -/
theorem extPos_inside (mode : DwtMode) {N : ℕ} {i : ℤ} (h : 0 ≤ i ∧ i < N) : extPos mode N i = some i := by
  cases mode <;> unfold extPos
  · exact if_pos h
  · simp only [Option.some.injEq]
    omega
  · simp only
    rw [Int.emod_eq_of_lt (by omega) (by omega), if_pos h.2]
  · rw [Int.emod_eq_of_lt h.1 h.2]
  · by_cases h1 : N = 1
    · subst h1
      have : i = 0 := by omega
      subst this
      simp
    · simp only
      by_cases h2 : i < 2 * (N : ℤ) - 2
      · rw [Int.emod_eq_of_lt (by omega) (by omega), if_pos h.2]
      · have : N = 0 := by omega
        omega
  · have hM : (i : ℤ) < evenUp N := by unfold evenUp; push_cast; omega
    rw [Int.emod_eq_of_lt h.1 hM, Option.some.injEq]
    omega

theorem emod_congr {M i t d : ℤ} (h : M ∣ i - t) : (i + d) % M = (t + d) % M :=
  Int.ModEq.add_right d (Int.modEq_iff_dvd.mpr (by rw [← dvd_neg]; simpa using h))

/-- Positions that stand for the same entry have the same values. -/
theorem extPos_hit (mode : DwtMode) {N : ℕ} {i t d : ℤ} (h : dwtHit mode N i t) : extPos mode N (i + d) = extPos mode N (t + d) := by
  unfold dwtHit at h
  by_cases hm : mode = .periodization
  · subst hm
    rw [if_pos rfl] at h
    unfold extPos
    have : (i + d) % (evenUp N : ℤ) = (t + d) % (evenUp N : ℤ) := by
      exact emod_congr h
    simp only [this]
  · rw [if_neg hm] at h
    rw [h]

/-- Of the coefficients, exactly one reaches entry `p` with tap `i`, if the parity is right. -/
theorem hit_count (mode : DwtMode) {N : ℕ} (i : Fin L) {p : ℤ} (hp : 0 ≤ p ∧ p < N) (v : ℝ) :
    (∑ k ∈ range (dwtLen mode L N), if dwtHit mode N (2 * (k : ℤ) + dwtOff mode L - (i : ℕ)) p then v else 0) =
      if Even (((i : ℕ) : ℤ) - (dwtOff mode L - p)) then v else 0 := by
  have hi := i.isLt
  by_cases hm : mode = .periodization
  · subst hm
    simp only [dwtHit, dwtLen, if_true]
    generalize dwtOff .periodization L = off
    rw [evenUp_eq]
    generalize hH : (N + 1) / 2 = H
    have hH0 : 0 < H := by omega
    push_cast
    by_cases he : Even (((i : ℕ) : ℤ) - (off - p))
    · rw [if_pos he]
      obtain ⟨c, hc⟩ := he
      have hH0' : (H : ℤ) ≠ 0 := by omega
      have h1 := Int.emod_nonneg c hH0'
      have h2 := Int.emod_lt_of_pos c (show (0 : ℤ) < H by omega)
      have hit : ∀ k : ℤ, (2 * (H : ℤ) ∣ 2 * k + off - (i : ℕ) - p) ↔ (H : ℤ) ∣ k - c := by
        intro k
        rw [show 2 * k + off - ((i : ℕ) : ℤ) - p = 2 * (k - c) by omega]
        exact mul_dvd_mul_iff_left (by norm_num)
      simp only [hit]
      rw [sum_eq_single (c % (H : ℤ)).toNat]
      · rw [if_pos]
        rw [Int.toNat_of_nonneg h1]
        exact ⟨-(c / H), by have := Int.emod_add_mul_ediv c H; linarith⟩
      · intro k hk hne
        rw [mem_range] at hk
        rw [if_neg]
        intro hd
        apply hne
        have h3 : (k : ℤ) % H = c % H := by simpa using emod_congr (d := 0) hd
        rw [Int.emod_eq_of_lt (by omega) (by omega)] at h3
        omega
      · intro h
        rw [mem_range] at h
        omega
    · rw [if_neg he]
      refine sum_eq_zero fun k _ => if_neg ?_
      rintro ⟨c, hc⟩
      exact he ⟨k - H * c, by linarith⟩
  · simp only [dwtHit, dwtLen, dwtOff, if_neg hm]
    by_cases he : Even (((i : ℕ) : ℤ) - (1 - p))
    · rw [if_pos he]
      rw [Int.even_iff] at he
      rw [sum_eq_single ((p + (i : ℕ) - 1) / 2).toNat]
      · rw [if_pos (by omega)]
      · intro k _ hk
        rw [if_neg (by omega)]
      · intro h
        rw [mem_range] at h
        omega
    · rw [if_neg he]
      refine sum_eq_zero fun k _ => if_neg ?_
      intro hc
      rw [Int.even_iff] at he
      omega

/-- One axis is reconstructed, for all modes. -/
theorem daxis_reconstructs {w : FilterBank L} (h : DecimatedReconstruction w) (mode : DwtMode) (N : ℕ) (a : κ) (x : Img κ) (p : κ → ℤ)
    (hp : 0 ≤ p a ∧ p a < N) :
    idwtAxis w.recLo mode N a (dwtAxis w.decLo mode N a x) p + idwtAxis w.recHi mode N a (dwtAxis w.decHi mode N a x) p = x p := by
  have e : ∀ f g : Fin L → ℝ, idwtAxis f mode N a (dwtAxis g mode N a x) p =
      ∑ i : Fin L, ∑ j : Fin L, (if Even (((i : ℕ) : ℤ) - (dwtOff mode L - p a)) then f i.rev * g j else 0) *
        (fun z => extRead mode N a x p (p a + z)) (((i : ℕ) : ℤ) - (j : ℕ)) := by
    intro f g
    unfold idwtAxis
    rw [sum_comm]
    refine sum_congr rfl fun i _ => ?_
    have e1 : ∀ k ∈ range (dwtLen mode L N),
        (if dwtHit mode N (2 * (k : ℤ) + dwtOff mode L - (i : ℕ)) (p a) then f i.rev * dwtAxis g mode N a x (setAt p a k) else 0) =
        if dwtHit mode N (2 * (k : ℤ) + dwtOff mode L - (i : ℕ)) (p a) then
          ∑ j : Fin L, f i.rev * g j * extRead mode N a x p (p a + (((i : ℕ) : ℤ) - (j : ℕ))) else 0 := by
      intro k _
      by_cases hh : dwtHit mode N (2 * (k : ℤ) + dwtOff mode L - (i : ℕ)) (p a)
      · rw [if_pos hh, if_pos hh, dwtAxis_eq, mul_sum]
        refine sum_congr rfl fun j _ => ?_
        rw [setAt_self, extRead_setAt, mul_assoc]
        congr 2
        unfold extRead
        rw [show 2 * (k : ℤ) + dwtOff mode L - ((j : ℕ) : ℤ) = 2 * (k : ℤ) + dwtOff mode L - ((i : ℕ) : ℤ) + (((i : ℕ) : ℤ) - (j : ℕ)) by ring,
          extPos_hit mode hh]
      · rw [if_neg hh, if_neg hh]
    rw [sum_congr rfl e1, hit_count mode i hp]
    split_ifs <;> simp
  rw [e, e, ← sum_add_distrib]
  have e2 : ∀ i : Fin L, (∑ j : Fin L, (if Even (((i : ℕ) : ℤ) - (dwtOff mode L - p a)) then w.recLo i.rev * w.decLo j else 0) *
        (fun z => extRead mode N a x p (p a + z)) (((i : ℕ) : ℤ) - (j : ℕ))) +
      (∑ j : Fin L, (if Even (((i : ℕ) : ℤ) - (dwtOff mode L - p a)) then w.recHi i.rev * w.decHi j else 0) *
        (fun z => extRead mode N a x p (p a + z)) (((i : ℕ) : ℤ) - (j : ℕ))) =
      ∑ j : Fin L, (if Even (((i : ℕ) : ℤ) - (dwtOff mode L - p a)) then w.recLo i.rev * w.decLo j + w.recHi i.rev * w.decHi j else 0) *
        (fun z => extRead mode N a x p (p a + z)) (((i : ℕ) : ℤ) - (j : ℕ)) := by
    intro i
    rw [← sum_add_distrib]
    refine sum_congr rfl fun j _ => ?_
    split_ifs <;> ring
  simp only [e2]
  have h' : ∀ z : ℤ, (∑ i : Fin L, ∑ j : Fin L, if ((i : ℕ) : ℤ) - (j : ℕ) = z then
      (if Even (((i : ℕ) : ℤ) - (dwtOff mode L - p a)) then w.recLo i.rev * w.decLo j + w.recHi i.rev * w.decHi j else 0) else 0) = if z = 0 then 1 else 0 := by
    intro z
    rw [← h (dwtOff mode L - p a) z]
    refine sum_congr rfl fun i _ => sum_congr rfl fun j _ => ?_
    by_cases h1 : ((i : ℕ) : ℤ) - (j : ℕ) = z <;> by_cases h2 : Even (((i : ℕ) : ℤ) - (dwtOff mode L - p a)) <;> simp [h1, h2]
  have := distance_sum (fun i j : Fin L => if Even (((i : ℕ) : ℤ) - (dwtOff mode L - p a)) then w.recLo i.rev * w.decLo j + w.recHi i.rev * w.decHi j else 0)
    1 h' (fun z => extRead mode N a x p (p a + z))
  rw [this]
  unfold extRead
  simp only [add_zero, one_mul, extPos_inside mode hp, setAt_eq]

/-- A sum over the positions of an image, along one axis first. -/
theorem box_split (n : κ → ℕ) (a : κ) (g : (κ → ℤ) → ℝ) :
    ∑ p ∈ box n, g p = ∑ p ∈ box (fun k => if k = a then 1 else n k), ∑ i ∈ Ico (0 : ℤ) (n a), g (setAt p a i) := by
  rw [← sum_product']
  refine sum_nbij' (fun p => (setAt p a 0, p a)) (fun q => setAt q.1 a q.2) ?_ ?_ ?_ ?_ ?_
  · intro p hp
    rw [mem_box] at hp
    rw [mem_product, mem_box, mem_Ico]
    refine ⟨fun k => ?_, hp a⟩
    unfold setAt
    by_cases hk : k = a
    · simp [hk]
    · simpa [hk] using hp k
  · intro q hq
    rw [mem_product, mem_box, mem_Ico] at hq
    rw [mem_box]
    intro k
    unfold setAt
    by_cases hk : k = a
    · rw [if_pos hk, hk]; exact hq.2
    · have := hq.1 k
      rw [if_neg hk] at this
      rw [if_neg hk]; exact this
  · intro p _
    rw [setAt_setAt, setAt_eq]
  · intro q hq
    rw [mem_product, mem_box] at hq
    have h0 := hq.1 a
    rw [if_pos rfl] at h0
    rw [setAt_setAt, setAt_self]
    have : q.1 a = 0 := by omega
    rw [← this, setAt_eq]
  · intro p _
    rw [setAt_setAt, setAt_eq]

theorem sum_range_int (N : ℕ) (g : ℤ → ℝ) : ∑ k ∈ range N, g k = ∑ k ∈ Ico (0 : ℤ) N, g k := by
  refine sum_nbij' (fun k : ℕ => (k : ℤ)) Int.toNat ?_ ?_ ?_ ?_ ?_
  · intro k hk; rw [mem_range] at hk; rw [mem_Ico]; omega
  · intro k hk; rw [mem_Ico] at hk; rw [mem_range]; omega
  · intro k _; rfl
  · intro k hk; rw [mem_Ico] at hk; exact Int.toNat_of_nonneg hk.1
  · intro k _; rfl

/-- The modes and sizes for which the inverse transform is the transpose: zeros outside, or periodic with an even number of entries. -/
def Transposes (mode : DwtMode) (N : ℕ) : Prop := mode = .zero ∨ (mode = .periodization ∧ Even N)

omit [Fintype κ] in
theorem extRead_sum {mode : DwtMode} {N : ℕ} (h0 : 0 < N) (h : Transposes mode N) (a : κ) (x : Img κ) (q : κ → ℤ) (i : ℤ) :
    extRead mode N a x q i = ∑ t ∈ Ico (0 : ℤ) N, if dwtHit mode N i t then x (setAt q a t) else 0 := by
  rcases h with h | ⟨h, hN⟩
  · subst h
    simp only [extRead, extPos, dwtHit, reduceCtorEq, if_false]
    rw [sum_ite_eq]
    by_cases hi : 0 ≤ i ∧ i < N
    · rw [if_pos hi, if_pos (mem_Ico.mpr hi)]
    · rw [if_neg hi, if_neg fun h => hi (mem_Ico.mp h)]
  · subst h
    have hM : evenUp N = N := by unfold evenUp; rw [Nat.even_iff] at hN; omega
    simp only [dwtHit, if_true]
    rw [hM]
    · have h0' : (N : ℤ) ≠ 0 := by omega
      have h1 := Int.emod_nonneg i h0'
      have h2 := Int.emod_lt_of_pos i (show (0 : ℤ) < N by omega)
      rw [sum_eq_single (i % N)]
      · rw [if_pos Int.dvd_self_sub_emod]
        unfold extRead extPos
        rw [hM]
        simp only
        congr 2
        omega
      · intro t ht hne
        rw [mem_Ico] at ht
        rw [if_neg]
        intro hd
        have h3 : i % N = t % N := by simpa using emod_congr (d := 0) hd
        rw [Int.emod_eq_of_lt ht.1 ht.2] at h3
        exact hne h3.symm
      · intro h
        rw [mem_Ico] at h
        omega

omit [Fintype κ] in
theorem decShape_base (mode : DwtMode) (L : ℕ) (n : κ → ℕ) (a : κ) :
    (fun k => if k = a then 1 else decShape mode L n a k) = fun k => if k = a then 1 else n k := by
  funext k
  unfold decShape
  split_ifs <;> rfl

/-- One axis: the transpose. -/
theorem daxis_transpose {f g : Fin L → ℝ} (hfg : ∀ j : Fin L, g j.rev = f j) {mode : DwtMode} (n : κ → ℕ) (a : κ) (h : Transposes mode (n a)) (x y : Img κ) :
    ∑ q ∈ box (decShape mode L n a), dwtAxis f mode (n a) a x q * y q = ∑ p ∈ box n, x p * idwtAxis g mode (n a) a y p := by
  rw [box_split (decShape mode L n a) a, box_split n a, decShape_base]
  refine sum_congr rfl fun p _ => ?_
  have hd : decShape mode L n a a = dwtLen mode L (n a) := by simp [decShape]
  rw [hd]
  by_cases h0 : n a = 0
  · rw [h0]
    have e0 : Ico (0 : ℤ) ((0 : ℕ) : ℤ) = ∅ := by simp
    rw [e0, sum_empty]
    rcases h with h | ⟨h, _⟩
    · refine sum_eq_zero fun k _ => ?_
      rw [dwtAxis_eq, sum_eq_zero, zero_mul]
      intro j _
      subst h
      simp only [extRead, extPos]
      rw [if_neg (by push_cast; omega), mul_zero]
    · subst h
      have : dwtLen .periodization L 0 = 0 := by simp [dwtLen]
      rw [this, e0, sum_empty]
  have e1 : ∀ k : ℤ, dwtAxis f mode (n a) a x (setAt p a k) * y (setAt p a k) =
      ∑ t ∈ Ico (0 : ℤ) (n a), ∑ j : Fin L, if dwtHit mode (n a) (2 * k + dwtOff mode L - (j : ℕ)) t then x (setAt p a t) * (f j * y (setAt p a k)) else 0 := by
    intro k
    rw [dwtAxis_eq, sum_mul, sum_comm]
    refine sum_congr rfl fun j _ => ?_
    rw [setAt_self, extRead_setAt, extRead_sum (Nat.pos_of_ne_zero h0) h, mul_sum, sum_mul]
    refine sum_congr rfl fun t _ => ?_
    split_ifs <;> ring
  simp only [e1]
  rw [sum_comm]
  refine sum_congr rfl fun t _ => ?_
  unfold idwtAxis
  rw [sum_range_int (dwtLen mode L (n a)) fun k => ∑ j : Fin L,
    if dwtHit mode (n a) (2 * k + dwtOff mode L - (j : ℕ)) (setAt p a t a) then g j.rev * y (setAt (setAt p a t) a k) else 0, mul_sum]
  refine sum_congr rfl fun k _ => ?_
  rw [mul_sum]
  refine sum_congr rfl fun j _ => ?_
  rw [setAt_self, setAt_setAt, hfg]
  split_ifs <;> ring

/-! ## Only the values inside the shape count -/

theorem idwtAxis_congr (f : Fin L → ℝ) (mode : DwtMode) (n : κ → ℕ) (a : κ) {y y' : Img κ} (h : ∀ q ∈ box (decShape mode L n a), y q = y' q) :
    ∀ p ∈ box n, idwtAxis f mode (n a) a y p = idwtAxis f mode (n a) a y' p := by
  intro p hp
  rw [mem_box] at hp
  unfold idwtAxis
  refine sum_congr rfl fun k hk => sum_congr rfl fun j _ => ?_
  rw [mem_range] at hk
  rw [h]
  rw [mem_box]
  intro i
  unfold setAt decShape
  by_cases hi : i = a
  · subst hi
    rw [if_pos rfl, if_pos rfl]
    omega
  · rw [if_neg hi, if_neg hi]
    exact hp i

/-- The modes for which the direct transform is modelled to read inside the shape, whatever the shape. -/
def ReadsInside (mode : DwtMode) : Prop := mode = .zero ∨ mode = .periodization

theorem dwtAxis_congr (f : Fin L → ℝ) {mode : DwtMode} (hm : ReadsInside mode) (n : κ → ℕ) (a : κ) {x x' : Img κ} (h : ∀ p ∈ box n, x p = x' p) :
    ∀ q ∈ box (decShape mode L n a), dwtAxis f mode (n a) a x q = dwtAxis f mode (n a) a x' q := by
  intro q hq
  rw [mem_box] at hq
  rw [dwtAxis_eq, dwtAxis_eq]
  refine sum_congr rfl fun j _ => ?_
  congr 1
  have inside : ∀ t : ℤ, 0 ≤ t ∧ t < n a → x (setAt q a t) = x' (setAt q a t) := by
    intro t ht
    apply h
    rw [mem_box]
    intro i
    have hi' := hq i
    unfold decShape at hi'
    unfold setAt
    by_cases hi : i = a
    · subst hi
      rw [if_pos rfl]
      exact ht
    · rw [if_neg hi] at hi' ⊢
      exact hi'
  have ha := hq a
  unfold decShape at ha
  rw [if_pos rfl] at ha
  unfold extRead
  rcases hm with hm | hm
  · subst hm
    simp only [extPos]
    by_cases hi : 0 ≤ 2 * q a + dwtOff .zero L - (j : ℕ) ∧ 2 * q a + dwtOff .zero L - (j : ℕ) < n a
    · rw [if_pos hi]
      exact inside _ hi
    · rw [if_neg hi]
  · subst hm
    simp only [extPos]
    apply inside
    have hN : 0 < n a := by
      rcases Nat.eq_zero_or_pos (n a) with h0 | h0
      · rw [h0] at ha
        simp [dwtLen] at ha
        omega
      · exact h0
    have h0 : (evenUp (n a) : ℤ) ≠ 0 := by unfold evenUp; push_cast; omega
    have h1 := Int.emod_nonneg (2 * q a + dwtOff .periodization L - (j : ℕ)) h0
    omega

/-- Periodic rows of even length: the direct transform undoes the inverse one. -/
theorem daxis_orthonormal {w : FilterBank L} (hw : OrthogonalWavelet w) (hL : Even L) (b b' : Bool) {N : ℕ} (hN : Even N) (a : κ) (y : Img κ) (q : κ → ℤ)
    (hq : 0 ≤ q a ∧ q a < dwtLen .periodization L N) :
    dwtAxis (w.dec b) .periodization N a (idwtAxis (w.recon b') .periodization N a y) q = if b = b' then y q else 0 := by
  have hl : dwtLen .periodization L N = N / 2 := by
    rw [Nat.even_iff] at hN
    simp only [dwtLen, if_true]
    omega
  have hM : evenUp N = N := by unfold evenUp; rw [Nat.even_iff] at hN; omega
  rw [hl] at hq
  have hN2 : (N : ℤ) = 2 * ((N / 2 : ℕ) : ℤ) := by rw [Nat.even_iff] at hN; omega
  have hrec : ∀ i : Fin L, w.recon b' i.rev = w.dec b' i := by
    intro i
    cases b'
    · simp only [FilterBank.recon, FilterBank.dec]; rw [hw.recLo, Fin.rev_rev]
    · simp only [FilterBank.recon, FilterBank.dec]; rw [hw.recHi, Fin.rev_rev]
  have hext : ∀ i : ℤ, extRead .periodization N a (idwtAxis (w.recon b') .periodization N a y) q i =
      ∑ k ∈ range (N / 2), ∑ j : Fin L, if (N : ℤ) ∣ 2 * (k : ℤ) + dwtOff .periodization L - (j : ℕ) - i then w.dec b' j * y (setAt q a k) else 0 := by
    intro i
    have h0' : (N : ℤ) ≠ 0 := by omega
    have h1 := Int.emod_nonneg i h0'
    have h2 := Int.emod_lt_of_pos i (show (0 : ℤ) < N by omega)
    have hmin : min (i % (N : ℤ)) ((N : ℤ) - 1) = i % N := by omega
    simp only [extRead, extPos, hM, hmin, idwtAxis, hl, setAt_self, setAt_setAt, dwtHit, if_true, hrec]
    refine sum_congr rfl fun k _ => sum_congr rfl fun j _ => ?_
    have : (N : ℤ) ∣ 2 * (k : ℤ) + dwtOff .periodization L - (j : ℕ) - i % N ↔ (N : ℤ) ∣ 2 * (k : ℤ) + dwtOff .periodization L - (j : ℕ) - i := by
      rw [show 2 * (k : ℤ) + dwtOff .periodization L - (j : ℕ) - i % N = 2 * (k : ℤ) + dwtOff .periodization L - (j : ℕ) - i + (i - i % N) by ring]
      exact dvd_add_left Int.dvd_self_sub_emod
    simp only [this]
  rw [dwtAxis_eq]
  simp only [hext]
  let g : ℤ → ℝ := fun z => ∑ k ∈ range (N / 2), if (N : ℤ) ∣ 2 * ((k : ℤ) - q a) - z then y (setAt q a k) else 0
  have e : (∑ j : Fin L, w.dec b j * ∑ k ∈ range (N / 2), ∑ i : Fin L,
        if (N : ℤ) ∣ 2 * (k : ℤ) + dwtOff .periodization L - (i : ℕ) - (2 * q a + dwtOff .periodization L - (j : ℕ)) then w.dec b' i * y (setAt q a k) else 0) =
      ∑ i : Fin L, ∑ j : Fin L, (w.dec b' i * w.dec b j) * g (((i : ℕ) : ℤ) - (j : ℕ)) := by
    rw [sum_comm (s := (univ : Finset (Fin L))) (t := (univ : Finset (Fin L))) (f := fun i j : Fin L => (w.dec b' i * w.dec b j) * g (((i : ℕ) : ℤ) - (j : ℕ)))]
    refine sum_congr rfl fun j _ => ?_
    rw [sum_comm, mul_sum]
    refine sum_congr rfl fun i _ => ?_
    simp only [g]
    rw [mul_sum, mul_sum]
    refine sum_congr rfl fun k _ => ?_
    have : 2 * (k : ℤ) + dwtOff .periodization L - ((i : ℕ) : ℤ) - (2 * q a + dwtOff .periodization L - ((j : ℕ) : ℤ)) =
        2 * ((k : ℤ) - q a) - (((i : ℕ) : ℤ) - (j : ℕ)) := by ring
    rw [this]
    split_ifs <;> ring
  rw [e, distance_sum' (fun i j => w.dec b' i * w.dec b j) (if b = b' then 1 else 0) g]
  · have hg : g 0 = y q := by
      simp only [g, sub_zero]
      rw [sum_eq_single (q a).toNat]
      · rw [Int.toNat_of_nonneg hq.1, sub_self, mul_zero, if_pos (dvd_zero _), setAt_eq]
      · intro k hk hne
        rw [mem_range] at hk
        rw [if_neg]
        rintro ⟨c, hc⟩
        rw [hN2] at hc
        have hc' : (k : ℤ) - q a = ((N / 2 : ℕ) : ℤ) * c := by linarith
        rcases lt_trichotomy c 0 with h | h | h
        · have : ((N / 2 : ℕ) : ℤ) * c ≤ ((N / 2 : ℕ) : ℤ) * (-1) := mul_le_mul_of_nonneg_left (by omega) (by omega)
          omega
        · rw [h, mul_zero] at hc'
          omega
        · have : ((N / 2 : ℕ) : ℤ) * 1 ≤ ((N / 2 : ℕ) : ℤ) * c := mul_le_mul_of_nonneg_left (by omega) (by omega)
          omega
      · intro h
        rw [mem_range] at h
        omega
    rw [hg]
    split_ifs <;> ring
  · intro z hz
    have he : Even z := by
      by_contra ho
      apply hz
      simp only [g]
      refine sum_eq_zero fun k _ => if_neg ?_
      rintro ⟨c, hc⟩
      apply ho
      refine ⟨(k : ℤ) - q a - ((N / 2 : ℕ) : ℤ) * c, ?_⟩
      rw [hN2] at hc
      linarith
    rw [hw.cross hL b b' he]
    by_cases h0 : z = 0 <;> by_cases hb : b = b' <;> simp [h0, hb]

/-! ## One level -/

omit [Fintype κ] in
theorem idwtAxis_sum {α : Type} (s : Finset α) (f : Fin L → ℝ) (mode : DwtMode) (N : ℕ) (a : κ) (y : α → Img κ) (p : κ → ℤ) :
    idwtAxis f mode N a (fun q => ∑ i ∈ s, y i q) p = ∑ i ∈ s, idwtAxis f mode N a (y i) p := by
  unfold idwtAxis
  rw [sum_comm (s := s)]
  refine sum_congr rfl fun k _ => ?_
  rw [sum_comm (s := s)]
  refine sum_congr rfl fun j _ => ?_
  split_ifs
  · rw [mul_sum]
  · rw [sum_const_zero]

omit [Fintype κ] in
theorem dwtAxis_sum {α : Type} (s : Finset α) (f : Fin L → ℝ) (mode : DwtMode) (N : ℕ) (a : κ) (x : α → Img κ) :
    dwtAxis f mode N a (fun q => ∑ i ∈ s, x i q) = fun q => ∑ i ∈ s, dwtAxis f mode N a (x i) q := by
  funext q
  simp only [dwtAxis_eq]
  rw [sum_comm]
  refine sum_congr rfl fun j _ => ?_
  rw [← mul_sum]
  congr 1
  unfold extRead
  cases extPos mode N (2 * q a + dwtOff mode L - (j : ℕ)) with
  | none => simp
  | some t => rfl

omit [Fintype κ] in
theorem dbandDec_sum {α : Type} (s : Finset α) (w : FilterBank L) (mode : DwtMode) (l : List (κ × Bool)) (n : κ → ℕ) (x : α → Img κ) :
    dbandDec w mode l n (fun q => ∑ i ∈ s, x i q) = fun q => ∑ i ∈ s, dbandDec w mode l n (x i) q := by
  induction l generalizing n x with
  | nil => rfl
  | cons c l ih =>
    obtain ⟨a, b⟩ := c
    simp only [dbandDec, dwtAxis_sum]
    exact ih _ _

/-- The shape after the filters of a list of letters. -/
def lettersShape (mode : DwtMode) (L : ℕ) (l : List (κ × Bool)) (n : κ → ℕ) : κ → ℕ := bandShape mode L (l.map Prod.fst) n

omit [Fintype κ] in
theorem lettered_fst (axes : Fin m → κ) (l : Fin m → Bool) : (lettered axes l).map Prod.fst = List.ofFn axes := by
  unfold lettered
  rw [List.map_ofFn]
  rfl

theorem dbandRec_congr (w : FilterBank L) (mode : DwtMode) (l : List (κ × Bool)) (n : κ → ℕ) {y y' : Img κ}
    (h : ∀ q ∈ box (lettersShape mode L l n), y q = y' q) : ∀ p ∈ box n, dbandRec w mode l n y p = dbandRec w mode l n y' p := by
  induction l generalizing n with
  | nil => exact h
  | cons c l ih =>
    obtain ⟨a, b⟩ := c
    exact idwtAxis_congr _ mode n a (ih _ h)

theorem dbandDec_congr (w : FilterBank L) {mode : DwtMode} (hm : ReadsInside mode) (l : List (κ × Bool)) (n : κ → ℕ) {x x' : Img κ}
    (h : ∀ p ∈ box n, x p = x' p) : ∀ q ∈ box (lettersShape mode L l n), dbandDec w mode l n x q = dbandDec w mode l n x' q := by
  induction l generalizing n x x' with
  | nil => exact h
  | cons c l ih =>
    obtain ⟨a, b⟩ := c
    exact ih _ (dwtAxis_congr _ hm n a h)

/-- One level is reconstructed from all its bands, for all modes. -/
theorem dlevel_reconstructs {w : FilterBank L} (h : DecimatedReconstruction w) (mode : DwtMode) {m : ℕ} (axes : Fin m → κ) (n : κ → ℕ) (x : Img κ) :
    ∀ p ∈ box n, ∑ l, dbandRec w mode (lettered axes l) n (dbandDec w mode (lettered axes l) n x) p = x p := by
  induction m generalizing n x with
  | zero =>
    intro p _
    have : ∀ l : Fin 0 → Bool, lettered axes l = [] := fun l => by unfold lettered; simp
    simp [this, dbandRec, dbandDec]
  | succ m ih =>
    intro p hp
    rw [sum_labels]
    simp only [lettered_cons, dbandRec, dbandDec, FilterBank.dec, FilterBank.recon]
    rw [← idwtAxis_sum, ← idwtAxis_sum]
    rw [idwtAxis_congr _ mode n (axes 0) (ih (fun i => axes i.succ) (decShape mode L n (axes 0)) _) p hp,
      idwtAxis_congr _ mode n (axes 0) (ih (fun i => axes i.succ) (decShape mode L n (axes 0)) _) p hp]
    exact daxis_reconstructs h mode (n (axes 0)) (axes 0) x p ((mem_box.mp hp) (axes 0))

/-- The modes and shapes for which the filters along a list of axes have their inverse as transpose. -/
def TransposesAlong (mode : DwtMode) (L : ℕ) : List κ → (κ → ℕ) → Prop
  | [], _ => True
  | a :: t, n => Transposes mode (n a) ∧ TransposesAlong mode L t (decShape mode L n a)

theorem rec_rev {w : FilterBank L} (hw : OrthogonalWavelet w) (b : Bool) (j : Fin L) : w.recon b j.rev = w.dec b j := by
  cases b
  · simp only [FilterBank.recon, FilterBank.dec]; rw [hw.recLo, Fin.rev_rev]
  · simp only [FilterBank.recon, FilterBank.dec]; rw [hw.recHi, Fin.rev_rev]

theorem dband_transpose {w : FilterBank L} (hw : OrthogonalWavelet w) {mode : DwtMode} (l : List (κ × Bool)) (n : κ → ℕ)
    (h : TransposesAlong mode L (l.map Prod.fst) n) (x y : Img κ) :
    ∑ q ∈ box (lettersShape mode L l n), dbandDec w mode l n x q * y q = ∑ p ∈ box n, x p * dbandRec w mode l n y p := by
  induction l generalizing n x with
  | nil => rfl
  | cons c l ih =>
    obtain ⟨a, b⟩ := c
    obtain ⟨h1, h2⟩ := h
    exact (ih _ h2 _).trans (daxis_transpose (rec_rev hw b) n a h1 x _)

/-- Even numbers of entries along a list of axes. -/
def EvenAlong (L : ℕ) : List κ → (κ → ℕ) → Prop
  | [], _ => True
  | a :: t, n => Even (n a) ∧ EvenAlong L t (decShape .periodization L n a)

omit [Fintype κ] in
theorem EvenAlong.transposes {l : List κ} {n : κ → ℕ} (h : EvenAlong L l n) : TransposesAlong .periodization L l n := by
  induction l generalizing n with
  | nil => trivial
  | cons a l ih => exact ⟨Or.inr ⟨rfl, h.1⟩, ih h.2⟩

omit [Fintype κ] in
theorem zero_transposes (l : List κ) (n : κ → ℕ) : TransposesAlong .zero L l n := by
  induction l generalizing n with
  | nil => trivial
  | cons a l ih => exact ⟨Or.inl rfl, ih _⟩

/-- Periodic images of even sizes: the bands are orthonormal. -/
theorem dband_orthonormal {w : FilterBank L} (hw : OrthogonalWavelet w) (hL : Even L) {m : ℕ} (axes : Fin m → κ) (l l' : Fin m → Bool) (n : κ → ℕ)
    (h : EvenAlong L (List.ofFn axes) n) (y : Img κ) :
    ∀ q ∈ box (bandShape .periodization L (List.ofFn axes) n),
      dbandDec w .periodization (lettered axes l) n (dbandRec w .periodization (lettered axes l') n y) q = if l = l' then y q else 0 := by
  induction m generalizing n with
  | zero =>
    intro q _
    have : ∀ l : Fin 0 → Bool, lettered axes l = [] := fun l => by unfold lettered; simp
    rw [this, this, if_pos (Subsingleton.elim _ _)]
    rfl
  | succ m ih =>
    intro q hq
    rw [List.ofFn_succ] at h hq
    obtain ⟨h1, h2⟩ := h
    obtain ⟨b, t, rfl⟩ : ∃ b t, l = Fin.cons b t := ⟨l 0, fun i => l i.succ, (Fin.cons_self_tail l).symm⟩
    obtain ⟨b', t', rfl⟩ : ∃ b t, l' = Fin.cons b t := ⟨l' 0, fun i => l' i.succ, (Fin.cons_self_tail l').symm⟩
    rw [lettered_cons, lettered_cons]
    simp only [dbandDec, dbandRec]
    have hc := dbandDec_congr w (Or.inr rfl) (lettered (fun i => axes i.succ) t) (decShape .periodization L n (axes 0))
      (fun r hr => daxis_orthonormal hw hL b b' h1 (axes 0)
        (dbandRec w .periodization (lettered (fun i => axes i.succ) t') (decShape .periodization L n (axes 0)) y) r
        (by have := mem_box.mp hr (axes 0); simpa [decShape] using this)) q (by
          unfold lettersShape; rw [lettered_fst]; exact hq)
    rw [hc]
    by_cases hb : b = b'
    · simp only [if_pos hb]
      rw [show (fun r => dbandRec w .periodization (lettered (fun i => axes i.succ) t') (decShape .periodization L n (axes 0)) y r) =
        dbandRec w .periodization (lettered (fun i => axes i.succ) t') (decShape .periodization L n (axes 0)) y from rfl,
        ih (fun i => axes i.succ) t t' _ h2 q hq]
      simp only [Fin.cons_inj, hb, true_and]
    · simp only [if_neg hb]
      have hz := congrFun (dbandDec_sum (∅ : Finset ℕ) w .periodization (lettered (fun i => axes i.succ) t) (decShape .periodization L n (axes 0))
        (fun _ _ => (0 : ℝ))) q
      simp only [sum_empty] at hz
      rw [hz]
      simp only [Fin.cons_inj, hb, false_and, if_false]

/-! ## All levels -/

theorem lettered_box (mode : DwtMode) (L : ℕ) (axes : Fin m → κ) (l : Fin m → Bool) (n : κ → ℕ) (i : ℕ) :
    box (lettersShape mode L (lettered axes l) (levelShape mode L axes n i)) = box (levelShape mode L axes n (i + 1)) := by
  unfold lettersShape
  rw [lettered_fst]
  rfl

theorem idwtFrom_congr (w : FilterBank L) (mode : DwtMode) (axes : Fin m → κ) (n : κ → ℕ) (d : ℕ → (Fin m → Bool) → Img κ) (i : ℕ) {a a' : Img κ}
    (h : ∀ q ∈ box (levelShape mode L axes n i), a q = a' q) : ∀ p ∈ box n, idwtFrom w mode axes n d i a p = idwtFrom w mode axes n d i a' p := by
  induction i generalizing a a' with
  | zero => exact h
  | succ i ih =>
    unfold idwtFrom
    refine ih fun q hq => sum_congr rfl fun l _ => ?_
    refine dbandRec_congr w mode _ _ (fun r hr => ?_) q hq
    rw [lettered_box] at hr
    split_ifs
    · exact h r hr
    · rfl

theorem dall_reconstruct {w : FilterBank L} (h : DecimatedReconstruction w) (mode : DwtMode) (axes : Fin m → κ) (n : κ → ℕ)
    (d : ℕ → (Fin m → Bool) → Img κ) (x : Img κ) (level : ℕ)
    (hd : ∀ i, i < level → ∀ l, l ≠ approxLabel m → d i l = dbandDec w mode (lettered axes l) (levelShape mode L axes n i) (dwtApprox w mode axes n x i)) :
    ∀ p ∈ box n, idwtFrom w mode axes n d level (dwtApprox w mode axes n x level) p = x p := by
  induction level with
  | zero => exact fun _ _ => rfl
  | succ i ih =>
    intro p hp
    unfold idwtFrom
    rw [idwtFrom_congr w mode axes n d i (a' := dwtApprox w mode axes n x i) ?_ p hp]
    · exact ih (fun j hj => hd j (by omega)) p hp
    · intro q hq
      rw [← dlevel_reconstructs h mode axes (levelShape mode L axes n i) (dwtApprox w mode axes n x i) q hq]
      refine sum_congr rfl fun l _ => ?_
      congr 1
      by_cases hl : l = approxLabel m
      · rw [if_pos hl, hl]; rfl
      · rw [if_neg hl, hd i (by omega) l hl]

theorem dall_transpose {w : FilterBank L} (hw : OrthogonalWavelet w) (mode : DwtMode) (axes : Fin m → κ) (n : κ → ℕ)
    (d : ℕ → (Fin m → Bool) → Img κ) (x : Img κ) (level : ℕ) (h : ∀ i < level, TransposesAlong mode L (List.ofFn axes) (levelShape mode L axes n i)) (a : Img κ) :
    ∑ p ∈ box n, x p * idwtFrom w mode axes n d level a p = ∑ q ∈ box (levelShape mode L axes n level), dwtApprox w mode axes n x level q * a q +
      ∑ i ∈ range level, ∑ l : {l : Fin m → Bool // l ≠ approxLabel m}, ∑ q ∈ box (levelShape mode L axes n (i + 1)),
        dbandDec w mode (lettered axes l) (levelShape mode L axes n i) (dwtApprox w mode axes n x i) q * d i l q := by
  induction level generalizing a with
  | zero => simp [idwtFrom, dwtApprox, levelShape]
  | succ i ih =>
    unfold idwtFrom
    rw [ih (fun j hj => h j (by omega)), sum_range_succ]
    have e : ∑ q ∈ box (levelShape mode L axes n i), dwtApprox w mode axes n x i q *
          ∑ l, dbandRec w mode (lettered axes l) (levelShape mode L axes n i) (if l = approxLabel m then a else d i l) q =
        ∑ q ∈ box (levelShape mode L axes n (i + 1)), dwtApprox w mode axes n x (i + 1) q * a q +
        ∑ l : {l : Fin m → Bool // l ≠ approxLabel m}, ∑ q ∈ box (levelShape mode L axes n (i + 1)),
          dbandDec w mode (lettered axes l) (levelShape mode L axes n i) (dwtApprox w mode axes n x i) q * d i l q := by
      simp only [mul_sum]
      rw [sum_comm]
      have hb : ∀ l : Fin m → Bool, ∑ q ∈ box (levelShape mode L axes n i), dwtApprox w mode axes n x i q *
            dbandRec w mode (lettered axes l) (levelShape mode L axes n i) (if l = approxLabel m then a else d i l) q =
          ∑ q ∈ box (levelShape mode L axes n (i + 1)),
            dbandDec w mode (lettered axes l) (levelShape mode L axes n i) (dwtApprox w mode axes n x i) q * (if l = approxLabel m then a else d i l) q := by
        intro l
        rw [← dband_transpose hw (lettered axes l) (levelShape mode L axes n i) (by rw [lettered_fst]; exact h i (by omega)), lettered_box]
      simp only [hb]
      rw [Fintype.sum_eq_add_sum_subtype_ne _ (approxLabel m), if_pos rfl]
      congr 1
      refine sum_congr rfl fun l _ => ?_
      rw [if_neg l.2]
    rw [e]
    ring

/-- Periodic images of suitable sizes: the transform of the inverse transform. -/
theorem dall_orthonormal {w : FilterBank L} (hw : OrthogonalWavelet w) (hL : Even L) (axes : Fin m → κ) (n : κ → ℕ)
    (d : ℕ → (Fin m → Bool) → Img κ) (level : ℕ) (h : ∀ i < level, EvenAlong L (List.ofFn axes) (levelShape .periodization L axes n i)) (a : Img κ) :
    (∀ q ∈ box (levelShape .periodization L axes n level),
      dwtApprox w .periodization axes n (idwtFrom w .periodization axes n d level a) level q = a q) ∧
    ∀ i < level, ∀ l, l ≠ approxLabel m → ∀ q ∈ box (levelShape .periodization L axes n (i + 1)),
      dbandDec w .periodization (lettered axes l) (levelShape .periodization L axes n i)
        (dwtApprox w .periodization axes n (idwtFrom w .periodization axes n d level a) i) q = d i l q := by
  induction level generalizing a with
  | zero => exact ⟨fun _ _ => rfl, fun i hi => absurd hi (by omega)⟩
  | succ j ih =>
    unfold idwtFrom
    obtain ⟨h1, h2⟩ := ih (fun i hi => h i (by omega)) (fun p => ∑ l, dbandRec w .periodization (lettered axes l) (levelShape .periodization L axes n j)
      (if l = approxLabel m then a else d j l) p)
    have key : ∀ l : Fin m → Bool, ∀ q ∈ box (levelShape .periodization L axes n (j + 1)),
        dbandDec w .periodization (lettered axes l) (levelShape .periodization L axes n j)
          (dwtApprox w .periodization axes n (idwtFrom w .periodization axes n d j fun p => ∑ l, dbandRec w .periodization (lettered axes l)
            (levelShape .periodization L axes n j) (if l = approxLabel m then a else d j l) p) j) q = (if l = approxLabel m then a else d j l) q := by
      intro l q hq
      rw [dbandDec_congr w (Or.inr rfl) (lettered axes l) _ h1 q (by rw [lettered_box]; exact hq), dbandDec_sum]
      dsimp only
      have : ∀ l' : Fin m → Bool, dbandDec w .periodization (lettered axes l) (levelShape .periodization L axes n j)
          (dbandRec w .periodization (lettered axes l') (levelShape .periodization L axes n j) (if l' = approxLabel m then a else d j l')) q =
          if l = l' then (if l' = approxLabel m then a else d j l') q else 0 :=
        fun l' => dband_orthonormal hw hL axes l l' _ (h j (by omega)) _ q hq
      simp only [this]
      rw [sum_ite_eq, if_pos (mem_univ _)]
    refine ⟨fun q hq => ?_, fun i hi l hl q hq => ?_⟩
    · have := key (approxLabel m) q hq
      rw [if_pos rfl] at this
      exact this
    · rcases Nat.lt_succ_iff_lt_or_eq.mp hi with hi' | hi'
      · exact h2 i hi' l hl q hq
      · subst hi'
        have := key l q hq
        rw [if_neg hl] at this
        exact this

/-! ## Shapes -/

omit [Fintype κ] in
theorem bandShape_at (mode : DwtMode) (L : ℕ) (l : List κ) (hl : l.Nodup) (n : κ → ℕ) (k : κ) :
    bandShape mode L l n k = if k ∈ l then dwtLen mode L (n k) else n k := by
  induction l generalizing n with
  | nil => rfl
  | cons a l ih =>
    obtain ⟨h1, h2⟩ := List.nodup_cons.mp hl
    show bandShape mode L l (decShape mode L n a) k = _
    rw [ih h2]
    unfold decShape
    by_cases hk : k = a
    · subst hk
      rw [if_neg h1, if_pos rfl, if_pos List.mem_cons_self]
    · simp only [List.mem_cons, hk, false_or, if_false]

omit [Fintype κ] in
theorem evenAlong_of (L : ℕ) (l : List κ) (hl : l.Nodup) (n : κ → ℕ) (h : ∀ a ∈ l, Even (n a)) : EvenAlong L l n := by
  induction l generalizing n with
  | nil => trivial
  | cons a l ih =>
    obtain ⟨h1, h2⟩ := List.nodup_cons.mp hl
    refine ⟨h a List.mem_cons_self, ih h2 _ fun b hb => ?_⟩
    unfold decShape
    rw [if_neg (by rintro rfl; exact h1 hb)]
    exact h b (List.mem_cons_of_mem _ hb)

omit [Fintype κ] in
/-- Sizes divisible by `2 ** level` stay even up to the last level. -/
theorem levels_even (L : ℕ) (axes : Fin m → κ) (hinj : Function.Injective axes) (n : κ → ℕ) (level : ℕ) (h : ∀ i, 2 ^ level ∣ n (axes i)) :
    ∀ i < level, EvenAlong L (List.ofFn axes) (levelShape .periodization L axes n i) := by
  have nd : (List.ofFn axes).Nodup := List.nodup_ofFn.mpr hinj
  have hsize : ∀ i, i ≤ level → ∀ j, levelShape .periodization L axes n i (axes j) * 2 ^ i = n (axes j) := by
    intro i
    induction i with
    | zero => intro _ j; simp [levelShape]
    | succ i ih =>
      intro hi j
      have hI := ih (by omega) j
      show bandShape .periodization L (List.ofFn axes) (levelShape .periodization L axes n i) (axes j) * 2 ^ (i + 1) = _
      rw [bandShape_at _ _ _ nd, if_pos (List.mem_ofFn.mpr ⟨j, rfl⟩)]
      have hev : 2 ∣ levelShape .periodization L axes n i (axes j) := by
        have h1 : 2 ^ (i + 1) ∣ n (axes j) := (pow_dvd_pow 2 hi).trans (h j)
        rw [← hI, pow_succ, mul_comm (2 ^ i) 2] at h1
        exact (Nat.mul_dvd_mul_iff_right (by positivity)).mp h1
      simp only [dwtLen, if_true]
      rw [pow_succ, ← hI]
      obtain ⟨c, hc⟩ := hev
      rw [hc, show (2 * c + 1) / 2 = c by omega]
      ring
  intro i hi
  refine evenAlong_of L _ nd _ fun a ha => ?_
  obtain ⟨j, rfl⟩ := List.mem_ofFn.mp ha
  have hI := hsize i (by omega) j
  have h1 : 2 ^ (i + 1) ∣ n (axes j) := (pow_dvd_pow 2 (by omega)).trans (h j)
  rw [← hI, pow_succ, mul_comm (2 ^ i) 2] at h1
  exact (even_iff_two_dvd).mpr ((Nat.mul_dvd_mul_iff_right (by positivity)).mp h1)

/-! ## Linearity -/

omit [Fintype κ] in
theorem dwtAxis_lin (f : Fin L → ℝ) (mode : DwtMode) (N : ℕ) (a : κ) (c d : ℝ) (x y : Img κ) :
    dwtAxis f mode N a (fun p => c * x p + d * y p) = fun p => c * dwtAxis f mode N a x p + d * dwtAxis f mode N a y p := by
  funext q
  simp only [dwtAxis_eq, mul_sum]
  rw [← sum_add_distrib]
  refine sum_congr rfl fun j _ => ?_
  unfold extRead
  cases extPos mode N (2 * q a + dwtOff mode L - (j : ℕ)) with
  | none => simp
  | some t => simp only; ring

omit [Fintype κ] in
theorem dbandDec_lin (w : FilterBank L) (mode : DwtMode) (l : List (κ × Bool)) (n : κ → ℕ) (c d : ℝ) (x y : Img κ) :
    dbandDec w mode l n (fun p => c * x p + d * y p) = fun p => c * dbandDec w mode l n x p + d * dbandDec w mode l n y p := by
  induction l generalizing n x y with
  | nil => rfl
  | cons e l ih =>
    obtain ⟨a, b⟩ := e
    simp only [dbandDec, dwtAxis_lin]
    exact ih _ _ _

omit [Fintype κ] in
theorem dwtApprox_lin (w : FilterBank L) (mode : DwtMode) (axes : Fin m → κ) (n : κ → ℕ) (i : ℕ) (c d : ℝ) (x y : Img κ) :
    dwtApprox w mode axes n (fun p => c * x p + d * y p) i = fun p => c * dwtApprox w mode axes n x i p + d * dwtApprox w mode axes n y i p := by
  induction i with
  | zero => rfl
  | succ i ih => simp only [dwtApprox, ih, dbandDec_lin]

omit [Fintype κ] in
theorem dwtOp_lin (w : FilterBank L) (mode : DwtMode) (level : ℕ) (axes : Fin m → κ) (n : κ → ℕ) (c d : ℝ) (x y : Img κ) (b : Band m level) (q : κ → ℤ) :
    dwtOp w mode level axes n (fun p => c * x p + d * y p) b q = c * dwtOp w mode level axes n x b q + d * dwtOp w mode level axes n y b q := by
  rcases b with _ | ⟨i, l⟩
  · simp only [dwtOp, dwtApprox_lin]
  · simp only [dwtOp, dwtApprox_lin, dbandDec_lin]

end Verif
