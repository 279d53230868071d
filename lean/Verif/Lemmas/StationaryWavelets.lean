import Verif.Model.StationaryWavelets
import Verif.Spec.Operators
import Verif.Lemmas.Operators

/-! # Lemmas about the stationary wavelet transform -/

namespace Verif
open Classical Finset

variable {L : ℕ} {κ : Type} [Fintype κ] [DecidableEq κ] {n : κ → ℕ} {m : ℕ}

/-- The filters reconstruct: the sums of products of reconstruction and decomposition filters at distance `z` vanish, except for `z = 0`, where they add up
to 2 (the condition of perfect reconstruction, for orthogonal and biorthogonal wavelets). -/
def PerfectReconstruction (w : FilterBank L) : Prop := ∀ z : ℤ,
  (∑ i : Fin L, ∑ j : Fin L, if ((i : ℕ) : ℤ) - (j : ℕ) = z then w.recLo i.rev * w.decLo j + w.recHi i.rev * w.decHi j else 0) = if z = 0 then 2 else 0

/-- An orthogonal wavelet: the low-pass filter is orthonormal to its own even translates, the high-pass filter is its alternating mirror image, and the
reconstruction filters are the mirror images of the decomposition filters. -/
structure OrthogonalWavelet (w : FilterBank L) : Prop where
  recLo : ∀ j, w.recLo j = w.decLo j.rev
  recHi : ∀ j, w.recHi j = w.decHi j.rev
  mirror : ∃ s : ℝ, s ^ 2 = 1 ∧ ∀ j, w.decHi j = s * (-1) ^ (j : ℕ) * w.decLo j.rev
  translates : ∀ z : ℤ, Even z →
    (∑ i : Fin L, ∑ j : Fin L, if ((i : ℕ) : ℤ) - (j : ℕ) = z then w.decLo i * w.decLo j else 0) = if z = 0 then 1 else 0

theorem wrap_add (p : Idx n) (s t : κ → ℤ) : wrapIdx (wrapIdx p s) t = wrapIdx p fun k => s k + t k := by
  funext k
  apply Fin.ext
  have h := (p k).isLt
  have h0 : (n k : ℤ) ≠ 0 := by omega
  have h1 := Int.emod_nonneg ((p k : ℤ) + s k) h0
  simp only [wrapIdx]
  rw [Int.toNat_of_nonneg h1, Int.emod_add_emod, add_assoc]

theorem wrap_zero (p : Idx n) : wrapIdx p (fun _ => 0) = p := by
  funext k
  apply Fin.ext
  have h := (p k).isLt
  simp only [wrapIdx, add_zero]
  rw [Int.emod_eq_of_lt (by omega) (by omega)]
  simp

theorem distance_sum (c : Fin L → Fin L → ℝ) (C : ℝ) (h : ∀ z : ℤ, (∑ i : Fin L, ∑ j : Fin L, if ((i : ℕ) : ℤ) - (j : ℕ) = z then c i j else 0) =
    if z = 0 then C else 0) (g : ℤ → ℝ) : ∑ i : Fin L, ∑ j : Fin L, c i j * g (((i : ℕ) : ℤ) - (j : ℕ)) = C * g 0 := by
  have hS : (0 : ℤ) ∈ Finset.Icc (-(L : ℤ)) L := by simp
  have h1 : ∑ z ∈ Finset.Icc (-(L : ℤ)) L, (∑ i : Fin L, ∑ j : Fin L, if ((i : ℕ) : ℤ) - (j : ℕ) = z then c i j else 0) * g z = C * g 0 := by
    simp only [h, ite_mul, zero_mul]
    rw [Finset.sum_ite_eq' _ (0 : ℤ), if_pos hS]
  rw [← h1]
  simp only [sum_mul]
  symm
  rw [Finset.sum_comm]
  refine sum_congr rfl fun i _ => ?_
  rw [Finset.sum_comm]
  refine sum_congr rfl fun j _ => ?_
  simp only [ite_mul, zero_mul]
  rw [Finset.sum_ite_eq, if_pos]
  have hi := i.isLt
  have hj := j.isLt
  rw [mem_Icc]
  omega

/-- The orthogonal wavelets reconstruct. -/
theorem OrthogonalWavelet.reconstructs {w : FilterBank L} (h : OrthogonalWavelet w) : PerfectReconstruction w := by
  obtain ⟨s, hs, hm⟩ := h.mirror
  intro z
  have e1 : ∀ i j : Fin L, w.recLo i.rev * w.decLo j + w.recHi i.rev * w.decHi j =
      w.decLo i * w.decLo j + (-1) ^ ((i : ℕ) + (j : ℕ)) * (w.decLo i.rev * w.decLo j.rev) := by
    intro i j
    rw [h.recLo, h.recHi, Fin.rev_rev, hm, hm, pow_add]
    linear_combination ((-1) ^ (i : ℕ) * w.decLo i.rev * ((-1) ^ (j : ℕ) * w.decLo j.rev)) * hs
  have e2 : (∑ i : Fin L, ∑ j : Fin L, if ((i : ℕ) : ℤ) - (j : ℕ) = z then w.recLo i.rev * w.decLo j + w.recHi i.rev * w.decHi j else 0) =
      (∑ i : Fin L, ∑ j : Fin L, if ((i : ℕ) : ℤ) - (j : ℕ) = z then w.decLo i * w.decLo j else 0) +
      ∑ i : Fin L, ∑ j : Fin L, if ((i : ℕ) : ℤ) - (j : ℕ) = z then (-1) ^ ((i : ℕ) + (j : ℕ)) * (w.decLo i.rev * w.decLo j.rev) else 0 := by
    rw [← sum_add_distrib]
    refine sum_congr rfl fun i _ => ?_
    rw [← sum_add_distrib]
    refine sum_congr rfl fun j _ => ?_
    rw [e1]
    split_ifs <;> ring
  have par : ∀ i j : Fin L, ((i : ℕ) : ℤ) - (j : ℕ) = z → ((-1 : ℝ) ^ ((i : ℕ) + (j : ℕ)) = if Even z then 1 else -1) := by
    intro i j hij
    by_cases he : Even z
    · rw [if_pos he, Even.neg_one_pow]
      have : Even (((i : ℕ) : ℤ) - (j : ℕ)) := hij ▸ he
      rw [Int.even_sub] at this
      have := this
      rw [Nat.even_add]
      simpa using this
    · rw [if_neg he, Odd.neg_one_pow]
      have h' : ¬ Even (((i : ℕ) : ℤ) - (j : ℕ)) := hij ▸ he
      rw [Int.even_sub] at h'
      rw [← Nat.not_even_iff_odd, Nat.even_add]
      simpa using h'
  have e3 : (∑ i : Fin L, ∑ j : Fin L, if ((i : ℕ) : ℤ) - (j : ℕ) = z then (-1) ^ ((i : ℕ) + (j : ℕ)) * (w.decLo i.rev * w.decLo j.rev) else 0) =
      (if Even z then 1 else -1) * ∑ i : Fin L, ∑ j : Fin L, if ((i : ℕ) : ℤ) - (j : ℕ) = z then w.decLo i * w.decLo j else 0 := by
    have e4 : (∑ i : Fin L, ∑ j : Fin L, if ((i : ℕ) : ℤ) - (j : ℕ) = z then w.decLo i * w.decLo j else 0) =
        ∑ i : Fin L, ∑ j : Fin L, if ((i : ℕ) : ℤ) - (j : ℕ) = z then w.decLo i.rev * w.decLo j.rev else 0 := by
      rw [sum_comm]
      rw [← Equiv.sum_comp Fin.revPerm]
      refine sum_congr rfl fun i _ => ?_
      rw [← Equiv.sum_comp Fin.revPerm]
      refine sum_congr rfl fun j _ => ?_
      simp only [Fin.revPerm_apply]
      have hc : (((j.rev : Fin L) : ℕ) : ℤ) - ((i.rev : Fin L) : ℕ) = z ↔ ((i : ℕ) : ℤ) - (j : ℕ) = z := by
        have hi := i.isLt
        have hj := j.isLt
        rw [Fin.val_rev, Fin.val_rev]
        omega
      simp only [hc, mul_comm]
    rw [e4, mul_sum]
    refine sum_congr rfl fun i _ => ?_
    rw [mul_sum]
    refine sum_congr rfl fun j _ => ?_
    by_cases hij : ((i : ℕ) : ℤ) - (j : ℕ) = z
    · rw [if_pos hij, if_pos hij, par i j hij]
    · rw [if_neg hij, if_neg hij, mul_zero]
  rw [e2, e3]
  by_cases he : Even z
  · rw [if_pos he, h.translates z he]
    split_ifs <;> norm_num
  · rw [if_neg he, if_neg (fun h0 : z = 0 => he (by rw [h0]; exact Even.zero))]
    ring

/-! ## One axis -/

theorem taps_combine (step : ℕ) (a : κ) (i j : Fin L) (p : Idx n) :
    wrapIdx (wrapIdx p fun k => -tapOffset L step a i k) (tapOffset L step a j) =
      wrapIdx p fun k => if k = a then (step : ℤ) * (((i : ℕ) : ℤ) - (j : ℕ)) else 0 := by
  rw [wrap_add]
  congr 1
  funext k
  unfold tapOffset
  split_ifs <;> ring

/-- One axis is reconstructed. -/
theorem axis_reconstructs {w : FilterBank L} (h : PerfectReconstruction w) (step : ℕ) (a : κ) (x : Arr (Idx n)) (p : Idx n) :
    iswtAxis w.recLo step a (swtAxis w.decLo step a x) p + iswtAxis w.recHi step a (swtAxis w.decHi step a x) p = x p := by
  unfold iswtAxis swtAxis
  have e : ∀ (f g : Fin L → ℝ), (∑ i : Fin L, f i.rev * ∑ j, g j * x (wrapIdx (wrapIdx p fun k => -tapOffset L step a i k) (tapOffset L step a j))) =
      ∑ i : Fin L, ∑ j : Fin L, f i.rev * g j * x (wrapIdx p fun k => if k = a then (step : ℤ) * (((i : ℕ) : ℤ) - (j : ℕ)) else 0) := by
    intro f g
    refine sum_congr rfl fun i _ => ?_
    rw [mul_sum]
    refine sum_congr rfl fun j _ => ?_
    rw [taps_combine, mul_assoc]
  rw [e, e, ← mul_add, ← sum_add_distrib]
  have e2 : ∀ i : Fin L, (∑ j : Fin L, w.recLo i.rev * w.decLo j * x (wrapIdx p fun k => if k = a then (step : ℤ) * (((i : ℕ) : ℤ) - (j : ℕ)) else 0)) +
      (∑ j : Fin L, w.recHi i.rev * w.decHi j * x (wrapIdx p fun k => if k = a then (step : ℤ) * (((i : ℕ) : ℤ) - (j : ℕ)) else 0)) =
      ∑ j : Fin L, (w.recLo i.rev * w.decLo j + w.recHi i.rev * w.decHi j) *
        (fun z : ℤ => x (wrapIdx p fun k => if k = a then (step : ℤ) * z else 0)) (((i : ℕ) : ℤ) - (j : ℕ)) := by
    intro i
    rw [← sum_add_distrib]
    exact sum_congr rfl fun j _ => by ring
  simp only [e2]
  rw [distance_sum (fun i j => w.recLo i.rev * w.decLo j + w.recHi i.rev * w.decHi j) 2 h
    (fun z : ℤ => x (wrapIdx p fun k => if k = a then (step : ℤ) * z else 0))]
  have : (fun k : κ => if k = a then (step : ℤ) * 0 else 0) = fun _ => 0 := by funext k; simp
  simp only [this]
  rw [wrap_zero]
  ring

/-- The transpose of one filter along one axis. -/
theorem axis_transpose (f : Fin L → ℝ) (step : ℕ) (a : κ) (x y : Arr (Idx n)) :
    ∑ p, y p * swtAxis f step a x p = ∑ p, (∑ j, f j * y (wrapIdx p fun k => -tapOffset L step a j k)) * x p := by
  unfold swtAxis
  simp only [mul_sum, sum_mul]
  rw [sum_comm]
  conv_rhs => rw [sum_comm]
  refine sum_congr rfl fun j _ => ?_
  have := sum_shift_wrap (tapOffset L step a j) x y
  simp only [padGet] at this
  have e1 : ∀ p, y p * (f j * x (wrapIdx p (tapOffset L step a j))) = f j * (x (wrapIdx p (tapOffset L step a j)) * y p) := fun p => by ring
  have e2 : ∀ p, f j * y (wrapIdx p fun k => -tapOffset L step a j k) * x p = f j * (x p * y (wrapIdx p fun k => -tapOffset L step a j k)) := fun p => by ring
  simp only [e1, e2, ← mul_sum, this]

theorem iswtAxis_sum {α : Type} (s : Finset α) (f : Fin L → ℝ) (step : ℕ) (a : κ) (y : α → Arr (Idx n)) (p : Idx n) :
    iswtAxis f step a (fun p => ∑ i ∈ s, y i p) p = ∑ i ∈ s, iswtAxis f step a (y i) p := by
  unfold iswtAxis
  rw [← mul_sum]
  congr 1
  rw [sum_comm]
  refine sum_congr rfl fun j _ => ?_
  rw [mul_sum]

/-! ## One level -/

theorem sum_labels {m : ℕ} (f : (Fin (m + 1) → Bool) → ℝ) :
    ∑ l, f l = ∑ l : Fin m → Bool, f (Fin.cons false l) + ∑ l : Fin m → Bool, f (Fin.cons true l) := by
  rw [← Equiv.sum_comp (Fin.consEquiv fun _ : Fin (m + 1) => Bool), Fintype.sum_prod_type, Fintype.sum_bool, add_comm]
  rfl

theorem lettered_cons {m : ℕ} (axes : Fin (m + 1) → κ) (b : Bool) (l : Fin m → Bool) :
    lettered axes (Fin.cons b l) = (axes 0, b) :: lettered (fun i => axes i.succ) l := by
  unfold lettered
  rw [List.ofFn_succ]
  simp

/-- One level is reconstructed from all its bands. -/
theorem level_reconstructs {w v : FilterBank L} (h : ∀ (step : ℕ) (a : κ) (x : Arr (Idx n)) (p : Idx n),
      iswtAxis v.recLo step a (swtAxis w.decLo step a x) p + iswtAxis v.recHi step a (swtAxis w.decHi step a x) p = x p)
    (step : ℕ) {m : ℕ} (axes : Fin m → κ) (x : Arr (Idx n)) (p : Idx n) :
    ∑ l, bandRec v step (lettered axes l) (bandDec w step (lettered axes l) x) p = x p := by
  induction m generalizing x p with
  | zero =>
    have : ∀ l : Fin 0 → Bool, lettered axes l = [] := fun l => by unfold lettered; simp
    simp [this, bandRec, bandDec]
  | succ m ih =>
    rw [sum_labels]
    simp only [lettered_cons, bandRec, bandDec, FilterBank.dec, FilterBank.recon]
    rw [← iswtAxis_sum, ← iswtAxis_sum]
    simp only [ih]
    exact h step (axes 0) x p

/-- A band's contribution is `β ^ m` times the transpose of the band's filters. -/
theorem band_transpose {w v : FilterBank L} {β : ℝ} (h : ∀ (b : Bool) (step : ℕ) (a : κ) (x y : Arr (Idx n)),
      ∑ p, iswtAxis (v.recon b) step a y p * x p = β * ∑ p, y p * swtAxis (w.dec b) step a x p)
    (step : ℕ) (l : List (κ × Bool)) (x y : Arr (Idx n)) :
    ∑ p, bandRec v step l y p * x p = β ^ l.length * ∑ p, y p * bandDec w step l x p := by
  induction l generalizing x with
  | nil => simp [bandRec, bandDec]
  | cons c l ih =>
    obtain ⟨a, b⟩ := c
    simp only [bandRec, bandDec, List.length_cons]
    rw [h b step a x (bandRec v step l y), ih, pow_succ]
    ring

theorem lettered_length (axes : Fin m → κ) (l : Fin m → Bool) : (lettered axes l).length = m := by simp [lettered]

/-! ## All levels -/

theorem all_reconstruct {w v : FilterBank L} {axes : Fin m → κ}
    (h : ∀ (step : ℕ) (x : Arr (Idx n)) (p : Idx n), ∑ l, bandRec v step (lettered axes l) (bandDec w step (lettered axes l) x) p = x p)
    (d : ℕ → (Fin m → Bool) → Arr (Idx n)) (x : Arr (Idx n)) (level : ℕ)
    (hd : ∀ i, i < level → ∀ l, l ≠ approxLabel m → d i l = swtDetail w axes x i l) :
    iswtFrom v axes d level (swtApprox w axes x level) = x := by
  induction level with
  | zero => rfl
  | succ i ih =>
    unfold iswtFrom
    have : (fun p => ∑ l, bandRec v (2 ^ i) (lettered axes l) (if l = approxLabel m then swtApprox w axes x (i + 1) else d i l) p) =
        swtApprox w axes x i := by
      funext p
      rw [← h (2 ^ i) (swtApprox w axes x i) p]
      refine sum_congr rfl fun l _ => ?_
      congr 1
      by_cases hl : l = approxLabel m
      · rw [if_pos hl, hl]; rfl
      · rw [if_neg hl, hd i (by omega) l hl]; rfl
    rw [this]
    exact ih fun j hj => hd j (by omega)

theorem all_transpose {w v : FilterBank L} {β : ℝ} (h : ∀ (b : Bool) (step : ℕ) (a : κ) (x y : Arr (Idx n)),
      ∑ p, iswtAxis (v.recon b) step a y p * x p = β * ∑ p, y p * swtAxis (w.dec b) step a x p)
    (axes : Fin m → κ) (d : ℕ → (Fin m → Bool) → Arr (Idx n)) (x : Arr (Idx n)) (level : ℕ) (a : Arr (Idx n)) :
    ∑ p, iswtFrom v axes d level a p * x p = (β ^ m) ^ level * ∑ p, a p * swtApprox w axes x level p +
      ∑ i ∈ range level, (β ^ m) ^ (i + 1) * ∑ l : {l : Fin m → Bool // l ≠ approxLabel m}, ∑ p, d i l p * swtDetail w axes x i l p := by
  induction level generalizing a with
  | zero => simp [iswtFrom, swtApprox]
  | succ i ih =>
    unfold iswtFrom
    rw [ih, sum_range_succ]
    have e : ∑ p, (∑ l, bandRec v (2 ^ i) (lettered axes l) (if l = approxLabel m then a else d i l) p) * swtApprox w axes x i p =
        β ^ m * ∑ p, a p * swtApprox w axes x (i + 1) p +
        β ^ m * ∑ l : {l : Fin m → Bool // l ≠ approxLabel m}, ∑ p, d i l p * swtDetail w axes x i l p := by
      simp only [sum_mul]
      rw [sum_comm]
      have hb : ∀ l, ∑ p, bandRec v (2 ^ i) (lettered axes l) (if l = approxLabel m then a else d i l) p * swtApprox w axes x i p =
          β ^ m * ∑ p, (if l = approxLabel m then a else d i l) p * swtDetail w axes x i l p := by
        intro l
        rw [band_transpose h, lettered_length]
        rfl
      simp only [hb]
      rw [Fintype.sum_eq_add_sum_subtype_ne _ (approxLabel m), if_pos rfl]
      congr 1
      rw [mul_sum]
      refine sum_congr rfl fun l _ => ?_
      rw [if_neg l.2]
    rw [e]
    ring

end Verif
