import Verif.Lemmas.StationaryWavelets
import Verif.Props.PdhgDefault

/-! # C221 – C224: the stationary wavelet transform and the wavelet regularizer -/

namespace Verif
open Classical DataTerm Finset Filter Topology Verif.Spec

variable {L : ℕ} {κ : Type} [Fintype κ] [DecidableEq κ] {n : κ → ℕ} {m : ℕ}

/-! ## Scaled filters -/

theorem swtAxis_smul (s : ℝ) (f : Fin L → ℝ) (step : ℕ) (a : κ) (x : Arr (Idx n)) :
    swtAxis (fun j => f j * s) step a x = fun p => s * swtAxis f step a x p := by
  funext p
  unfold swtAxis
  rw [mul_sum]
  exact sum_congr rfl fun j _ => by ring

theorem iswtAxis_smul (s : ℝ) (f : Fin L → ℝ) (step : ℕ) (a : κ) (x : Arr (Idx n)) :
    iswtAxis (fun j => f j * s) step a x = fun p => s * iswtAxis f step a x p := by
  funext p
  unfold iswtAxis
  rw [mul_sum, mul_sum, mul_sum]
  exact sum_congr rfl fun j _ => by ring

theorem swtAxis_lin (f : Fin L → ℝ) (step : ℕ) (a : κ) (c d : ℝ) (x y : Arr (Idx n)) :
    swtAxis f step a (fun p => c * x p + d * y p) = fun p => c * swtAxis f step a x p + d * swtAxis f step a y p := by
  funext p
  unfold swtAxis
  rw [mul_sum, mul_sum, ← sum_add_distrib]
  exact sum_congr rfl fun j _ => by ring

theorem iswtAxis_scale (f : Fin L → ℝ) (step : ℕ) (a : κ) (c : ℝ) (y : Arr (Idx n)) (p : Idx n) :
    iswtAxis f step a (fun p => c * y p) p = c * iswtAxis f step a y p := by
  unfold iswtAxis
  rw [mul_left_comm]
  congr 1
  rw [mul_sum]
  exact sum_congr rfl fun j _ => by ring

theorem bandDec_lin (w : FilterBank L) (step : ℕ) (l : List (κ × Bool)) (c d : ℝ) (x y : Arr (Idx n)) :
    bandDec w step l (fun p => c * x p + d * y p) = fun p => c * bandDec w step l x p + d * bandDec w step l y p := by
  induction l generalizing x y with
  | nil => rfl
  | cons a l ih =>
    obtain ⟨a, b⟩ := a
    simp only [bandDec, swtAxis_lin, ih]

theorem swtApprox_lin (w : FilterBank L) (axes : Fin m → κ) (i : ℕ) (c d : ℝ) (x y : Arr (Idx n)) :
    swtApprox w axes (fun p => c * x p + d * y p) i = fun p => c * swtApprox w axes x i p + d * swtApprox w axes y i p := by
  induction i with
  | zero => rfl
  | succ i ih => simp only [swtApprox, ih, bandDec_lin]

/-- The scaled and the unscaled filters reconstruct. -/
theorem banks_reconstruct {w : FilterBank L} (h : PerfectReconstruction w) (normalized : Bool) (step : ℕ) (a : κ) (x : Arr (Idx n)) (p : Idx n) :
    iswtAxis (inverseBank w normalized).recLo step a (swtAxis (directBank w normalized).decLo step a x) p +
      iswtAxis (inverseBank w normalized).recHi step a (swtAxis (directBank w normalized).decHi step a x) p = x p := by
  cases normalized with
  | false => exact axis_reconstructs h step a x p
  | true =>
    have h2 : Real.sqrt 2 * (1 / Real.sqrt 2) = 1 := mul_one_div_cancel (by positivity)
    simp only [inverseBank, directBank, if_true, FilterBank.rescale, swtAxis_smul, iswtAxis_smul, iswtAxis_scale]
    rw [← axis_reconstructs h step a x p]
    linear_combination (iswtAxis w.recLo step a (swtAxis w.decLo step a x) p + iswtAxis w.recHi step a (swtAxis w.decHi step a x) p) * h2

/-- The factor between the inverse of one axis and the transpose. -/
noncomputable def axisFactor (normalized : Bool) : ℝ := if normalized then 1 else 1 / 2

theorem banks_transpose {w : FilterBank L} (h : OrthogonalWavelet w) (normalized : Bool) (b : Bool) (step : ℕ) (a : κ) (x y : Arr (Idx n)) :
    ∑ p, iswtAxis ((inverseBank w normalized).recon b) step a y p * x p =
      axisFactor normalized * ∑ p, y p * swtAxis ((directBank w normalized).dec b) step a x p := by
  have hrec : ∀ (b : Bool) (j : Fin L), w.recon b j.rev = w.dec b j := by
    intro b j
    cases b
    · simp [FilterBank.recon, FilterBank.dec, h.recLo]
    · simp [FilterBank.recon, FilterBank.dec, h.recHi]
  have base : ∑ p, iswtAxis (w.recon b) step a y p * x p = 1 / 2 * ∑ p, y p * swtAxis (w.dec b) step a x p := by
    rw [axis_transpose, mul_sum]
    refine sum_congr rfl fun p _ => ?_
    unfold iswtAxis
    simp only [hrec]
    ring
  cases normalized with
  | false => exact base
  | true =>
    have e1 : (inverseBank w true).recon b = fun j => w.recon b j * Real.sqrt 2 := by cases b <;> rfl
    have e2 : (directBank w true).dec b = fun j => w.dec b j * (1 / Real.sqrt 2) := by cases b <;> rfl
    have h2 : Real.sqrt 2 * Real.sqrt 2 = 2 := Real.mul_self_sqrt (by norm_num)
    rw [e1, e2, swtAxis_smul, iswtAxis_smul]
    have e3 : ∀ p, Real.sqrt 2 * iswtAxis (w.recon b) step a y p * x p = Real.sqrt 2 * (iswtAxis (w.recon b) step a y p * x p) := fun p => by ring
    have e4 : ∀ p, y p * (1 / Real.sqrt 2 * swtAxis (w.dec b) step a x p) = 1 / Real.sqrt 2 * (y p * swtAxis (w.dec b) step a x p) := fun p => by ring
    simp only [e3, e4, ← mul_sum, base, axisFactor, if_true, one_mul]
    have h3 : Real.sqrt 2 * (1 / 2) = 1 / Real.sqrt 2 := by
      rw [eq_div_iff (by positivity)]
      linear_combination (1 / 2) * h2
    rw [← mul_assoc, h3]

/-! ## Padding -/

theorem crop_pad (edge : Bool) (level : ℕ) (axes : Fin m → κ) (x : Arr (Idx n)) : cropVol level axes (padVol edge level axes x) = x := by
  funext p
  unfold cropVol padVol
  rw [dif_pos (fun k => by have := (p k).isLt; simp only; omega)]
  congr 1
  funext k
  simp

theorem padVol_lin (level : ℕ) (axes : Fin m → κ) (edge : Bool) (c d : ℝ) (x y : Arr (Idx n)) :
    padVol edge level axes (fun p => c * x p + d * y p) = fun q => c * padVol edge level axes x q + d * padVol edge level axes y q := by
  funext q
  unfold padVol
  split_ifs <;> simp

/-- Cropping is the transpose of padding with zeros. -/
theorem pad_transpose (level : ℕ) (axes : Fin m → κ) (x : Arr (Idx n)) (y : Arr (Idx (paddedShape level axes n))) :
    ∑ p, cropVol level axes y p * x p = ∑ q, y q * padVol false level axes x q := by
  let e : Idx n → Idx (paddedShape level axes n) := fun p k => ⟨(p k).val + padLow (swtPadAt level axes n k), by
    have h1 := (p k).isLt
    have h2 : padLow (swtPadAt level axes n k) ≤ swtPadAt level axes n k := by unfold padLow; omega
    show _ < n k + swtPadAt level axes n k
    omega⟩
  have hinj : Function.Injective e := by
    intro p q hpq
    funext k
    have := congrArg (fun r => (r k).val) hpq
    simp only [e] at this
    exact Fin.ext (by omega)
  have hpe : ∀ p, padVol false level axes x (e p) = x p := fun p => congrFun (crop_pad false level axes x) p
  have h0 : ∀ q ∉ univ.image e, y q * padVol false level axes x q = 0 := by
    intro q hq
    have : padVol false level axes x q = 0 := by
      unfold padVol
      rw [dif_neg, if_neg (by simp)]
      intro hk
      apply hq
      refine mem_image.2 ⟨fun k => ⟨(q k).val - padLow (swtPadAt level axes n k), by have := hk k; omega⟩, mem_univ _, ?_⟩
      funext k
      apply Fin.ext
      have := hk k
      simp only [e]
      omega
    rw [this, mul_zero]
  rw [← sum_subset (subset_univ (univ.image e)) fun q _ hq => h0 q hq, sum_image fun _ _ _ _ h => hinj h]
  refine sum_congr rfl fun p _ => ?_
  rw [hpe]
  rfl

/-! ## The transform -/

/-- The levels of filtering behind a band. -/
def bandLevel {m level : ℕ} : Band m level → ℕ
  | none => level
  | some (i, _) => (i : ℕ) + 1

theorem swtOp_lin (w : FilterBank L) (normalized edge : Bool) (level : ℕ) (axes : Fin m → κ) :
    IsLinear (swtOp (n := n) w normalized edge level axes) := by
  intro c d x y
  funext q
  obtain ⟨b, q⟩ := q
  unfold swtOp
  cases b with
  | none => simp only [padVol_lin, swtApprox_lin]
  | some b => simp only [padVol_lin, swtDetail, swtApprox_lin, bandDec_lin]

/-- C222, round trip: what the direct transform makes, the inverse brings back, for all filters that reconstruct, both normalisations, all
paddings, numbers of levels, shapes and axes. -/
theorem C222_round_trip {w : FilterBank L} (h : PerfectReconstruction w) (normalized edge : Bool) (level : ℕ) (axes : Fin m → κ) (x : Arr (Idx n)) :
    swtOpT w normalized level axes (swtOp w normalized edge level axes x) = x := by
  unfold swtOpT
  have := all_reconstruct (w := directBank w normalized) (v := inverseBank w normalized) (axes := axes)
    (fun step x p => level_reconstructs (banks_reconstruct h normalized) step axes x p)
    (fun i l p => if h : i < level ∧ l ≠ approxLabel m then
      swtOp w normalized edge level axes x (some (⟨i, h.1⟩, ⟨l, h.2⟩), p) else 0) (padVol edge level axes x) level
    (fun i hi l hl => by
      funext p
      rw [dif_pos ⟨hi, hl⟩]
      rfl)
  rw [show (fun p => swtOp w normalized edge level axes x (none, p)) = swtApprox (directBank w normalized) axes (padVol edge level axes x) level from rfl,
    this, crop_pad]

/-- C222: orthogonal wavelets reconstruct. -/
theorem C222_orthogonal {w : FilterBank L} (h : OrthogonalWavelet w) (normalized edge : Bool) (level : ℕ) (axes : Fin m → κ) (x : Arr (Idx n)) :
    swtOpT w normalized level axes (swtOp w normalized edge level axes x) = x := C222_round_trip h.reconstructs normalized edge level axes x

/-- C221, what holds: for orthogonal wavelets and padding with zeros the transpose applied to coefficients, against an image, is the sum over the
bands of `1 / 2 ** (m * levels)` (1, if normalized) times the coefficients against the transform. -/
theorem C221_weighted_adjoint_partial {w : FilterBank L} (h : OrthogonalWavelet w) (normalized : Bool) (level : ℕ) (axes : Fin m → κ) (x : Arr (Idx n))
    (y : Arr (Band m level × Idx (paddedShape level axes n))) :
    ∑ p, swtOpT w normalized level axes y p * x p =
      ∑ b, (if normalized then 1 else (1 / 2 : ℝ) ^ (m * bandLevel b)) * ∑ q, y (b, q) * swtOp w normalized false level axes x (b, q) := by
  unfold swtOpT
  rw [pad_transpose, all_transpose (fun b step a x y => banks_transpose h normalized b step a x y)]
  have hf : ∀ k, (axisFactor normalized ^ m) ^ k = if normalized then 1 else (1 / 2 : ℝ) ^ (m * k) := by
    intro k
    cases normalized
    · simp only [axisFactor, Bool.false_eq_true, if_false, pow_mul]
    · simp [axisFactor]
  rw [Fintype.sum_option, ← Fin.sum_univ_eq_sum_range (fun i => (axisFactor normalized ^ m) ^ (i + 1) *
    ∑ l : {l : Fin m → Bool // l ≠ approxLabel m}, ∑ p, (if h : i < level ∧ l.1 ≠ approxLabel m then y (some (⟨i, h.1⟩, ⟨l.1, h.2⟩), p) else 0) *
      swtDetail (directBank w normalized) axes (padVol false level axes x) i l p) level, Fintype.sum_prod_type]
  congr 1
  · rw [hf]; rfl
  · refine sum_congr rfl fun i _ => ?_
    rw [hf, mul_sum]
    refine sum_congr rfl fun l _ => ?_
    congr 1
    refine sum_congr rfl fun p _ => ?_
    rw [dif_pos ⟨i.2, l.2⟩]
    rfl

/-- C221, partial: the normalized transform of an orthogonal wavelet with padding with zeros. (Missing: the default padding "edge", transforms that are not
normalized, and biorthogonal wavelets, where it fails.) -/
theorem C221_adjoint_partial {w : FilterBank L} (h : OrthogonalWavelet w) (level : ℕ) (axes : Fin m → κ) :
    IsAdjoint (swtOp (n := n) w true false level axes) (swtOpT w true level axes) := by
  intro x y
  have := C221_weighted_adjoint_partial h true level axes x y
  simp only [if_true, one_mul] at this
  unfold dot
  rw [show ∑ i, x i * swtOpT w true level axes y i = ∑ p, swtOpT w true level axes y p * x p from sum_congr rfl fun _ _ => mul_comm _ _, this,
    Fintype.sum_prod_type]
  exact sum_congr rfl fun b _ => sum_congr rfl fun q _ => mul_comm _ _

/-- C221, the energies of the bands add up to the energy of the image. -/
theorem C221_energy_partial {w : FilterBank L} (h : OrthogonalWavelet w) (normalized : Bool) (level : ℕ) (axes : Fin m → κ) (x : Arr (Idx n)) :
    ∑ b, (if normalized then 1 else (1 / 2 : ℝ) ^ (m * bandLevel b)) * ∑ q, swtOp w normalized false level axes x (b, q) ^ 2 = ∑ p, x p ^ 2 := by
  have := C221_weighted_adjoint_partial h normalized level axes x (swtOp w normalized false level axes x)
  rw [C222_orthogonal h] at this
  simp only [sq]
  exact this.symm

/-! ## Haar -/

/-- The filters of the Haar wavelet. -/
noncomputable def haarBank : FilterBank 2 :=
  ⟨fun _ => 1 / Real.sqrt 2, fun j => if j = 0 then -(1 / Real.sqrt 2) else 1 / Real.sqrt 2,
    fun _ => 1 / Real.sqrt 2, fun j => if j = 0 then 1 / Real.sqrt 2 else -(1 / Real.sqrt 2)⟩

theorem half_sq : (1 / Real.sqrt 2) * (1 / Real.sqrt 2) = 1 / 2 := by
  rw [div_mul_div_comm, Real.mul_self_sqrt (by norm_num)]
  norm_num

theorem haar_orthogonal : OrthogonalWavelet haarBank where
  recLo := fun j => rfl
  recHi := fun j => by fin_cases j <;> simp [haarBank, Fin.rev]
  mirror := ⟨-1, by norm_num, fun j => by fin_cases j <;> simp [haarBank]⟩
  translates := fun z hz => by
    simp only [Fin.sum_univ_two, haarBank, half_sq]
    by_cases h0 : z = 0
    · subst h0; norm_num
    · obtain ⟨k, rfl⟩ := hz
      have h1 : ((0 : Fin 2) : ℕ) = 0 := rfl
      have h2 : ((1 : Fin 2) : ℕ) = 1 := rfl
      rw [if_neg h0, if_neg (by rw [h1]; omega), if_neg (by rw [h1, h2]; omega), if_neg (by rw [h1, h2]; omega), if_neg (by rw [h2]; omega)]
      norm_num

/-! ## The regularizer -/

/-- The penalty of the documentation: the weight times the l1 norm of the wavelet coefficients (all of them, or all but the approximation), where `c`
multiplies the weight of each band. -/
noncomputable def swlPenalty (w : FilterBank L) (normalized edge minApprox : Bool) (level : ℕ) (axes : Fin m → κ) (weight : ℝ) (c : Band m level → ℝ) :
    Penalty (Idx n) (Band m level × Idx (paddedShape level axes n)) where
  K := swtOp w normalized edge level axes
  Kt := swtOpT w normalized level axes
  H := fun y => ∑ q, if minApprox = false ∧ q.1 = none then 0 else weight * c q.1 * |y q|

/-- The weights of the bands for which the transpose of the code is the adjoint. -/
noncomputable def bandWeight (normalized : Bool) {m level : ℕ} (b : Band m level) : ℝ := if normalized then 1 else (1 / 2 : ℝ) ^ (m * bandLevel b)

theorem bandWeight_pos (normalized : Bool) {m level : ℕ} (b : Band m level) : 0 < bandWeight normalized b := by
  unfold bandWeight
  split_ifs <;> positivity

theorem l1_pos {f : Fin L → ℝ} (h : ∃ j, f j ≠ 0) : 0 < l1norm f := by
  obtain ⟨j, hj⟩ := h
  exact lt_of_lt_of_le (abs_pos.2 hj) (single_le_sum (f := fun j => |f j|) (fun _ _ => abs_nonneg _) (mem_univ j))

theorem OrthogonalWavelet.norms {w : FilterBank L} (h : OrthogonalWavelet w) :
    0 < l1norm w.decLo ∧ l1norm w.decHi = l1norm w.decLo ∧ l1norm w.recLo = l1norm w.decLo ∧ l1norm w.recHi = l1norm w.decLo := by
  obtain ⟨s, hs, hm⟩ := h.mirror
  have hs1 : |s| = 1 := by
    have : s = 1 ∨ s = -1 := by
      have : (s - 1) * (s + 1) = 0 := by linear_combination hs
      rcases mul_eq_zero.1 this with h | h
      · left; linarith
      · right; linarith
    rcases this with h | h <;> rw [h] <;> norm_num
  have hrev : ∀ f : Fin L → ℝ, ∑ j : Fin L, |f j.rev| = ∑ j, |f j| := fun f => Equiv.sum_comp Fin.revPerm fun j => |f j|
  have e1 : l1norm w.decHi = l1norm w.decLo := by
    unfold l1norm
    rw [← hrev w.decLo]
    refine sum_congr rfl fun j _ => ?_
    rw [hm j, abs_mul, abs_mul, hs1, abs_pow, abs_neg, abs_one, one_pow, one_mul, one_mul]
  refine ⟨l1_pos ?_, e1, ?_, ?_⟩
  · by_contra hc
    push Not at hc
    have := h.translates 0 Even.zero
    simp only [hc, mul_zero, ite_self, sum_const_zero, if_true] at this
    norm_num at this
  · unfold l1norm
    rw [← hrev w.decLo]
    exact sum_congr rfl fun j _ => by rw [h.recLo]
  · rw [← e1]
    unfold l1norm
    rw [← hrev w.decHi]
    exact sum_congr rfl fun j _ => by rw [h.recHi]

theorem bandMult_pos {lo hi : ℝ} (hl : 0 < lo) (hh : 0 < hi) (m level : ℕ) (b : Band m level) : 0 < bandMult lo hi m level b := by
  cases b with
  | none => simp only [bandMult]; positivity
  | some b =>
    simp only [bandMult]
    refine mul_pos (prod_pos fun k _ => ?_) (by positivity)
    split_ifs <;> assumption

/-- C224: the step sizes are positive, and no band's `sigma` exceeds `tau`. -/
theorem C224_sigma_le_tau {w : FilterBank L} (h : OrthogonalWavelet w) (normalized : Bool) (m level : ℕ) (b : Band m level) :
    0 < swlSigma w normalized m level b ∧ swlSigma w normalized m level b ≤ swlTau w normalized m level := by
  obtain ⟨h1, h2, h3, h4⟩ := h.norms
  cases normalized with
  | true =>
    simp only [swlSigma, swlTau, if_true]
    refine ⟨by norm_num, ?_⟩
    have : (1 : ℝ) ≤ 2 ^ m := one_le_pow₀ (by norm_num)
    have : (0 : ℝ) ≤ level * (2 ^ m - 1) := mul_nonneg (Nat.cast_nonneg _) (by linarith)
    linarith
  | false =>
    simp only [swlSigma, swlTau, Bool.false_eq_true, if_false]
    rw [h2, h3, h4]
    have hp := bandMult_pos h1 h1 m level
    refine ⟨one_div_pos.2 (hp b), ?_⟩
    have h2m : (1 : ℝ) ≤ 2 ^ m := one_le_pow₀ (by norm_num)
    have hnn : ∀ b : Band m level, 0 ≤ ((2 : ℝ) ^ m - 1 + if b = none then 1 else 0) := fun b => by
      split_ifs <;> linarith
    refine le_trans ?_ (single_le_sum (f := fun b : Band m level => ((2 : ℝ) ^ m - 1 + if b = none then 1 else 0) /
      bandMult (l1norm w.decLo) (l1norm w.decLo) m level b) (fun b _ => div_nonneg (hnn b) (hp b).le) (mem_univ b))
    refine div_le_div_of_nonneg_right ?_ (hp b).le
    cases b with
    | none => simp only [if_true]; linarith
    | some b =>
      have hm : 1 ≤ m := by
        rcases Nat.eq_zero_or_pos m with h0 | h0
        · subst h0
          exact absurd (Subsingleton.elim b.2.1 (approxLabel 0)) b.2.2
        · exact h0
      have : (2 : ℝ) ^ 1 ≤ 2 ^ m := pow_le_pow_right₀ (by norm_num) hm
      rw [if_neg (by simp)]
      linarith

/-- C224: without normalization, the step of a band is the inverse of the product of the l1 norms of all the filters on the way from the image to the band: those of
the approximations before it, and those of its label. -/
theorem C224_sigma_value (w : FilterBank L) (m level : ℕ) :
    swlSigma w false m level none * (∑ j, |w.decLo j|) ^ (m * level) = (if ∑ j, |w.decLo j| = 0 ∧ m * level ≠ 0 then 0 else 1) ∧
    ∀ (i : Fin level) (l : {l : Fin m → Bool // l ≠ approxLabel m}), swlSigma w false m level (some (i, l)) =
      1 / ((∑ j, |w.decHi j|) ^ (univ.filter fun k => l.1 k = true).card * (∑ j, |w.decLo j|) ^ ((univ.filter fun k => l.1 k = false).card + m * i)) := by
  constructor
  · simp only [swlSigma, Bool.false_eq_true, if_false, bandMult, l1norm, ← pow_mul]
    by_cases h0 : ∑ j, |w.decLo j| = 0
    · by_cases h1 : m * level = 0
      · rw [h1, if_neg (by simp)]; norm_num
      · rw [h0, if_pos ⟨rfl, h1⟩, zero_pow h1, mul_zero]
    · rw [if_neg (fun h => h0 h.1), one_div, inv_mul_cancel₀ (pow_ne_zero _ h0)]
  · intro i l
    simp only [swlSigma, Bool.false_eq_true, if_false, bandMult, l1norm, ← pow_mul]
    rw [prod_ite, prod_const, prod_const, pow_add]
    simp only [Bool.not_eq_true]
    ring

/-- C224: the step sizes the regularizer publishes satisfy the condition of the primal-dual algorithm, with the adjoint that the code uses. -/
theorem C224_step_contract {w : FilterBank L} (h : OrthogonalWavelet w) (normalized minApprox : Bool) (level : ℕ) (axes : Fin m → κ) (weight : ℝ) :
    StepContract (swlReg (n := n) w normalized false minApprox level axes weight)
      (fun x => ∑ q : Band m level × Idx (paddedShape level axes n), bandWeight normalized q.1 * swlSigma w normalized m level q.1 *
        swtOp w normalized false level axes x q ^ 2) (fun _ => swlTau w normalized m level) where
  published := fun _ => rfl
  nonneg := fun _ => (C224_sigma_le_tau h normalized m level none).1.le.trans (C224_sigma_le_tau h normalized m level none).2
  energy := fun x => by
    have e := C221_energy_partial h normalized level axes x
    rw [← mul_sum, ← e, mul_sum, Fintype.sum_prod_type]
    refine sum_le_sum fun b _ => ?_
    simp only
    rw [← mul_sum, mul_comm (bandWeight normalized b), mul_assoc]
    exact mul_le_mul_of_nonneg_right (C224_sigma_le_tau h normalized m level b).2
      (mul_nonneg (bandWeight_pos normalized b).le (sum_nonneg fun _ _ => sq_nonneg _))

/-- The regularizer with the penalty it stands for, in the variables of the primal-dual algorithm. -/
noncomputable def swlPreg (w : FilterBank L) (normalized minApprox : Bool) (level : ℕ) (axes : Fin m → κ) (weight : ℝ) :
    PReg (Idx n) (Band m level × Idx (paddedShape level axes n)) where
  reg := swlReg w normalized false minApprox level axes weight
  scale := fun q => Real.sqrt (bandWeight normalized q.1 / swlSigma w normalized m level q.1)
  σ := 1
  c := fun _ => swlTau w normalized m level
  pen :=
    { K := fun x q => Real.sqrt (bandWeight normalized q.1 * swlSigma w normalized m level q.1) * swtOp w normalized false level axes x q
      Kt := fun u => swtOpT w normalized level axes fun q => u q / Real.sqrt (bandWeight normalized q.1 / swlSigma w normalized m level q.1)
      H := fun y => ∑ q, if minApprox = false ∧ q.1 = none then 0 else
        weight * Real.sqrt (bandWeight normalized q.1 / swlSigma w normalized m level q.1) * |y q| }

theorem sqrt_ratio {c s : ℝ} (hc : 0 < c) (hs : 0 < s) :
    Real.sqrt (c / s) * Real.sqrt (c * s) = c ∧ Real.sqrt (c / s) * s = Real.sqrt (c * s) ∧ c / Real.sqrt (c / s) = Real.sqrt (c * s) := by
  have h1 : Real.sqrt (c / s) * Real.sqrt (c * s) = c := by
    rw [← Real.sqrt_mul (by positivity), show c / s * (c * s) = c * c by field_simp, Real.sqrt_mul_self hc.le]
  refine ⟨h1, ?_, ?_⟩
  · rw [show c * s = (c / s) * (s * s) by field_simp, Real.sqrt_mul (by positivity), Real.sqrt_mul_self hs.le]
  · rw [div_eq_iff (by positivity), mul_comm, h1]

theorem swlPreg_penalty {w : FilterBank L} (h : OrthogonalWavelet w) (normalized minApprox : Bool) (level : ℕ) (axes : Fin m → κ) (weight : ℝ) (x : Arr (Idx n)) :
    (swlPreg w normalized minApprox level axes weight).pen.H ((swlPreg w normalized minApprox level axes weight).pen.K x) =
      (swlPenalty w normalized false minApprox level axes weight (bandWeight normalized)).H
        ((swlPenalty w normalized false minApprox level axes weight (bandWeight normalized)).K x) := by
  simp only [swlPreg, swlPenalty]
  refine sum_congr rfl fun q _ => ?_
  by_cases hq : minApprox = false ∧ q.1 = none
  · rw [if_pos hq, if_pos hq]
  · rw [if_neg hq, if_neg hq, abs_mul, abs_of_nonneg (Real.sqrt_nonneg _)]
    have := (sqrt_ratio (bandWeight_pos normalized q.1) (C224_sigma_le_tau h normalized m level q.1).1).1
    linear_combination (weight * |swtOp w normalized false level axes x q|) * this

theorem scaled_ball {s w v : ℝ} (hs : 0 < s) (hw : 0 < w) : s * (v / max |v| w * w) = s * v / max |s * v| (w * s) * (w * s) := by
  have hm : 0 < max |v| w := lt_of_lt_of_le hw (le_max_right _ _)
  have : max |s * v| (w * s) = s * max |v| w := by
    rw [abs_mul, abs_of_pos hs, mul_comm w s, mul_max_of_nonneg _ _ hs.le]
  rw [this]
  field_simp

/-- C223: the regularizer stands for the l1 norm of the bands with the weights `bandWeight`. -/
theorem C223_stands_for_partial {w : FilterBank L} (h : OrthogonalWavelet w) (normalized minApprox : Bool) (level : ℕ) (axes : Fin m → κ) {weight : ℝ}
    (hw : 0 < weight) : (swlPreg (n := n) w normalized minApprox level axes weight).Ok where
  scalepos := fun q => Real.sqrt_pos.2 (div_pos (bandWeight_pos normalized q.1) (C224_sigma_le_tau h normalized m level q.1).1)
  σpos := one_pos
  lin := by
    intro a b x y
    funext q
    simp only [swlPreg]
    rw [swtOp_lin]
    ring
  adj := by
    intro x u
    unfold dot
    simp only [swlPreg]
    have := C221_weighted_adjoint_partial h normalized level axes x
      fun q => u q / Real.sqrt (bandWeight normalized q.1 / swlSigma w normalized m level q.1)
    rw [show ∑ i, x i * swtOpT w normalized level axes (fun q => u q / Real.sqrt (bandWeight normalized q.1 / swlSigma w normalized m level q.1)) i =
      ∑ p, swtOpT w normalized level axes (fun q => u q / Real.sqrt (bandWeight normalized q.1 / swlSigma w normalized m level q.1)) p * x p from
        sum_congr rfl fun _ _ => mul_comm _ _, this, Fintype.sum_prod_type]
    refine sum_congr rfl fun b _ => ?_
    rw [mul_sum]
    refine sum_congr rfl fun q _ => ?_
    simp only
    have e := (sqrt_ratio (bandWeight_pos normalized b) (C224_sigma_le_tau h normalized m level b).1).2.2
    rw [← e]
    unfold bandWeight
    ring
  convex := by
    refine ⟨convex_univ, fun x _ y _ a b ha hb _ => ?_⟩
    simp only [swlPreg, smul_eq_mul, mul_sum, ← sum_add_distrib, Pi.add_apply, Pi.smul_apply]
    refine sum_le_sum fun q _ => ?_
    by_cases hq : minApprox = false ∧ q.1 = none
    · simp only [if_pos hq]; simp
    · simp only [if_neg hq]
      have h1 := abs_add_le (a * x q) (b * y q)
      rw [abs_mul, abs_mul, abs_of_nonneg ha, abs_of_nonneg hb] at h1
      have := mul_le_mul_of_nonneg_left h1
        (mul_nonneg hw.le (Real.sqrt_nonneg (bandWeight normalized q.1 / swlSigma w normalized m level q.1)))
      linarith
  primal := fun q => by
    simp only [swlPreg, swlReg, Prod.mk.injEq, and_true]
    congr 1
    funext d
    have := Real.sqrt_pos.2 (div_pos (bandWeight_pos normalized d.1) (C224_sigma_le_tau h normalized m level d.1).1)
    field_simp
  dual := by
    refine ⟨fun u q => if minApprox = false ∧ q.1 = none then 0 else
      u q / max |u q| (weight * Real.sqrt (bandWeight normalized q.1 / swlSigma w normalized m level q.1)) *
        (weight * Real.sqrt (bandWeight normalized q.1 / swlSigma w normalized m level q.1)), fun q x d => ?_, fun u z => ?_⟩
    · have hs := C224_sigma_le_tau h normalized m level d.1
      have hr := sqrt_ratio (bandWeight_pos normalized d.1) hs.1
      have hp := Real.sqrt_pos.2 (div_pos (bandWeight_pos normalized d.1) hs.1)
      have pf : ∀ v : Arr (Band m level × Idx (paddedShape level axes n)),
          ((DataTerm.new .l1 none).assignData none (.array fun q : Band m level × Idx (paddedShape level axes n) =>
            swlSigma w normalized m level q.1)).proxDual v (.scalar weight) d = v d / max |v d| weight * weight := by
        intro v
        simp [proxDual, DataTerm.new, assignData, applyThreshold, innerNorm, subSigmaData, Attr.get]
      simp only [swlPreg, swlReg]
      rw [pf]
      by_cases hq : minApprox = false ∧ d.1 = none
      · simp only [if_pos hq]; simp
      · simp only [if_neg hq]
        rw [scaled_ball hp hw, mul_add, ← mul_assoc _ (swlSigma w normalized m level d.1) _, hr.2.1, one_mul]
    · simp only [swlPreg, div_one]
      rw [← sum_add_distrib]
      refine sum_le_sum fun q _ => ?_
      by_cases hq : minApprox = false ∧ q.1 = none
      · simp only [if_pos hq]; simp
      · simp only [if_neg hq]
        have hp := Real.sqrt_pos.2 (div_pos (bandWeight_pos normalized q.1) (C224_sigma_le_tau h normalized m level q.1).1)
        obtain ⟨-, hx, hs⟩ := cert_l1 (b := 0) (x := u q) (mul_pos hw hp) one_pos
        have h1 := hs (z q) trivial
        simp only [mul_zero, sub_zero, div_one] at hx h1
        simpa [fL1] using h1
  step := by
    have := C224_step_contract (n := n) h normalized minApprox level axes weight
    refine ⟨this.published, this.nonneg, fun x => ?_⟩
    refine le_of_eq_of_le ?_ (this.energy x)
    refine sum_congr rfl fun q _ => ?_
    simp only [swlPreg, one_mul]
    rw [mul_pow, Real.sq_sqrt (mul_nonneg (bandWeight_pos normalized q.1).le (C224_sigma_le_tau h normalized m level q.1).1.le)]

theorem same_penalty {ν ι δ Q : Type} [Fintype ν] [Fintype ι] {S : Solver ν ι Q} {M : ι → ν → ℝ} {a : Args ν ι} {b : Arr ι} {g g' : Penalty ν δ}
    (h : ∀ x, g.H (g.K x) = g'.H (g'.K x)) (x : Arr ν) : IsSolution S M a b [g] x ↔ IsSolution S M a b [g'] x := by
  have : ∀ x, objective S M a b [g] x = objective S M a b [g'] x := fun x => by simp [objective, h]
  simp only [IsSolution, this]

variable {ι : Type} [Fintype ι]

/-- C223, with all defaults but the weights of the bands: a primal-dual reconstruction with the stationary wavelet regularizer of an orthogonal wavelet
converges to a solution of the problem in which the weight of a band is divided by `2 ** (m * levels)`, unless it is normalized. -/
theorem C223_converges_weighted_partial {w : FilterBank L} (h : OrthogonalWavelet w) (normalized minApprox : Bool) (level : ℕ) (axes : Fin m → κ)
    {weight : ℝ} (hw : 0 < weight) {M : ι → Idx n → ℝ} {S : Solver (Idx n) ι (Arr (Band m level × Idx (paddedShape level axes n)))}
    {b : Arr ι} {a : Args (Idx n) ι} {rnd : Arr ι}
    (hregs : S.regs = [swlReg w normalized false minApprox level axes weight])
    (hk : ConvexKind S.term.kind) (hT : S.tolerance = none) (hω : 0 < S.relaxation) (hω1 : S.relaxation < 1)
    (hs : SensibleScale M a) (htw : ∀ i, trainWeight a i = 0 ∨ trainWeight a i = 1)
    (hcols : ∀ j, (∑ i, |M i j|) + swlTau w normalized m level ≤ 100000)
    (hsol : ∃ x, IsSolution S M a b [swlPenalty w normalized false minApprox level axes weight (bandWeight normalized)] x)
    (hint : ∃ x, Admissible a x ∧ ∀ i, trainWeight a i ≠ 0 →
      S.term.addBackground (fun i => ∑ j, M i j * x j) i ∈ interior (pixelFunctional S.term.kind (b i) i).dom)
    {xs : ℕ → Arr (Idx n)} (hrun : ∀ N, ∃ info S', pdhg S (matrixOp M) b { a with iterations := N } true rnd = .ok (xs N, info, S')) :
    ∃ x, IsSolution S M a b [swlPenalty w normalized false minApprox level axes weight (bandWeight normalized)] x ∧ Tendsto xs atTop (𝓝 x) := by
  have hsame := fun x => same_penalty (S := S) (M := M) (a := a) (b := b) (swlPreg_penalty (n := n) h normalized minApprox level axes weight) x
  obtain ⟨x0, h0⟩ := hsol
  obtain ⟨x, hx, hl⟩ := C141_pdhg_converges (gs := [swlPreg w normalized minApprox level axes weight]) hregs
    (by simp only [List.mem_singleton]; rintro g rfl; exact C223_stands_for_partial h normalized minApprox level axes hw) hk hT hω hω1 hs htw
    (by simpa [swlPreg] using hcols) ⟨x0, (hsame x0).2 h0⟩ hint hrun
  exact ⟨x, (hsame x).1 hx, hl⟩

/-- C223, partial: with `normalized=True` a primal-dual reconstruction converges to a minimiser of the data term plus the weight times the l1 norm of the
wavelet coefficients, for orthogonal wavelets and padding with zeros. (Missing: `normalized=False`, the default, where it fails.) -/
theorem C223_converges_partial {w : FilterBank L} (h : OrthogonalWavelet w) (minApprox : Bool) (level : ℕ) (axes : Fin m → κ)
    {weight : ℝ} (hw : 0 < weight) {M : ι → Idx n → ℝ} {S : Solver (Idx n) ι (Arr (Band m level × Idx (paddedShape level axes n)))}
    {b : Arr ι} {a : Args (Idx n) ι} {rnd : Arr ι}
    (hregs : S.regs = [swlReg w true false minApprox level axes weight])
    (hk : ConvexKind S.term.kind) (hT : S.tolerance = none) (hω : 0 < S.relaxation) (hω1 : S.relaxation < 1)
    (hs : SensibleScale M a) (htw : ∀ i, trainWeight a i = 0 ∨ trainWeight a i = 1)
    (hcols : ∀ j, (∑ i, |M i j|) + (level * (2 ^ m - 1) + 1) ≤ 100000)
    (hsol : ∃ x, IsSolution S M a b [swlPenalty w true false minApprox level axes weight fun _ => 1] x)
    (hint : ∃ x, Admissible a x ∧ ∀ i, trainWeight a i ≠ 0 →
      S.term.addBackground (fun i => ∑ j, M i j * x j) i ∈ interior (pixelFunctional S.term.kind (b i) i).dom)
    {xs : ℕ → Arr (Idx n)} (hrun : ∀ N, ∃ info S', pdhg S (matrixOp M) b { a with iterations := N } true rnd = .ok (xs N, info, S')) :
    ∃ x, IsSolution S M a b [swlPenalty w true false minApprox level axes weight fun _ => 1] x ∧ Tendsto xs atTop (𝓝 x) := by
  have e : (fun _ : Band m level => (1 : ℝ)) = bandWeight true := by funext b; simp [bandWeight]
  rw [e] at hsol ⊢
  exact C223_converges_weighted_partial h true minApprox level axes hw hregs hk hT hω hω1 hs htw (by simpa [swlTau] using hcols) hsol hint hrun

/-- C223, with limits on the values: nothing has to be assumed about solutions. (Missing: as in `C223_converges_partial`.) -/
theorem C223_converges_limits_partial {w : FilterBank L} (h : OrthogonalWavelet w) (minApprox : Bool) (level : ℕ) (axes : Fin m → κ)
    {weight : ℝ} (hw : 0 < weight) {M : ι → Idx n → ℝ} {S : Solver (Idx n) ι (Arr (Band m level × Idx (paddedShape level axes n)))}
    {b : Arr ι} {a : Args (Idx n) ι} {rnd : Arr ι}
    (hregs : S.regs = [swlReg w true false minApprox level axes weight])
    (hk : ConvexKind S.term.kind) (hkl : S.term.kind ≠ .kl) (hT : S.tolerance = none) (hω : 0 < S.relaxation) (hω1 : S.relaxation < 1)
    (hs : SensibleScale M a) (htw : ∀ i, trainWeight a i = 0 ∨ trainWeight a i = 1)
    (hcols : ∀ j, (∑ i, |M i j|) + (level * (2 ^ m - 1) + 1) ≤ 100000)
    (hlo : a.lower.isSome) (hup : a.upper.isSome) (hlim : SensibleLimits a)
    {xs : ℕ → Arr (Idx n)} (hrun : ∀ N, ∃ info S', pdhg S (matrixOp M) b { a with iterations := N } true rnd = .ok (xs N, info, S')) :
    ∃ x, IsSolution S M a b [swlPenalty w true false minApprox level axes weight fun _ => 1] x ∧ Tendsto xs atTop (𝓝 x) := by
  have e : (fun _ : Band m level => (1 : ℝ)) = bandWeight true := by funext b; simp [bandWeight]
  rw [e]
  have hsame := fun x => same_penalty (S := S) (M := M) (a := a) (b := b) (swlPreg_penalty (n := n) h true minApprox level axes weight) x
  obtain ⟨x, hx, hl⟩ := C141_pdhg_converges_limits (gs := [swlPreg w true minApprox level axes weight]) hregs
    (by simp only [List.mem_singleton]; rintro g rfl; exact C223_stands_for_partial h true minApprox level axes hw) hk hkl hT hω hω1 hs htw
    (by simpa [swlPreg, swlTau] using hcols) hlo hup hlim hrun
  exact ⟨x, (hsame x).1 hx, hl⟩

/-- Non-vacuity: images of five by three pixels between 0 and 20, Haar wavelets with two levels. -/
example (b : Arr (Idx ![5, 3])) : ∃ (S : Solver (Idx ![5, 3]) (Idx ![5, 3]) (Arr (Band 2 2 × Idx (paddedShape 2 (id : Fin 2 → Fin 2) ![5, 3]))))
    (xs : ℕ → Arr (Idx ![5, 3])), (∀ N, ∃ info S', pdhg S (matrixOp fun i j => if i = j then 1 else 0) b
      { iterations := N, lower := some (.scalar 0), upper := some (.scalar 20) } true (fun _ => 1) = .ok (xs N, info, S')) ∧
    ∃ x, IsSolution S (fun i j => if i = j then 1 else 0) { iterations := 0, lower := some (.scalar 0), upper := some (.scalar 20) } b
      [swlPenalty haarBank true false true 2 id 3 fun _ => 1] x ∧ Tendsto xs atTop (𝓝 x) := by
  let S : Solver (Idx ![5, 3]) (Idx ![5, 3]) (Arr (Band 2 2 × Idx (paddedShape 2 (id : Fin 2 → Fin 2) ![5, 3]))) :=
    ⟨95 / 100, none, [swlReg haarBank true false true 2 id 3], .new .l2 none, .new .l2 none, none⟩
  let a : Args (Idx ![5, 3]) (Idx ![5, 3]) := { iterations := 0, lower := some (.scalar 0), upper := some (.scalar 20) }
  obtain ⟨p, hp⟩ := scaling_regs_ok (M := fun i j : Idx ![5, 3] => if i = j then (1 : ℝ) else 0)
    ⟨fun k => ⟨0, by fin_cases k <;> simp⟩, fun k => ⟨0, by fin_cases k <;> simp⟩, by simp⟩ S a ⟨rfl, rfl, rfl⟩ (by
    intro r hr t j
    simp only [S, List.mem_singleton] at hr
    subst hr
    exact (C224_step_contract haar_orthogonal true true 2 id 3).nonneg j) fun _ => 1
  have h : ∀ N, ∃ r, pdhg S (matrixOp fun i j => if i = j then 1 else 0) b { a with iterations := N } true (fun _ => 1) = .ok r := fun N =>
    pdhg_runs (p := p) hp rfl
  choose r hr using h
  have hrun : ∀ N, ∃ info S', pdhg S (matrixOp fun i j => if i = j then 1 else 0) b { a with iterations := N } true (fun _ => 1) =
    .ok ((r N).1, info, S') := fun N => ⟨(r N).2.1, (r N).2.2, hr N⟩
  refine ⟨S, fun N => (r N).1, hrun, ?_⟩
  exact C223_converges_limits_partial haar_orthogonal true 2 id (by norm_num) (S := S) (a := a) rfl trivial (by simp [S, DataTerm.new]) rfl
    (by norm_num [S]) (by norm_num [S])
    ⟨by simp [a], by simp [a], by simp [a], by intro i; simp [abs_ite], by intro i; simp [abs_ite]⟩ (fun i => Or.inr (by simp [trainWeight, a]))
    (by intro j; simp [abs_ite]; norm_num) rfl rfl ⟨by rintro l u ⟨⟩ ⟨⟩ j; simp [Attr.get], by simp [a], by simp [a], by simp [a]⟩ hrun

/-! ## One pixel -/

/-- An image of one pixel. -/
abbrev One := Idx fun _ : Fin 1 => 1

theorem sum_one' (f : One → ℝ) : ∑ p, f p = f fun _ => 0 := by
  rw [Fintype.sum_unique]
  congr 1

/-- The l1 norm of the coefficients of the unit pixel, Haar, one level, with the defaults of the regularizer. -/
noncomputable def unitNorm : ℝ := ∑ q, |swtOp haarBank false false 1 (fun _ : Fin 1 => (0 : Fin 1)) (fun _ : One => 1) q|

theorem unit_scale (x : Arr One) (q) : swtOp haarBank false false 1 (fun _ : Fin 1 => (0 : Fin 1)) x q =
    x (fun _ => 0) * swtOp haarBank false false 1 (fun _ : Fin 1 => (0 : Fin 1)) (fun _ : One => 1) q := by
  have := congrFun (swtOp_lin haarBank false false 1 (fun _ : Fin 1 => (0 : Fin 1)) (x fun _ => 0) 0 (fun _ : One => 1) 0) q
  simp only [Pi.zero_apply, mul_one, mul_zero, add_zero, zero_mul] at this
  rw [← this]
  congr 1
  funext p
  exact congrArg x (Subsingleton.elim _ _)

theorem unitNorm_pos : 0 < unitNorm := by
  refine lt_of_le_of_ne (sum_nonneg fun _ _ => abs_nonneg _) fun h0 => ?_
  have hz := (sum_eq_zero_iff_of_nonneg (fun _ _ => abs_nonneg _)).1 h0.symm
  have he := C221_energy_partial haar_orthogonal false 1 (fun _ : Fin 1 => (0 : Fin 1)) (fun _ : One => 1)
  rw [sum_one'] at he
  have : ∀ b q, swtOp haarBank false false 1 (fun _ : Fin 1 => (0 : Fin 1)) (fun _ : One => 1) (b, q) = 0 := fun b q =>
    abs_eq_zero.1 (hz (b, q) (mem_univ _))
  simp [this] at he

theorem one_level (b : Band 1 1) : bandWeight false b = 1 / 2 := by
  cases b with
  | none => simp [bandWeight, bandLevel]
  | some b =>
    obtain ⟨i, l⟩ := b
    have : i = 0 := Subsingleton.elim _ _
    subst this
    simp [bandWeight, bandLevel]

/-- C221 fails for transforms that are not normalized (the default of the regularizer). -/
theorem C221_unnormalised_violated :
    ¬ ∀ (L : ℕ) (w : FilterBank L) (d : ℕ) (n : Fin d → ℕ) (m level : ℕ) (axes : Fin m → Fin d), OrthogonalWavelet w → Function.Injective axes →
      IsAdjoint (swtOp (n := n) w false false level axes) (swtOpT w false level axes) := by
  intro H
  have ha := H 2 haarBank 1 (fun _ => 1) 1 1 (fun _ => 0) haar_orthogonal (fun _ _ _ => Subsingleton.elim _ _) (fun _ => 1)
    (swtOp haarBank false false 1 (fun _ => 0) fun _ => 1)
  rw [C222_orthogonal haar_orthogonal] at ha
  have he := C221_energy_partial haar_orthogonal false 1 (fun _ : Fin 1 => (0 : Fin 1)) (fun _ : One => 1)
  have e1 : ∀ b : Band 1 1, (if (false : Bool) = true then (1 : ℝ) else (1 / 2) ^ (1 * bandLevel b)) = 1 / 2 := one_level
  simp only [e1] at he
  rw [← mul_sum, ← Fintype.sum_prod_type (f := fun q : Band 1 1 × _ =>
    swtOp haarBank false false 1 (fun _ : Fin 1 => (0 : Fin 1)) (fun _ : One => 1) q ^ 2)] at he
  unfold dot at ha
  simp only [← sq] at ha
  rw [ha, sum_one'] at he
  norm_num at he

/-- C221 fails for the default padding of the transform ("edge"). -/
theorem C221_edge_violated :
    ¬ ∀ (L : ℕ) (w : FilterBank L) (d : ℕ) (n : Fin d → ℕ) (m level : ℕ) (axes : Fin m → Fin d), OrthogonalWavelet w → Function.Injective axes →
      IsAdjoint (swtOp (n := n) w true true level axes) (swtOpT w true level axes) := by
  intro H
  have ha := H 2 haarBank 1 (fun _ => 1) 1 1 (fun _ => 0) haar_orthogonal (fun _ _ _ => Subsingleton.elim _ _) (fun _ => 1)
    (swtOp haarBank true true 1 (fun _ => 0) fun _ => 1)
  rw [C222_orthogonal haar_orthogonal] at ha
  unfold dot at ha
  rw [sum_one', Fintype.sum_prod_type, Fintype.sum_option] at ha
  have hpad : padVol true 1 (fun _ : Fin 1 => (0 : Fin 1)) (fun _ : One => (1 : ℝ)) = fun _ => 1 := by
    funext q
    unfold padVol
    split_ifs with h1 h2 h3
    · rfl
    · rfl
    · exact absurd (fun _ => one_pos) h3
    · exact absurd rfl h2
  have happ : ∀ q, swtOp haarBank true true 1 (fun _ : Fin 1 => (0 : Fin 1)) (fun _ : One => 1) (none, q) = 1 := by
    intro q
    simp only [swtOp, hpad, swtApprox, bandDec, lettered, List.ofFn_succ, List.ofFn_zero, approxLabel, FilterBank.dec, swtAxis, directBank,
      FilterBank.rescale, haarBank, half_sq, if_true, Fin.sum_univ_two]
    norm_num
  have hcard : Fintype.card (Idx (paddedShape 1 (fun _ : Fin 1 => (0 : Fin 1)) fun _ : Fin 1 => 1)) = 2 := by
    have : ∀ k : Fin 1, paddedShape 1 (fun _ : Fin 1 => (0 : Fin 1)) (fun _ : Fin 1 => 1) k = 2 := by
      intro k
      have : k = 0 := Subsingleton.elim _ _
      subst this
      simp [paddedShape, swtPadAt, swtPad]
    simp [Idx, Fintype.card_pi, this]
  have hnn : 0 ≤ ∑ i, ∑ q, swtOp haarBank true true 1 (fun _ : Fin 1 => (0 : Fin 1)) (fun _ : One => 1) (some i, q) *
      swtOp haarBank true true 1 (fun _ : Fin 1 => (0 : Fin 1)) (fun _ : One => 1) (some i, q) :=
    sum_nonneg fun _ _ => sum_nonneg fun _ _ => mul_self_nonneg _
  simp only [happ, mul_one, sum_const, card_univ, hcard, nsmul_eq_mul] at ha
  norm_num at ha
  linarith

noncomputable def oneS (normalized : Bool) : Solver One One (Arr (Band 1 1 × Idx (paddedShape 1 (fun _ : Fin 1 => (0 : Fin 1)) fun _ : Fin 1 => 1))) :=
  ⟨95 / 100, none, [swlReg haarBank normalized false true 1 (fun _ => 0) 1], .new .l2 none, .new .l2 none, none⟩

theorem one_scale (a : Args One One) (ha : a.xMask = none ∧ a.bMask = none ∧ a.bTestMask = none) : SensibleScale (fun _ _ : One => (1 : ℝ)) a where
  bMask := by simp [ha]
  test := by simp [ha]
  xMask := by simp [ha]
  rows := by intro i; simp
  cols := by intro i; simp

theorem one_runs (normalized : Bool) (b : Arr One) (a : Args One One) (ha : a.xMask = none ∧ a.bMask = none ∧ a.bTestMask = none) :
    ∃ xs : ℕ → Arr One, ∀ N, ∃ info S',
      pdhg (oneS normalized) (matrixOp fun _ _ => 1) b { a with iterations := N } true (fun _ => 1) = .ok (xs N, info, S') := by
  obtain ⟨p, hp⟩ := scaling_regs_ok (M := fun _ _ : One => (1 : ℝ)) ⟨fun _ => 0, fun _ => 0, by simp⟩ (oneS normalized) a ha (by
    intro r hr t j
    simp only [oneS, List.mem_singleton] at hr
    subst hr
    exact (C224_step_contract haar_orthogonal normalized true 1 (fun _ => 0) 1).nonneg j) fun _ => 1
  have h : ∀ N, ∃ r, pdhg (oneS normalized) (matrixOp fun _ _ => 1) b { a with iterations := N } true (fun _ => 1) = .ok r := fun N =>
    pdhg_runs (p := p) hp ha.2.2
  choose r hr using h
  exact ⟨fun N => (r N).1, fun N => ⟨(r N).2.1, (r N).2.2, hr N⟩⟩

theorem one_objective (b : Arr One) (c : ℝ) (x : Arr One) :
    objective (oneS false) (fun _ _ => 1) { iterations := 0 } b [swlPenalty haarBank false false true 1 (fun _ : Fin 1 => (0 : Fin 1)) 1 fun _ => c] x =
      (x (fun _ => 0) - b fun _ => 0) ^ 2 / 2 + c * unitNorm * |x fun _ => 0| := by
  unfold objective
  have hK : (swlPenalty haarBank false false true 1 (fun _ : Fin 1 => (0 : Fin 1)) 1 fun _ => c).H
      ((swlPenalty haarBank false false true 1 (fun _ : Fin 1 => (0 : Fin 1)) 1 fun _ => c).K x) = c * unitNorm * |x fun _ => 0| := by
    simp only [swlPenalty, unitNorm]
    rw [mul_sum, sum_mul]
    refine sum_congr rfl fun q _ => ?_
    rw [if_neg (by simp), unit_scale x q, abs_mul]
    ring
  simp only [oneS, DataTerm.new, addBackground, pixelFunctional, fL2, trainWeight, sum_one', one_mul, List.map_cons, List.map_nil, List.sum_cons,
    List.sum_nil, hK]
  ring

theorem one_feasible (b : Arr One) (x : Arr One) : Feasible (oneS false) (fun _ _ => 1) { iterations := 0 } b x :=
  ⟨⟨⟨by simp, by simp⟩, by simp⟩, fun i _ => trivial⟩

theorem haar_tau : swlTau haarBank false 1 1 ≤ 6 := by
  have h2 : (1 : ℝ) ≤ Real.sqrt 2 := Real.one_le_sqrt.2 (by norm_num)
  have hl : l1norm haarBank.decLo = Real.sqrt 2 := by
    simp only [l1norm, haarBank, Fin.sum_univ_two]
    rw [abs_of_nonneg (by positivity)]
    have := Real.mul_self_sqrt (show (0 : ℝ) ≤ 2 by norm_num)
    field_simp
    linarith
  obtain ⟨-, e2, e3, e4⟩ := haar_orthogonal.norms
  have hb : ∀ b : Band 1 1, 1 ≤ bandMult (Real.sqrt 2) (Real.sqrt 2) 1 1 b := by
    intro b
    cases b with
    | none => simpa [bandMult] using h2
    | some b =>
      have : (b.1 : ℕ) = 0 := by omega
      simpa [bandMult, this] using h2
  simp only [swlTau, Bool.false_eq_true, if_false, e3, e4, hl]
  have hc : Fintype.card (Band 1 1) ≤ 3 := by
    have := Fintype.card_subtype_le fun l : Fin 1 → Bool => l ≠ approxLabel 1
    rw [Fintype.card_option, Fintype.card_prod, Fintype.card_fin]
    simp only [Fintype.card_pi, Fintype.card_bool, prod_const, card_univ, Fintype.card_fin] at this
    omega
  have hle : ∑ b : Band 1 1, ((2 : ℝ) ^ 1 - 1 + if b = none then 1 else 0) / bandMult (Real.sqrt 2) (Real.sqrt 2) 1 1 b ≤
      ∑ _b : Band 1 1, 2 := by
    refine sum_le_sum fun b _ => ?_
    rw [div_le_iff₀ (by linarith [hb b])]
    have := hb b
    split_ifs <;> linarith
  refine hle.trans ?_
  rw [sum_const, card_univ, nsmul_eq_mul]
  have : ((Fintype.card (Band 1 1) : ℕ) : ℝ) ≤ 3 := by exact_mod_cast hc
  linarith

/-- A minimiser of half the squared distance to `b` plus `g` times the absolute value. -/
theorem shrink_unique {b g x : ℝ} (hg : 0 ≤ g) (hgb : g ≤ b) (h : ∀ z : ℝ, (x - b) ^ 2 / 2 + g * |x| ≤ (z - b) ^ 2 / 2 + g * |z|) : x = b - g := by
  have h1 := h (b - g)
  rw [abs_of_nonneg (by linarith : 0 ≤ b - g)] at h1
  have h2 := mul_le_mul_of_nonneg_left (le_abs_self x) hg
  have : (x - (b - g)) ^ 2 ≤ 0 := by nlinarith
  have := pow_eq_zero_iff (two_ne_zero) |>.1 (le_antisymm this (sq_nonneg _))
  linarith

theorem shrink_minimal {b g : ℝ} (hg : 0 ≤ g) (hgb : g ≤ b) (z : ℝ) : (b - g - b) ^ 2 / 2 + g * |b - g| ≤ (z - b) ^ 2 / 2 + g * |z| := by
  rw [abs_of_nonneg (by linarith : 0 ≤ b - g)]
  have h2 := mul_le_mul_of_nonneg_left (le_abs_self z) hg
  nlinarith [sq_nonneg (z - (b - g))]

/-- C223 fails for the default `normalized=False`: for one pixel, the identity as operator, l2 data term, Haar wavelet with one level and all defaults, the problem has
a solution, but the returned volumes do not converge to one. -/
theorem C223_default_violated :
    ¬ ∀ (L d m level : ℕ) (w : FilterBank L) (n : Fin d → ℕ) (axes : Fin m → Fin d) (weight : ℝ)
      (S : Solver (Idx n) (Idx n) (Arr (Band m level × Idx (paddedShape level axes n)))) (M : Idx n → Idx n → ℝ) (b : Arr (Idx n)) (a : Args (Idx n) (Idx n))
      (rnd : Arr (Idx n)) (xs : ℕ → Arr (Idx n)), OrthogonalWavelet w → Function.Injective axes → 0 < weight →
      S.regs = [swlReg w false false true level axes weight] → S.term = .new .l2 none → S.tolerance = none → S.relaxation = 95 / 100 →
      a = { iterations := 0 } → SensibleScale M a →
      (∃ x, IsSolution S M a b [swlPenalty w false false true level axes weight fun _ => 1] x) →
      (∀ N, ∃ info S', pdhg S (matrixOp M) b { a with iterations := N } true rnd = .ok (xs N, info, S')) →
      ∃ x, IsSolution S M a b [swlPenalty w false false true level axes weight fun _ => 1] x ∧ Tendsto xs atTop (𝓝 x) := by
  intro H
  have hG := unitNorm_pos
  obtain ⟨xs, hxs⟩ := one_runs false (fun _ => 2 * unitNorm) { iterations := 0 } ⟨rfl, rfl, rfl⟩
  have hsol : ∀ c : ℝ, 0 ≤ c → c ≤ 1 → IsSolution (oneS false) (fun _ _ => 1) { iterations := 0 } (fun _ => 2 * unitNorm)
      [swlPenalty haarBank false false true 1 (fun _ : Fin 1 => (0 : Fin 1)) 1 fun _ => c] fun _ => 2 * unitNorm - c * unitNorm := by
    intro c h0 h1
    refine ⟨one_feasible _ _, fun z _ => ?_⟩
    rw [one_objective, one_objective]
    exact shrink_minimal (by positivity) (by nlinarith) _
  have hval : ∀ c : ℝ, 0 ≤ c → c ≤ 1 → ∀ x, IsSolution (oneS false) (fun _ _ => 1) { iterations := 0 } (fun _ => 2 * unitNorm)
      [swlPenalty haarBank false false true 1 (fun _ : Fin 1 => (0 : Fin 1)) 1 fun _ => c] x → x (fun _ => 0) = 2 * unitNorm - c * unitNorm := by
    intro c h0 h1 x hx
    refine shrink_unique (by positivity) (by nlinarith) fun z => ?_
    have := hx.2 (fun _ => z) (one_feasible _ _)
    rw [one_objective, one_objective] at this
    exact this
  obtain ⟨x, hx, hl⟩ := H 2 1 1 1 haarBank (fun _ => 1) (fun _ => 0) 1 (oneS false) (fun _ _ => 1) (fun _ => 2 * unitNorm) { iterations := 0 } (fun _ => 1) xs
    haar_orthogonal (fun _ _ _ => Subsingleton.elim _ _) one_pos rfl rfl rfl rfl rfl (one_scale _ ⟨rfl, rfl, rfl⟩) ⟨_, hsol 1 zero_le_one le_rfl⟩ hxs
  have e : (fun _ : Band 1 1 => (1 / 2 : ℝ)) = bandWeight false := by funext b; exact (one_level b).symm
  obtain ⟨y, hy, hl'⟩ := C223_converges_weighted_partial haar_orthogonal false true 1 (fun _ : Fin 1 => (0 : Fin 1)) one_pos (S := oneS false)
    (M := fun _ _ => 1) (b := fun _ => 2 * unitNorm) (a := { iterations := 0 }) (rnd := fun _ => 1) rfl trivial rfl (by norm_num [oneS]) (by norm_num [oneS])
    (one_scale _ ⟨rfl, rfl, rfl⟩) (fun i => Or.inr (by simp [trainWeight])) (fun j => by
      have := haar_tau
      simp only [abs_one, sum_const, card_univ, nsmul_eq_mul, mul_one, Fintype.card_unique]
      norm_num
      linarith)
    (by rw [← e]; exact ⟨_, hsol (1 / 2) (by norm_num) (by norm_num)⟩) ⟨fun _ => 0, ⟨⟨by simp, by simp⟩, by simp⟩, fun i _ => by
      simp [oneS, DataTerm.new, pixelFunctional, fL2]⟩ hxs
  rw [← e] at hy
  have h1 := hval 1 zero_le_one le_rfl x hx
  have h2 := hval (1 / 2) (by norm_num) (by norm_num) y hy
  rw [tendsto_nhds_unique hl hl'] at h1
  rw [h1] at h2
  nlinarith

end Verif
