import Verif.Model.DwlReg
import Verif.Props.DecimatedWavelets

/-! # The decimated wavelet regularizer in the primal-dual solver -/

namespace Verif
open Classical DataTerm Finset Filter Topology Verif.Spec

variable {L : ℕ} {κ : Type} [Fintype κ] [DecidableEq κ] {m : ℕ} {n : κ → ℕ}

/-! ## Arrays and images -/

theorem sum_box (n : κ → ℕ) (g : Img κ) : ∑ p : Idx n, g (fun k => ((p k : ℕ) : ℤ)) = ∑ p ∈ box n, g p := by
  refine sum_bij (fun (p : Idx n) _ => fun k => ((p k : ℕ) : ℤ)) ?_ ?_ ?_ ?_
  · intro p _
    rw [mem_box]
    intro k
    have := (p k).isLt
    omega
  · intro p _ q _ h
    funext k
    have := congrFun h k
    apply Fin.ext
    have h2 : ((p k : ℕ) : ℤ) = ((q k : ℕ) : ℤ) := this
    omega
  · intro q hq
    rw [mem_box] at hq
    refine ⟨fun k => ⟨(q k).toNat, by have := hq k; omega⟩, mem_univ _, ?_⟩
    funext k
    have := hq k
    show ((q k).toNat : ℤ) = q k
    omega
  · intro p _
    rfl

theorem idx_mem_box (p : Idx n) : (fun k => ((p k : ℕ) : ℤ)) ∈ box n := by
  rw [mem_box]
  intro k
  have := (p k).isLt
  omega

theorem toImg_idx (x : Arr (Idx n)) (p : Idx n) : toImg n x (fun k => ((p k : ℕ) : ℤ)) = x p := by
  unfold toImg
  rw [dif_pos (fun k => mem_box.mp (idx_mem_box p) k)]
  congr 1

theorem toImg_lin (c d : ℝ) (x y : Arr (Idx n)) : toImg n (fun p => c * x p + d * y p) = fun p => c * toImg n x p + d * toImg n y p := by
  funext p
  unfold toImg
  split_ifs
  · rfl
  · ring

theorem toImg_const (c : ℝ) : ∀ p ∈ box n, toImg n (fun _ => c) p = c := by
  intro p hp
  unfold toImg
  rw [dif_pos (mem_box.mp hp)]

/-- The transform of arrays: the coefficients. -/
noncomputable def dwtArr (w : FilterBank L) (mode : DwtMode) (level : ℕ) (axes : Fin m → κ) (n : κ → ℕ) (x : Arr (Idx n)) :
    Arr (DwlDual (level := level) mode L axes n) := fun q => ofImg _ (dwtOp w mode level axes n (toImg n x) q.1) q.2

/-- The inverse transform of arrays. -/
noncomputable def dwtArrT (w : FilterBank L) (mode : DwtMode) (level : ℕ) (axes : Fin m → κ) (n : κ → ℕ) (y : Arr (DwlDual (level := level) mode L axes n)) :
    Arr (Idx n) := ofImg n (dwtOpT w mode level axes n fun b => toImg _ fun p => y ⟨b, p⟩)

theorem dwtArr_lin (w : FilterBank L) (mode : DwtMode) (level : ℕ) (axes : Fin m → κ) (n : κ → ℕ) : IsLinear (dwtArr w mode level axes n) := by
  intro c d x y
  funext q
  simp only [dwtArr, ofImg, toImg_lin, dwtOp_lin]

/-- Every mode, level, shape: the conditions under which the transpose is the adjoint. -/
def AdjointMode (mode : DwtMode) (level : ℕ) (axes : Fin m → κ) (n : κ → ℕ) : Prop :=
  mode = .zero ∨ mode = .periodization ∧ Function.Injective axes ∧ ∀ i, 2 ^ level ∣ n (axes i)

theorem dwtArr_adjoint {w : FilterBank L} (h : OrthogonalWavelet w) {mode : DwtMode} {level : ℕ} {axes : Fin m → κ} {n : κ → ℕ}
    (hm : AdjointMode mode level axes n) : IsAdjoint (dwtArr w mode level axes n) (dwtArrT w mode level axes n) := by
  intro x y
  have key : coeffDot mode L axes n (dwtOp w mode level axes n (toImg n x)) (fun b => toImg _ fun p => y ⟨b, p⟩) =
      imgDot n (toImg n x) (dwtOpT w mode level axes n fun b => toImg _ fun p => y ⟨b, p⟩) := by
    rcases hm with rfl | ⟨rfl, h1, h2⟩
    · exact C225_zero_partial h level axes n _ _
    · exact C225_periodization_partial h level axes h1 n h2 _ _
  unfold coeffDot imgDot at key
  unfold dot
  rw [← sum_box n (fun p => toImg n x p * dwtOpT w mode level axes n (fun b => toImg _ fun p => y ⟨b, p⟩) p)] at key
  simp only [toImg_idx] at key
  rw [show (∑ i, x i * dwtArrT w mode level axes n y i) =
    ∑ p : Idx n, x p * dwtOpT w mode level axes n (fun b => toImg _ fun p => y ⟨b, p⟩) (fun k => ((p k : ℕ) : ℤ)) from rfl, ← key, Fintype.sum_sigma]
  refine sum_congr rfl fun b _ => ?_
  rw [← sum_box (dwtBandShape mode L axes n b) (fun p => dwtOp w mode level axes n (toImg n x) b p * toImg _ (fun p => y ⟨b, p⟩) p)]
  simp only [toImg_idx]
  rfl

theorem dwtArr_energy {w : FilterBank L} (h : OrthogonalWavelet w) (hL : Even L) {mode : DwtMode} {level : ℕ} {axes : Fin m → κ} {n : κ → ℕ}
    (hm : AdjointMode mode level axes n) (x : Arr (Idx n)) : ∑ q, dwtArr w mode level axes n x q ^ 2 = ∑ p, x p ^ 2 := by
  have key := C225_energy_partial h hL mode level axes n hm (toImg n x)
  unfold coeffDot imgDot at key
  rw [← sum_box n (fun p => toImg n x p * toImg n x p)] at key
  simp only [toImg_idx] at key
  rw [show ∑ p, x p ^ 2 = ∑ p, x p * x p from sum_congr rfl fun p _ => by ring, ← key, Fintype.sum_sigma]
  refine sum_congr rfl fun b _ => ?_
  rw [← sum_box (dwtBandShape mode L axes n b) (fun p => dwtOp w mode level axes n (toImg n x) b p * dwtOp w mode level axes n (toImg n x) b p)]
  refine sum_congr rfl fun p _ => ?_
  rw [sq]
  rfl

/-! ## Step sizes -/

/-- The l1 norm of a filter of an orthogonal wavelet is at least one. -/
theorem OrthogonalWavelet.one_le_l1 {w : FilterBank L} (h : OrthogonalWavelet w) : 1 ≤ l1norm w.decLo := by
  have h1 := h.translates 0 Even.zero
  rw [if_pos rfl] at h1
  have h2 : ∑ i : Fin L, ∑ j : Fin L, (if ((i : ℕ) : ℤ) - (j : ℕ) = 0 then w.decLo i * w.decLo j else 0) ≤ ∑ i : Fin L, ∑ j : Fin L, |w.decLo i| * |w.decLo j| := by
    refine sum_le_sum fun i _ => sum_le_sum fun j _ => ?_
    rw [← abs_mul]
    split_ifs
    · exact le_abs_self _
    · exact abs_nonneg _
  rw [h1, ← sum_mul_sum] at h2
  have h3 : (1 : ℝ) ≤ l1norm w.decLo * l1norm w.decLo := h2
  have h4 : 0 ≤ l1norm w.decLo := sum_nonneg fun _ _ => abs_nonneg _
  nlinarith

theorem decFuncMult_eq (l : ℝ) (m level c : ℕ) : decFuncMult l l m level c =
    if c = 0 then (l ^ m) ^ level else l ^ m * (l ^ m) ^ (level - 1 - (c - 1) / (2 ^ m - 1)) := by
  unfold decFuncMult labelMult
  simp

/-- The steps of the bands: positive, and at most that of the approximation. -/
theorem dwlSteps_bounds {w : FilterBank L} (h : OrthogonalWavelet w) (m level : ℕ) (b : Band m level) :
    0 < dwlSteps w m level b ∧ dwlSteps w m level b ≤ (l1norm w.decLo ^ m) ^ level := by
  have h1 := h.one_le_l1
  obtain ⟨h0, h2, -, -⟩ := h.norms
  have hp : (1 : ℝ) ≤ l1norm w.decLo ^ m := one_le_pow₀ h1
  rcases b with _ | ⟨i, l⟩
  · simp only [dwlSteps, h2, decFuncMult_eq, if_true]
    exact ⟨by positivity, le_rfl⟩
  · simp only [dwlSteps, h2, decFuncMult_eq]
    split_ifs
    · exact ⟨by positivity, le_rfl⟩
    · refine ⟨by positivity, ?_⟩
      rw [← pow_succ']
      refine pow_le_pow_right₀ hp ?_
      have := i.isLt
      generalize ((level - 1 - (i : ℕ)) * (2 ^ m - 1) + (labelNumber l.1 - 1) - 1) / (2 ^ m - 1) = t
      omega

theorem labelNumber_pos {l : Fin m → Bool} (hl : l ≠ approxLabel m) : 1 ≤ labelNumber l := by
  obtain ⟨k, hk⟩ := Function.ne_iff.1 hl
  have hk' : l k = true := by simpa [approxLabel] using hk
  have h1 : (if l k then 2 ^ (m - 1 - (k : ℕ)) else 0) ≤ labelNumber l :=
    single_le_sum (f := fun i => if l i then 2 ^ (m - 1 - (i : ℕ)) else 0) (fun _ _ => Nat.zero_le _) (mem_univ k)
  rw [if_pos hk'] at h1
  exact le_trans Nat.one_le_two_pow h1

theorem labelNumber_lt (l : Fin m → Bool) : labelNumber l < 2 ^ m := by
  have h1 : labelNumber l ≤ ∑ i : Fin m, 2 ^ (m - 1 - (i : ℕ)) := sum_le_sum fun i _ => by split_ifs <;> simp
  have h2 : ∑ i : Fin m, 2 ^ (m - 1 - (i : ℕ)) = ∑ i : Fin m, 2 ^ (i : ℕ) := by
    rw [← Equiv.sum_comp Fin.revPerm]
    refine sum_congr rfl fun i _ => ?_
    simp only [Fin.revPerm_apply, Fin.val_rev]
    congr 1
    have := i.isLt
    omega
  have h3 : ∀ m : ℕ, ∑ i : Fin m, 2 ^ (i : ℕ) < 2 ^ m := by
    intro m
    induction m with
    | zero => simp
    | succ m ih =>
      rw [Fin.sum_univ_castSucc]
      simp only [Fin.val_castSucc, Fin.val_last]
      rw [pow_succ]
      omega
  have := h3 m
  omega

theorem testBit_labelNumber : ∀ {m : ℕ} (l : Fin m → Bool) (k : Fin m), (labelNumber l).testBit (m - 1 - (k : ℕ)) = l k := by
  intro m
  induction m with
  | zero => intro l k; exact k.elim0
  | succ m ih =>
    intro l k
    have e : labelNumber l = 2 * labelNumber (fun i : Fin m => l i.castSucc) + (if l (Fin.last m) then 1 else 0) := by
      unfold labelNumber
      rw [Fin.sum_univ_castSucc, mul_sum]
      congr 1
      · refine sum_congr rfl fun i _ => ?_
        have hi := i.isLt
        rw [Fin.val_castSucc, show m + 1 - 1 - (i : ℕ) = (m - 1 - (i : ℕ)) + 1 by omega, pow_succ]
        split_ifs <;> omega
      · simp
    rw [e]
    rcases Fin.eq_castSucc_or_eq_last k with ⟨j, rfl⟩ | rfl
    · have hj := j.isLt
      rw [Fin.val_castSucc, show m + 1 - 1 - (j : ℕ) = (m - 1 - (j : ℕ)) + 1 by omega, Nat.testBit_succ,
        show (2 * labelNumber (fun i : Fin m => l i.castSucc) + (if l (Fin.last m) then 1 else 0)) / 2 = labelNumber (fun i : Fin m => l i.castSucc) by split_ifs <;> omega]
      exact ih (fun i : Fin m => l i.castSucc) j
    · rw [Fin.val_last, show m + 1 - 1 - m = 0 by omega, Nat.testBit_zero]
      cases l (Fin.last m) <;> simp [Nat.add_mod]

/-- C157, the values of the dual steps for all wavelets: a detail band has the l1 norms of the filters of the band before, of the letters of its label and of the
approximations of the finer levels. -/
theorem C157_steps_preceding (w : FilterBank L) (m level : ℕ) (i : Fin level) (l l' : {l : Fin m → Bool // l ≠ approxLabel m})
    (h : labelNumber l.1 = labelNumber l'.1 + 1) :
    dwlSteps w m level (some (i, l)) =
      (∏ k, if l'.1 k then l1norm w.decHi else l1norm w.decLo) * (l1norm w.decLo ^ m) ^ (i : ℕ) := by
  have hi := i.isLt
  have hl1 := labelNumber_pos l'.2
  have hl2 := labelNumber_lt l.1
  have hb := testBit_labelNumber l'.1
  simp only [dwlSteps, decFuncMult]
  rw [h]
  generalize labelNumber l'.1 = t at *
  generalize (i : ℕ) = i at *
  have hM : 0 < 2 ^ m - 1 := by omega
  have e1 : ((level - 1 - i) * (2 ^ m - 1) + (t + 1 - 1) - 1) = (t - 1) + (2 ^ m - 1) * (level - 1 - i) := by
    rw [Nat.mul_comm]; omega
  rw [if_neg (by omega), e1, Nat.add_mul_mod_self_left, Nat.add_mul_div_left _ _ hM, Nat.mod_eq_of_lt (by omega), Nat.div_eq_of_lt (by omega)]
  congr 1
  · unfold labelMult
    refine prod_congr rfl fun k _ => ?_
    rw [show t - 1 + 1 = t by omega, hb k]
  · congr 1
    omega

/-- C157, the values of the dual steps for orthogonal wavelets, `p` being the l1 norm of the low-pass filter to the power of the number of axes: that of the
approximation is `p ^ level`, those of the details of level `i` (0: the finest) `p ^ (i + 1)`, except that the first label of every level but the coarsest has the step
of the next coarser level. -/
theorem C157_steps_value {w : FilterBank L} (h : OrthogonalWavelet w) (m level : ℕ) :
    dwlSteps w m level none = (l1norm w.decLo ^ m) ^ level ∧
    ∀ i l, dwlSteps w m level (some (i, l)) =
      (l1norm w.decLo ^ m) ^ ((i : ℕ) + if labelNumber l.1 = 1 ∧ (i : ℕ) + 1 < level then 2 else 1) := by
  obtain ⟨-, h2, -, -⟩ := h.norms
  refine ⟨by simp only [dwlSteps, h2, decFuncMult_eq, if_true], fun i l => ?_⟩
  simp only [dwlSteps, h2, decFuncMult_eq]
  have hi := i.isLt
  have hl1 := labelNumber_pos l.2
  have hl2 := labelNumber_lt l.1
  generalize labelNumber l.1 = t at *
  generalize (i : ℕ) = i at *
  obtain ⟨M, hM⟩ : ∃ M, 2 ^ m - 1 = M + 1 := ⟨2 ^ m - 2, by omega⟩
  rw [hM]
  have ht : t ≤ M + 1 := by omega
  by_cases hc : (level - 1 - i) * (M + 1) + (t - 1) = 0
  · rw [if_pos hc]
    have h0 : (level - 1 - i) = 0 := by
      rcases Nat.eq_zero_or_pos (level - 1 - i) with h0 | h0
      · exact h0
      · have := Nat.mul_pos h0 (Nat.succ_pos M)
        have : 0 < (level - 1 - i) * (M + 1) := this
        omega
    rw [if_neg (by omega)]
    congr 1
    omega
  · rw [if_neg hc, ← pow_succ']
    congr 1
    by_cases h1 : t = 1
    · subst h1
      have hpos : 0 < level - 1 - i := by
        rcases Nat.eq_zero_or_pos (level - 1 - i) with h0 | h0
        · rw [h0] at hc; simp at hc
        · exact h0
      rw [if_pos ⟨rfl, by omega⟩]
      obtain ⟨k, hk⟩ : ∃ k, level - 1 - i = k + 1 := ⟨level - 1 - i - 1, by omega⟩
      rw [hk]
      have e : ((k + 1) * (M + 1) + (1 - 1) - 1) / (M + 1) = k := by
        rw [show (k + 1) * (M + 1) + (1 - 1) - 1 = M + (M + 1) * k by
          have : (k + 1) * (M + 1) = M + (M + 1) * k + 1 := by ring
          omega, Nat.add_mul_div_left _ _ (Nat.succ_pos M), Nat.div_eq_of_lt (Nat.lt_succ_self M)]
        omega
      rw [e]
      omega
    · rw [if_neg (fun hh => h1 hh.1)]
      have e : ((level - 1 - i) * (M + 1) + (t - 1) - 1) / (M + 1) = level - 1 - i := by
        rw [show (level - 1 - i) * (M + 1) + (t - 1) - 1 = (t - 2) + (M + 1) * (level - 1 - i) by
          rw [Nat.mul_comm]; omega, Nat.add_mul_div_left _ _ (Nat.succ_pos M), Nat.div_eq_of_lt (by omega)]
        omega
      rw [e]
      omega

/-- C157, partial: if the l1 norm of the low-pass filter to the power of the number of axes times the number of levels is at most the weight that the regularizer
publishes, the step sizes keep the contract. (Missing: the other cases, where they do not.) -/
theorem C157_step_contract_partial {w : FilterBank L} (h : OrthogonalWavelet w) (hL : Even L) {mode : DwtMode} (minApprox : Bool) {level : ℕ} {axes : Fin m → κ}
    {n : κ → ℕ} (hm : AdjointMode mode level axes n) (hτ : (l1norm w.decLo ^ m) ^ level ≤ dwlTau w m level) (weight : ℝ) :
    StepContract (dwlReg w mode minApprox level axes n weight) (fun x => ∑ q, dwlSteps w m level q.1 * dwtArr w mode level axes n x q ^ 2)
      (fun _ => dwlTau w m level) where
  published := fun _ => rfl
  nonneg := fun _ => le_trans (by have := h.one_le_l1; positivity) hτ
  energy := fun x => by
    rw [← mul_sum, ← dwtArr_energy h hL hm x, mul_sum]
    exact sum_le_sum fun q _ => mul_le_mul_of_nonneg_right ((dwlSteps_bounds h m level q.1).2.trans hτ) (sq_nonneg _)

/-! ## Convergence -/

/-- The penalty of the documentation: the weight times the l1 norm of the wavelet coefficients (all of them, or all but the approximation). -/
noncomputable def dwlPenalty (w : FilterBank L) (mode : DwtMode) (minApprox : Bool) (level : ℕ) (axes : Fin m → κ) (n : κ → ℕ) (weight : ℝ) :
    Penalty (Idx n) (DwlDual (level := level) mode L axes n) where
  K := dwtArr w mode level axes n
  Kt := dwtArrT w mode level axes n
  H := fun y => ∑ q, if minApprox = false ∧ q.1 = none then 0 else weight * |y q|

/-- The regularizer with its penalty, in the variables of the primal-dual algorithm. -/
noncomputable def dwlPreg (w : FilterBank L) (mode : DwtMode) (minApprox : Bool) (level : ℕ) (axes : Fin m → κ) (n : κ → ℕ) (weight : ℝ) :
    PReg (Idx n) (DwlDual (level := level) mode L axes n) where
  reg := dwlReg w mode minApprox level axes n weight
  scale := fun q => Real.sqrt (1 / dwlSteps w m level q.1)
  σ := 1
  c := fun _ => dwlTau w m level
  pen :=
    { K := fun x q => Real.sqrt (1 * dwlSteps w m level q.1) * dwtArr w mode level axes n x q
      Kt := fun u => dwtArrT w mode level axes n fun q => u q / Real.sqrt (1 / dwlSteps w m level q.1)
      H := fun y => ∑ q, if minApprox = false ∧ q.1 = none then 0 else weight * Real.sqrt (1 / dwlSteps w m level q.1) * |y q| }

theorem dwlPreg_penalty {w : FilterBank L} (h : OrthogonalWavelet w) (mode : DwtMode) (minApprox : Bool) (level : ℕ) (axes : Fin m → κ) (n : κ → ℕ) (weight : ℝ)
    (x : Arr (Idx n)) :
    (dwlPreg w mode minApprox level axes n weight).pen.H ((dwlPreg w mode minApprox level axes n weight).pen.K x) =
      (dwlPenalty w mode minApprox level axes n weight).H ((dwlPenalty w mode minApprox level axes n weight).K x) := by
  simp only [dwlPreg, dwlPenalty]
  refine sum_congr rfl fun q _ => ?_
  by_cases hq : minApprox = false ∧ q.1 = none
  · rw [if_pos hq, if_pos hq]
  · rw [if_neg hq, if_neg hq, abs_mul, abs_of_nonneg (Real.sqrt_nonneg _)]
    have := (sqrt_ratio one_pos (dwlSteps_bounds h m level q.1).1).1
    linear_combination (weight * |dwtArr w mode level axes n x q|) * this

/-- The regularizer stands for the penalty, if its steps keep the contract. -/
theorem C229_stands_for_partial {w : FilterBank L} (h : OrthogonalWavelet w) (hL : Even L) {mode : DwtMode} (minApprox : Bool) {level : ℕ} {axes : Fin m → κ}
    {n : κ → ℕ} (hm : AdjointMode mode level axes n) (hτ : (l1norm w.decLo ^ m) ^ level ≤ dwlTau w m level) {weight : ℝ} (hw : 0 < weight) :
    (dwlPreg w mode minApprox level axes n weight).Ok where
  scalepos := fun q => Real.sqrt_pos.2 (div_pos one_pos (dwlSteps_bounds h m level q.1).1)
  σpos := one_pos
  lin := by
    intro a b x y
    funext q
    simp only [dwlPreg]
    rw [dwtArr_lin]
    ring
  adj := by
    intro x u
    have := dwtArr_adjoint h hm x fun q => u q / Real.sqrt (1 / dwlSteps w m level q.1)
    unfold dot at this ⊢
    simp only [dwlPreg]
    rw [← this]
    refine sum_congr rfl fun q _ => ?_
    have e := (sqrt_ratio one_pos (dwlSteps_bounds h m level q.1).1).2.2
    rw [← e]
    ring
  convex := by
    refine ⟨convex_univ, fun x _ y _ a b ha hb _ => ?_⟩
    simp only [dwlPreg, smul_eq_mul, mul_sum, ← sum_add_distrib, Pi.add_apply, Pi.smul_apply]
    refine sum_le_sum fun q _ => ?_
    by_cases hq : minApprox = false ∧ q.1 = none
    · simp only [if_pos hq]; simp
    · simp only [if_neg hq]
      have h1 := abs_add_le (a * x q) (b * y q)
      rw [abs_mul, abs_mul, abs_of_nonneg ha, abs_of_nonneg hb] at h1
      have := mul_le_mul_of_nonneg_left h1 (mul_nonneg hw.le (Real.sqrt_nonneg (1 / dwlSteps w m level q.1)))
      linarith
  primal := fun q => by
    simp only [dwlPreg, dwlReg, Prod.mk.injEq, and_true]
    have e : (fun d : DwlDual (level := level) mode L axes n => Real.sqrt (1 / dwlSteps w m level d.1) * q d / Real.sqrt (1 / dwlSteps w m level d.1)) = q := by
      funext d
      have := Real.sqrt_pos.2 (div_pos one_pos (dwlSteps_bounds h m level d.1).1)
      field_simp
    rw [e]
    rfl
  dual := by
    refine ⟨fun u q => if minApprox = false ∧ q.1 = none then 0 else
      u q / max |u q| (weight * Real.sqrt (1 / dwlSteps w m level q.1)) * (weight * Real.sqrt (1 / dwlSteps w m level q.1)), fun q x d => ?_, fun u z => ?_⟩
    · have hs := dwlSteps_bounds h m level d.1
      have hr := sqrt_ratio one_pos hs.1
      have hp := Real.sqrt_pos.2 (div_pos one_pos hs.1)
      have pf : ∀ v : Arr (DwlDual (level := level) mode L axes n),
          ((DataTerm.new .l1 none).assignData none (.array fun q : DwlDual (level := level) mode L axes n =>
            dwlSteps w m level q.1)).proxDual v (.scalar weight) d = v d / max |v d| weight * weight := by
        intro v
        simp [proxDual, DataTerm.new, assignData, applyThreshold, innerNorm, subSigmaData, Attr.get]
      simp only [dwlPreg, dwlReg]
      rw [pf]
      by_cases hq : minApprox = false ∧ d.1 = none
      · simp only [if_pos hq]; simp
      · simp only [if_neg hq]
        rw [scaled_ball hp hw, mul_add, ← mul_assoc _ (dwlSteps w m level d.1) _, hr.2.1]
        simp only [one_mul]
        rfl
    · simp only [dwlPreg, div_one]
      rw [← sum_add_distrib]
      refine sum_le_sum fun q _ => ?_
      by_cases hq : minApprox = false ∧ q.1 = none
      · simp only [if_pos hq]; simp
      · simp only [if_neg hq]
        have hp := Real.sqrt_pos.2 (div_pos one_pos (dwlSteps_bounds h m level q.1).1)
        obtain ⟨-, hx, hs⟩ := cert_l1 (b := 0) (x := u q) (mul_pos hw hp) one_pos
        have h1 := hs (z q) trivial
        simp only [mul_zero, sub_zero, div_one] at hx h1
        simpa [fL1] using h1
  step := by
    have := C157_step_contract_partial h hL minApprox hm hτ weight
    refine ⟨this.published, this.nonneg, fun x => ?_⟩
    refine le_of_eq_of_le ?_ (this.energy x)
    refine sum_congr rfl fun q _ => ?_
    simp only [dwlPreg, one_mul]
    rw [mul_pow, Real.sq_sqrt (dwlSteps_bounds h m level q.1).1.le]

variable {ι : Type} [Fintype ι]

/-- C229, partial: when the transpose is the adjoint and the steps keep their contract, a primal-dual reconstruction with the decimated wavelet regularizer
converges to a minimiser of the data term plus the weight times the l1 norm of the wavelet coefficients. (Missing: the modes whose transpose is not the adjoint,
and more levels, where it fails.) -/
theorem C229_converges_partial {w : FilterBank L} (h : OrthogonalWavelet w) (hL : Even L) {mode : DwtMode} (minApprox : Bool) {level : ℕ} {axes : Fin m → κ}
    {n : κ → ℕ} (hm : AdjointMode mode level axes n) (hτ : (l1norm w.decLo ^ m) ^ level ≤ dwlTau w m level) {weight : ℝ} (hw : 0 < weight)
    {M : ι → Idx n → ℝ} {S : Solver (Idx n) ι (Arr (DwlDual (level := level) mode L axes n))} {b : Arr ι} {a : Args (Idx n) ι} {rnd : Arr ι}
    (hregs : S.regs = [dwlReg w mode minApprox level axes n weight])
    (hk : ConvexKind S.term.kind) (hT : S.tolerance = none) (hω : 0 < S.relaxation) (hω1 : S.relaxation < 1)
    (hs : SensibleScale M a) (htw : ∀ i, trainWeight a i = 0 ∨ trainWeight a i = 1)
    (hcols : ∀ j, (∑ i, |M i j|) + dwlTau w m level ≤ 100000)
    (hsol : ∃ x, IsSolution S M a b [dwlPenalty w mode minApprox level axes n weight] x)
    (hint : ∃ x, Admissible a x ∧ ∀ i, trainWeight a i ≠ 0 →
      S.term.addBackground (fun i => ∑ j, M i j * x j) i ∈ interior (pixelFunctional S.term.kind (b i) i).dom)
    {xs : ℕ → Arr (Idx n)} (hrun : ∀ N, ∃ info S', pdhg S (matrixOp M) b { a with iterations := N } true rnd = .ok (xs N, info, S')) :
    ∃ x, IsSolution S M a b [dwlPenalty w mode minApprox level axes n weight] x ∧ Tendsto xs atTop (𝓝 x) := by
  have hsame := fun x => same_penalty (S := S) (M := M) (a := a) (b := b) (dwlPreg_penalty h mode minApprox level axes n weight) x
  obtain ⟨x0, h0⟩ := hsol
  obtain ⟨x, hx, hl⟩ := C141_pdhg_converges (gs := [dwlPreg w mode minApprox level axes n weight]) hregs
    (by simp only [List.mem_singleton]; rintro g rfl; exact C229_stands_for_partial h hL minApprox hm hτ hw) hk hT hω hω1 hs htw
    (by simpa [dwlPreg] using hcols) ⟨x0, (hsame x0).2 h0⟩ hint hrun
  exact ⟨x, (hsame x).1 hx, hl⟩

/-- C229, with limits on the values: nothing has to be assumed about solutions. (Missing: as in `C229_converges_partial`.) -/
theorem C229_converges_limits_partial {w : FilterBank L} (h : OrthogonalWavelet w) (hL : Even L) {mode : DwtMode} (minApprox : Bool) {level : ℕ} {axes : Fin m → κ}
    {n : κ → ℕ} (hm : AdjointMode mode level axes n) (hτ : (l1norm w.decLo ^ m) ^ level ≤ dwlTau w m level) {weight : ℝ} (hw : 0 < weight)
    {M : ι → Idx n → ℝ} {S : Solver (Idx n) ι (Arr (DwlDual (level := level) mode L axes n))} {b : Arr ι} {a : Args (Idx n) ι} {rnd : Arr ι}
    (hregs : S.regs = [dwlReg w mode minApprox level axes n weight])
    (hk : ConvexKind S.term.kind) (hkl : S.term.kind ≠ .kl) (hT : S.tolerance = none) (hω : 0 < S.relaxation) (hω1 : S.relaxation < 1)
    (hs : SensibleScale M a) (htw : ∀ i, trainWeight a i = 0 ∨ trainWeight a i = 1)
    (hcols : ∀ j, (∑ i, |M i j|) + dwlTau w m level ≤ 100000)
    (hlo : a.lower.isSome) (hup : a.upper.isSome) (hlim : SensibleLimits a)
    {xs : ℕ → Arr (Idx n)} (hrun : ∀ N, ∃ info S', pdhg S (matrixOp M) b { a with iterations := N } true rnd = .ok (xs N, info, S')) :
    ∃ x, IsSolution S M a b [dwlPenalty w mode minApprox level axes n weight] x ∧ Tendsto xs atTop (𝓝 x) := by
  have hsame := fun x => same_penalty (S := S) (M := M) (a := a) (b := b) (dwlPreg_penalty h mode minApprox level axes n weight) x
  obtain ⟨x, hx, hl⟩ := C141_pdhg_converges_limits (gs := [dwlPreg w mode minApprox level axes n weight]) hregs
    (by simp only [List.mem_singleton]; rintro g rfl; exact C229_stands_for_partial h hL minApprox hm hτ hw) hk hkl hT hω hω1 hs htw
    (by simpa [dwlPreg] using hcols) hlo hup hlim hrun
  exact ⟨x, (hsame x).1 hx, hl⟩

end Verif
