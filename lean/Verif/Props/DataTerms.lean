import Mathlib.Analysis.SpecialFunctions.Log.Deriv
import Verif.Lemmas.DataTerms
import Mathlib.Algebra.BigOperators.Fin

/-!
# Properties C16–C22: data-fidelity terms
-/

namespace Verif.Props
open Verif Verif.Spec DataTerm

set_option linter.unusedSectionVars false

variable {ι κ : Type} [Fintype ι] [Fintype κ]

/-! ## C16 – the dual update (update_dual followed by apply_proximal_dual) is the exact proximal operator
of the convex conjugate of the documented functional of "projection + background". -/

/-- l2 term. -/
theorem C16_l2 (bg data : Option (Attr ι)) (σ : Attr ι) (p proj : Arr ι) (i : ι) (hσ : 0 < σ.get i) :
    let t := (DataTerm.new .l2 bg).assignData data σ
    IsProxConj ((fL2 (optVal data i)).shift (optVal bg i)) (σ.get i) (p i + σ.get i * proj i)
      (t.proxDual (t.updateDual p proj) (.scalar 1) i) := by
  intro t
  simp only [t]
  rw [proxDual_l2, updateDual_eq]
  exact Cert.isProxConj hσ (Cert.shift (cert_l2 hσ))

/-- Weighted l2 term, non-negative weights; a zero weight means "no information at this pixel". -/
theorem C16_wl2 (w : Attr ι) (bg data : Option (Attr ι)) (σ : Attr ι) (p proj : Arr ι) (i : ι)
    (hσ : 0 < σ.get i) (hw : 0 ≤ w.get i) :
    let t := (DataTerm.new (.wl2 w) bg).assignData data σ
    IsProxConj ((fWL2 (w.get i) (optVal data i)).shift (optVal bg i)) (σ.get i) (p i + σ.get i * proj i)
      (t.proxDual (t.updateDual p proj) (.scalar 1) i) := by
  intro t
  simp only [t]
  rw [proxDual_wl2, updateDual_eq]
  rcases hw.lt_or_eq with hw | hw
  · rw [if_neg hw.ne']
    exact Cert.isProxConj hσ (Cert.shift (cert_wl2 hw hσ))
  · rw [if_pos hw.symm, mul_zero, ← hw]
    exact Cert.isProxConj hσ (Cert.shift (cert_wl2_zero hσ))

/-- l1 term with a positive weight (`weight` argument, default 1). -/
theorem C16_l1 (bg data : Option (Attr ι)) (σ w : Attr ι) (p proj : Arr ι) (i : ι)
    (hσ : 0 < σ.get i) (hw : 0 < w.get i) :
    let t := (DataTerm.new .l1 bg).assignData data σ
    IsProxConj ((fL1 (w.get i) (optVal data i)).shift (optVal bg i)) (σ.get i) (p i + σ.get i * proj i)
      (t.proxDual (t.updateDual p proj) w i) := by
  intro t
  simp only [t]
  rw [proxDual_l1, updateDual_eq]
  exact Cert.isProxConj hσ (Cert.shift (cert_l1 hw hσ))

/-- Huber term (element-wise version). -/
theorem C16_huber (a : Attr ι) (row) (bg data : Option (Attr ι)) (σ : Attr ι) (p proj : Arr ι) (i : ι)
    (hσ : 0 < σ.get i) (ha : 0 < a.get i) :
    let t := (DataTerm.new (.huber a none row) bg).assignData data σ
    IsProxConj ((fHuber (a.get i) (optVal data i)).shift (optVal bg i)) (σ.get i) (p i + σ.get i * proj i)
      (t.proxDual (t.updateDual p proj) (.scalar 1) i) := by
  intro t
  simp only [t]
  rw [proxDual_huber, updateDual_eq]
  exact Cert.isProxConj hσ (Cert.shift (cert_huber ha hσ))

/-- Kullback–Leibler term (negative data are treated as zero). -/
theorem C16_kl (bg data : Option (Attr ι)) (σ : Attr ι) (p proj : Arr ι) (i : ι) (hσ : 0 < σ.get i) :
    let t := (DataTerm.new .kl bg).assignData data σ
    IsProxConj ((fKL (max (optVal data i) 0)).shift (optVal bg i)) (σ.get i) (p i + σ.get i * proj i)
      (t.proxDual (t.updateDual p proj) (.scalar 1) i) := by
  intro t
  simp only [t]
  rw [proxDual_kl, updateDual_eq]
  exact Cert.isProxConj hσ (Cert.shift (cert_kl (le_max_right _ _) hσ))

/-- l2-ball term: the dual update is exact for the documented functional divided by `ε`. -/
theorem C16_l2b_partial (e : Attr ι) (bg data : Option (Attr ι)) (σ : Attr ι) (p proj : Arr ι) (i : ι)
    (hσ : 0 < σ.get i) (he : 0 < e.get i) :
    let t := (DataTerm.new (.l2b e) bg).assignData data σ
    IsProxConj ((fL2bScaled (e.get i) (optVal data i)).shift (optVal bg i)) (σ.get i) (p i + σ.get i * proj i)
      (t.proxDual (t.updateDual p proj) (.scalar 1) i) := by
  intro t
  simp only [t]
  rw [proxDual_l2b, updateDual_eq]
  exact Cert.isProxConj hσ (Cert.shift (cert_l2b he hσ))

/-- l1-ball term: the code thresholds by `ε` instead of `σ ε`, so the dual update is not the proximal operator
of the conjugate of the documented functional as soon as `σ ≠ 1`. -/
theorem C16_l1b_violated :
    ¬ ∀ (e σ : Attr Unit) (p proj : Arr Unit), 0 < σ.get () → 0 < e.get () →
      let t := (DataTerm.new (.l1b e) none).assignData none σ
      IsProxConj (fL1b (e.get ()) 0) (σ.get ()) (p () + σ.get () * proj ())
        (t.proxDual (t.updateDual p proj) (.scalar 1) ()) := by
  intro h
  have h1 := h (.scalar 1) (.scalar (1/2)) (fun _ => 1) (fun _ => 0) (by norm_num) (by norm_num)
  simp only at h1
  rw [proxDual_l1b, updateDual_eq] at h1
  have hz : softThreshold ((1:ℝ) + 1/2 * 0 + 1/2 * 0 - 1/2 * 0) 1 = 0 :=
    softThreshold_of_abs (by norm_num)
  simp only [Attr.get_scalar, optVal, DataTerm.new] at h1
  rw [hz] at h1
  have h2 : IsProxConj (fL1b 1 0) (1/2) (1 + 1/2 * 0) (1/2) := by
    refine Cert.isProxConj (y := 1) (by norm_num) ⟨trivial, by norm_num, fun z _ => ?_⟩
    simp only [fL1b]
    rw [show |(1:ℝ) - 0| - 1 = 0 by norm_num, max_self]
    rcases le_total (z - 0) 1 with h0 | h0
    · exact le_trans (by linarith) (le_max_right _ _)
    · refine le_trans ?_ (le_max_left _ _)
      rw [abs_of_nonneg (by linarith)]; linarith
  have := h1.unique h2
  norm_num at this

/-- Non-vacuity: a two-pixel weighted l2 term with background. -/
example : IsProxConj ((fWL2 2 3).shift 1) (1/2) (4 + 1/2 * 6)
    (((DataTerm.new (.wl2 (.array ![2, 0])) (some (.scalar 1))).assignData (some (.array ![3, 5])) (.scalar (1/2))).proxDual
      (((DataTerm.new (.wl2 (.array ![2, 0])) (some (.scalar 1))).assignData (some (.array ![3, 5])) (.scalar (1/2))).updateDual
        ![4, 0] ![6, 1]) (.scalar 1) (0 : Fin 2)) := by
  have := C16_wl2 (ι := Fin 2) (.array ![2, 0]) (some (.scalar 1)) (some (.array ![3, 5])) (.scalar (1/2)) ![4, 0] ![6, 1] 0
    (by norm_num) (by norm_num)
  simpa [optVal] using this

/-! ## C17 – `apply_proximal_primal` is the exact proximal operator of the documented functional. -/

theorem C17_l2 (data : Option (Attr ι)) (σ τ : Attr ι) (x : Arr ι) (i : ι) (hτ : 0 < τ.get i) :
    ∃ r, ((DataTerm.new .l2 none).assignData data σ).proxPrimal x τ = some r ∧
      IsProx (fL2 (optVal data i)) (τ.get i) (x i) (r i) := by
  refine ⟨_, rfl, ?_⟩
  have := Cert.isProx hτ (cert_l2 (b := optVal data i) (x := x i / τ.get i) (inv_pos.mpr hτ))
  convert this using 1
  have h1 : 1 + τ.get i ≠ 0 := by positivity
  cases data <;> simp [DataTerm.assignData, optVal] <;> field_simp <;> ring

theorem C17_wl2 (w : Attr ι) (data : Option (Attr ι)) (σ τ : Attr ι) (x : Arr ι) (i : ι) (hτ : 0 < τ.get i)
    (hw : 0 ≤ w.get i) :
    ∃ r, ((DataTerm.new (.wl2 w) none).assignData data σ).proxPrimal x τ = some r ∧
      IsProx (fWL2 (w.get i) (optVal data i)) (τ.get i) (x i) (r i) := by
  refine ⟨_, rfl, ?_⟩
  rcases hw.lt_or_eq with hw | hw
  · have := Cert.isProx hτ (cert_wl2 (b := optVal data i) (x := x i / τ.get i) hw (inv_pos.mpr hτ))
    convert this using 1
    have h1 : 1 + τ.get i * w.get i ≠ 0 := by positivity
    have h2 : w.get i * τ.get i + 1 ≠ 0 := by positivity
    cases data <;> simp [DataTerm.assignData, optVal] <;> field_simp <;> ring
  · refine isProx_of_subgrad (g := 0) hτ trivial ?_ (fun z _ => by simp [fWL2, ← hw])
    cases data <;> simp [DataTerm.assignData, ← hw]

theorem C17_l1 (data : Option (Attr ι)) (σ τ : Attr ι) (x : Arr ι) (i : ι) (hτ : 0 < τ.get i) :
    ∃ r, ((DataTerm.new .l1 none).assignData data σ).proxPrimal x τ = some r ∧
      IsProx (fL1 1 (optVal data i)) (τ.get i) (x i) (r i) := by
  refine ⟨_, rfl, ?_⟩
  have hr : ∀ r : ℝ, r = softThreshold (x i - optVal data i) (τ.get i) + optVal data i →
      IsProx (fL1 1 (optVal data i)) (τ.get i) (x i) r := by
    intro r hr
    set b := optVal data i
    rcases tri (x i - b) (τ.get i) with h | h | h
    · rw [softThreshold_of_ge hτ.le h] at hr
      refine isProx_of_subgrad (g := 1) hτ trivial (by rw [hr]; ring) (fun z _ => ?_)
      simp only [fL1]
      rw [abs_of_nonneg (by rw [hr]; linarith : 0 ≤ r - b)]
      linarith [le_abs_self (z - b)]
    · rw [softThreshold_of_le hτ.le h] at hr
      refine isProx_of_subgrad (g := -1) hτ trivial (by rw [hr]; ring) (fun z _ => ?_)
      simp only [fL1]
      rw [abs_of_nonpos (by rw [hr]; linarith : r - b ≤ 0)]
      linarith [neg_abs_le (z - b)]
    · rw [softThreshold_of_abs h] at hr
      refine isProx_of_subgrad (g := (x i - b) / τ.get i) hτ trivial (by rw [hr]; field_simp; ring) (fun z _ => ?_)
      simp only [fL1]
      rw [hr]
      simp only [zero_add, sub_self, abs_zero, mul_zero, one_mul]
      calc (x i - b) / τ.get i * (z - b) ≤ |(x i - b) / τ.get i * (z - b)| := le_abs_self _
        _ = |x i - b| / τ.get i * |z - b| := by rw [abs_mul, abs_div, abs_of_pos hτ]
        _ ≤ 1 * |z - b| := by
          refine mul_le_mul_of_nonneg_right ?_ (abs_nonneg _)
          rw [div_le_one hτ]; exact h
        _ = |z - b| := one_mul _
  apply hr
  cases data <;> simp [DataTerm.assignData, optVal]

theorem C17_kl (data : Attr ι) (σ τ : Attr ι) (x : Arr ι) (i : ι) (hτ : 0 < τ.get i) :
    ∃ r, ((DataTerm.new .kl none).assignData (some data) σ).proxPrimal x τ = some r ∧
      IsProx (fKL (max (data.get i) 0)) (τ.get i) (x i) (r i) := by
  refine ⟨_, rfl, ?_⟩
  have := Cert.isProx hτ (cert_kl (x := x i / τ.get i) (le_max_right (data.get i) 0) (inv_pos.mpr hτ))
  convert this using 1
  simp only [DataTerm.assignData]
  set b := max (data.get i) 0
  set T := τ.get i
  have e : (x i / T - 1) ^ 2 + 4 * T⁻¹ * b = ((x i - T) ^ 2 + 4 * T * b) / T ^ 2 := by field_simp
  rw [e, Real.sqrt_div' _ (by positivity), Real.sqrt_sq hτ.le]
  field_simp; ring

/-- Without data the KL proximal is the exact one (`max(x - τ, 0)`) up to the floor `eps`. -/
theorem C17_kl_nodata_partial (σ τ : Attr ι) (x : Arr ι) (i : ι) (hτ : 0 < τ.get i) :
    ∃ r, ((DataTerm.new .kl none).assignData none σ).proxPrimal x τ = some r ∧
      ∃ exact, IsProx (fKL 0) (τ.get i) (x i) exact ∧ exact ≤ r i ∧ r i ≤ exact + eps ∧ 0 < r i := by
  have he : 0 < eps := by unfold eps; norm_num
  refine ⟨_, rfl, max (x i - τ.get i) 0, ?_, ?_, ?_, ?_⟩
  · rcases le_total (x i - τ.get i) 0 with h | h
    · rw [max_eq_right h]
      refine isProx_of_subgrad (g := x i / τ.get i) hτ (Or.inr ⟨rfl, rfl⟩) (by field_simp; ring) (fun z hz => ?_)
      have hz0 : 0 ≤ z := by
        rcases hz with hz | hz
        · exact hz.le
        · exact hz.1.ge
      have : x i / τ.get i ≤ 1 := by rw [div_le_one hτ]; linarith
      simp only [fKL]; nlinarith
    · rw [max_eq_left h]
      refine isProx_of_subgrad (g := 1) hτ ?_ (by ring) (fun z _ => by simp only [fKL]; linarith)
      rcases h.lt_or_eq with h | h
      · exact Or.inl h
      · exact Or.inr ⟨h.symm, rfl⟩
  · exact max_le_max le_rfl he.le
  · show max (x i - τ.get i) eps ≤ _
    rcases le_total (x i - τ.get i) 0 with h | h
    · rw [max_eq_right h, max_eq_right (by linarith)]; linarith
    · rw [max_eq_left h]; exact max_le (by linarith) (by linarith)
  · exact lt_of_lt_of_le he (le_max_right _ _)

/-- l2-ball: a point inside the ball is moved although the documented functional is zero around it. -/
theorem C17_l2b_violated :
    ¬ ∀ (e τ : Attr Unit) (x : Arr Unit) (r : Arr Unit), 0 < τ.get () → 0 < e.get () →
      ((DataTerm.new (.l2b e) none).assignData none (.scalar 1)).proxPrimal x τ = some r →
      IsProx (fL2b (e.get ()) 0) (τ.get ()) (x ()) (r ()) := by
  intro h
  have h1 := h (.scalar 1) (.scalar 1) (fun _ => 1/2) _ (by norm_num) (by norm_num) rfl
  have hz : softThreshold (1/2 : ℝ) (Real.sqrt 1 * 1 / (1 + 1 * 1)) = 0 :=
    softThreshold_of_abs (by norm_num)
  simp only [DataTerm.assignData, Attr.get_scalar] at h1
  rw [hz] at h1
  have h2 : IsProx (fL2b 1 0) 1 (1/2) (1/2) := by
    refine isProx_of_subgrad (g := 0) one_pos trivial (by ring) (fun z _ => ?_)
    simp only [fL2b, Real.sqrt_one]
    rw [max_eq_right (by norm_num : |(1/2:ℝ) - 0| - 1 ≤ 0)]
    have := sq_nonneg (max (|z - 0| - 1) 0)
    linarith
  have := h1.unique h2
  norm_num at this

/-- l1-ball: the result is scaled by `τ/(1+τ)` instead of being shifted. -/
theorem C17_l1b_violated :
    ¬ ∀ (e τ : Attr Unit) (x : Arr Unit) (r : Arr Unit), 0 < τ.get () → 0 < e.get () →
      ((DataTerm.new (.l1b e) none).assignData none (.scalar 1)).proxPrimal x τ = some r →
      IsProx (fL1b (e.get ()) 0) (τ.get ()) (x ()) (r ()) := by
  intro h
  have h1 := h (.scalar 1) (.scalar 1) (fun _ => 3) _ (by norm_num) (by norm_num) rfl
  have hz : softThreshold (3 : ℝ) 1 = 2 := by rw [softThreshold_of_ge] <;> norm_num
  simp only [DataTerm.assignData, Attr.get_scalar] at h1
  rw [hz] at h1
  have h2 : IsProx (fL1b 1 0) 1 3 2 := by
    refine isProx_of_subgrad (g := 1) one_pos trivial (by ring) (fun z _ => ?_)
    simp only [fL1b]
    rw [show |(2:ℝ) - 0| - 1 = 1 by norm_num, max_eq_left (by norm_num : (0:ℝ) ≤ 1)]
    refine le_trans ?_ (le_max_left _ _)
    have := le_abs_self (z - 0)
    linarith
  have := h1.unique h2
  norm_num at this

/-- The primal proximal operators ignore the background: with a background the result is not the proximal
operator of `x ↦ f(x + background)`. -/
theorem C17_background_violated :
    ¬ ∀ (bg τ : Attr Unit) (x : Arr Unit) (r : Arr Unit), 0 < τ.get () →
      ((DataTerm.new .l2 (some bg)).assignData none (.scalar 1)).proxPrimal x τ = some r →
      IsProx ((fL2 0).shift (bg.get ())) (τ.get ()) (x ()) (r ()) := by
  intro h
  have h1 := h (.scalar 1) (.scalar 1) (fun _ => 0) _ (by norm_num) rfl
  simp only [DataTerm.assignData, Attr.get_scalar] at h1
  have h2 : IsProx ((fL2 0).shift 1) 1 0 (-1/2) := by
    refine isProx_of_subgrad (g := 1/2) one_pos trivial (by ring) (fun z _ => ?_)
    simp only [fL2, Functional.shift]
    nlinarith [sq_nonneg (z + 1/2)]
  have := h1.unique h2
  norm_num at this

example : ∃ r, ((DataTerm.new .kl none).assignData (some (.array ![3, -1])) (.scalar 1)).proxPrimal ![2, 0.5] (.scalar 2)
    = some r ∧ IsProx (fKL (max 3 0)) 2 2 (r (0 : Fin 2)) := by
  obtain ⟨r, h, h'⟩ := C17_kl (ι := Fin 2) (.array ![3, -1]) (.scalar 1) (.scalar 2) ![2, 0.5] 0 (by norm_num)
  exact ⟨r, h, by simpa using h'⟩

/-! ## C18 – Moreau identity between `apply_proximal_primal` and `apply_proximal_dual`. -/

/-- `x = prox_{τ f}(x) + τ · prox_{f*/τ}(x/τ)` for the l2, weighted l2, l1 and KL (with data) terms. -/
theorem C18_moreau (kind : Kind ι) (data : Attr ι) (σ τ : Attr ι) (x : Arr ι) (i : ι) (hτ : 0 < τ.get i)
    (hk : kind = .l2 ∨ (∃ w : Attr ι, kind = .wl2 w ∧ 0 ≤ w.get i) ∨ kind = .l1 ∨ kind = .kl) :
    ∃ r, ((DataTerm.new kind none).assignData (some data) σ).proxPrimal x τ = some r ∧
      x i = r i + τ.get i *
        ((DataTerm.new kind none).assignData (some data) (τ.map (·⁻¹))).proxDual (fun j => x j / τ.get j) (.scalar 1) i := by
  have key : ∀ (F : Functional) (r p : ℝ), IsProx F (τ.get i) (x i) r →
      (∃ y, Cert F (τ.get i)⁻¹ (x i / τ.get i) p y) → x i = r + τ.get i * p := by
    rintro F r p hr ⟨y, hy⟩
    have h2 := hr.unique (hy.isProx hτ)
    obtain ⟨-, hx, -⟩ := hy
    rw [h2]
    field_simp at hx
    linarith
  have hi : 0 < (τ.get i)⁻¹ := inv_pos.mpr hτ
  rcases hk with rfl | ⟨w, rfl, hw⟩ | rfl | rfl
  · obtain ⟨r, h, h'⟩ := C17_l2 (some data) σ τ x i hτ
    refine ⟨r, h, key _ _ _ h' ?_⟩
    rw [proxDual_l2]
    simp only [Attr.get_map]
    exact ⟨_, cert_l2 hi⟩
  · obtain ⟨r, h, h'⟩ := C17_wl2 w (some data) σ τ x i hτ hw
    refine ⟨r, h, key _ _ _ h' ?_⟩
    rw [proxDual_wl2]
    simp only [Attr.get_map]
    rcases hw.lt_or_eq with hw | hw
    · rw [if_neg hw.ne']; exact ⟨_, cert_wl2 hw hi⟩
    · rw [if_pos hw.symm, mul_zero, ← hw]; exact ⟨_, cert_wl2_zero hi⟩
  · obtain ⟨r, h, h'⟩ := C17_l1 (some data) σ τ x i hτ
    refine ⟨r, h, key _ _ _ h' ?_⟩
    rw [proxDual_l1]
    simp only [Attr.get_map, Attr.get_scalar]
    exact ⟨_, cert_l1 one_pos hi⟩
  · obtain ⟨r, h, h'⟩ := C17_kl data σ τ x i hτ
    refine ⟨r, h, key _ _ _ h' ?_⟩
    rw [proxDual_kl]
    simp only [Attr.get_map, optVal]
    exact ⟨_, cert_kl (le_max_right _ _) hi⟩

example : ∃ r, ((DataTerm.new (.wl2 (.scalar 2)) none).assignData (some (.array ![3, -1])) (.scalar 1)).proxPrimal ![2, 0.5] (.scalar 4)
    = some r ∧ ![2, 0.5] (0 : Fin 2) = r 0 + 4 *
      ((DataTerm.new (.wl2 (.scalar 2)) none).assignData (some (.array ![3, -1])) ((Attr.scalar 4).map (·⁻¹))).proxDual
        (fun j => ![2, 0.5] j / 4) (.scalar 1) 0 :=
  C18_moreau (ι := Fin 2) (.wl2 (.scalar 2)) (.array ![3, -1]) (.scalar 1) (.scalar 4) ![2, 0.5] 0 (by norm_num)
    (Or.inr (Or.inl ⟨.scalar 2, rfl, by norm_num⟩))

/-! ## C19 – non-expansiveness. -/

/-- The class-specific admissibility of the parameters of a term (non-negative weights, positive tolerances). -/
def AdmissibleAt (kind : Kind ι) (i : ι) : Prop :=
  match kind with
  | .l2 => True
  | .wl2 w => 0 ≤ w.get i
  | .l2b e => 0 < e.get i
  | .huber e grp _ => 0 < e.get i ∧ grp = none
  | .l1 => True
  | .l1b e => 0 ≤ e.get i
  | .l12 _ => False
  | .kl => True

/-- The dual proximal operators of all element-wise terms are non-expansive at every pixel. -/
theorem C19_dual_nonexpansive (kind : Kind ι) (bg data : Option (Attr ι)) (σ : Attr ι) (p p' : Arr ι) (i : ι)
    (hσ : 0 < σ.get i) (hk : AdmissibleAt kind i) :
    let t := (DataTerm.new kind bg).assignData data σ
    |t.proxDual p (.scalar 1) i - t.proxDual p' (.scalar 1) i| ≤ |p i - p' i| := by
  intro t
  simp only [t]
  cases kind with
  | l2 => rw [proxDual_l2, proxDual_l2]; exact Cert.nonexp hσ (cert_l2 hσ) (cert_l2 hσ)
  | wl2 w =>
    rw [proxDual_wl2, proxDual_wl2]
    split_ifs with h
    · simp
    · have hw : 0 < w.get i := lt_of_le_of_ne hk (Ne.symm h)
      exact Cert.nonexp hσ (cert_wl2 hw hσ) (cert_wl2 hw hσ)
  | l2b e => rw [proxDual_l2b, proxDual_l2b]; exact Cert.nonexp hσ (cert_l2b hk hσ) (cert_l2b hk hσ)
  | huber e grp row =>
    obtain ⟨he, rfl⟩ := hk
    rw [proxDual_huber, proxDual_huber]; exact Cert.nonexp hσ (cert_huber he hσ) (cert_huber he hσ)
  | l1 =>
    rw [proxDual_l1, proxDual_l1]; exact Cert.nonexp hσ (cert_l1 one_pos hσ) (cert_l1 one_pos hσ)
  | l12 _ => exact hk.elim
  | l1b e =>
    rw [proxDual_l1b, proxDual_l1b]
    refine (ballProj_nonexp one_pos _ _).trans ((softThreshold_nonexp _ hk _ _).trans ?_)
    apply le_of_eq; congr 1; ring
  | kl =>
    rw [proxDual_kl, proxDual_kl]
    exact Cert.nonexp hσ (cert_kl (le_max_right _ _) hσ) (cert_kl (le_max_right _ _) hσ)

/-- The primal proximal operators are non-expansive (also the ball versions, which are not exact). -/
theorem C19_primal_nonexpansive (kind : Kind ι) (bg data : Option (Attr ι)) (σ τ : Attr ι) (x x' r r' : Arr ι) (i : ι)
    (hτ : 0 < τ.get i) (hk : AdmissibleAt kind i)
    (hr : ((DataTerm.new kind bg).assignData data σ).proxPrimal x τ = some r)
    (hr' : ((DataTerm.new kind bg).assignData data σ).proxPrimal x' τ = some r') :
    |r i - r' i| ≤ |x i - x' i| := by
  have scale : ∀ (a b c : ℝ), 0 ≤ c → c ≤ 1 → |a * c - b * c| ≤ |a - b| := by
    intro a b c h0 h1
    rw [← sub_mul, abs_mul, abs_of_nonneg h0]
    exact mul_le_of_le_one_right (abs_nonneg _) h1
  cases kind with
  | l2 =>
    simp only [DataTerm.proxPrimal, DataTerm.assignData, DataTerm.new, Option.some.injEq] at hr hr'
    subst hr hr'
    have := scale (x i + τ.get i * optVal data i) (x' i + τ.get i * optVal data i) (1 / (1 + τ.get i))
      (by positivity) (by rw [div_le_one (by positivity)]; linarith)
    simp only [mul_one_div] at this
    refine le_trans (le_of_eq ?_) (this.trans (le_of_eq ?_))
    · cases data <;> simp [optVal]
    · congr 1; ring
  | wl2 w =>
    have hw : 0 ≤ w.get i := hk
    simp only [DataTerm.proxPrimal, DataTerm.assignData, DataTerm.new, Option.some.injEq] at hr hr'
    subst hr hr'
    have := scale (x i + τ.get i * w.get i * optVal data i) (x' i + τ.get i * w.get i * optVal data i)
      (1 / (1 + τ.get i * w.get i))
      (by positivity) (by rw [div_le_one (by positivity)]; nlinarith)
    simp only [mul_one_div] at this
    refine le_trans (le_of_eq ?_) (this.trans (le_of_eq ?_))
    · cases data <;> simp [optVal]
    · congr 1; ring
  | l2b e =>
    have he : 0 < e.get i := hk
    simp only [DataTerm.proxPrimal, DataTerm.assignData, DataTerm.new, Option.some.injEq] at hr hr'
    subst hr hr'
    have h1 := softThreshold_nonexp (Real.sqrt (e.get i) * τ.get i / (1 + τ.get i * e.get i)) (by positivity)
      (x i - optVal data i) (x' i - optVal data i)
    have h2 := scale (softThreshold (x i - optVal data i) (Real.sqrt (e.get i) * τ.get i / (1 + τ.get i * e.get i)))
      (softThreshold (x' i - optVal data i) (Real.sqrt (e.get i) * τ.get i / (1 + τ.get i * e.get i)))
      (1 / (1 + τ.get i * e.get i))
      (by positivity) (by rw [div_le_one (by positivity)]; nlinarith)
    simp only [mul_one_div] at h2
    refine le_trans (le_of_eq ?_) (h2.trans (h1.trans (le_of_eq ?_)))
    · cases data <;> simp [optVal]
    · congr 1; ring
  | huber _ _ _ => simp [DataTerm.proxPrimal, DataTerm.assignData, DataTerm.new] at hr
  | l12 _ => exact hk.elim
  | l1 =>
    simp only [DataTerm.proxPrimal, DataTerm.assignData, DataTerm.new, Option.some.injEq] at hr hr'
    subst hr hr'
    have h1 := softThreshold_nonexp (τ.get i) hτ.le (x i - optVal data i) (x' i - optVal data i)
    refine le_trans (le_of_eq ?_) (h1.trans (le_of_eq ?_))
    · cases data <;> simp [optVal]
    · congr 1; ring
  | l1b e =>
    have he : 0 ≤ e.get i := hk
    simp only [DataTerm.proxPrimal, DataTerm.assignData, DataTerm.new, Option.some.injEq] at hr hr'
    subst hr hr'
    have h1 := softThreshold_nonexp (e.get i) he (x i - optVal data i) (x' i - optVal data i)
    have h2 := scale (softThreshold (x i - optVal data i) (e.get i)) (softThreshold (x' i - optVal data i) (e.get i))
      (τ.get i / (1 + τ.get i)) (by positivity) (by rw [div_le_one (by positivity)]; linarith)
    refine le_trans (le_of_eq ?_) (h2.trans (h1.trans (le_of_eq ?_)))
    · cases data <;> simp [optVal]
    · congr 1; ring
  | kl =>
    cases data with
    | none =>
      simp only [DataTerm.proxPrimal, DataTerm.assignData, DataTerm.new, Option.some.injEq] at hr hr'
      subst hr hr'
      refine (abs_max_sub_max_le_abs _ _ _).trans (le_of_eq ?_)
      congr 1; ring
    | some d =>
      have hb : ∀ bg', ((DataTerm.new .kl bg').assignData (some d) σ).proxPrimal x τ
          = ((DataTerm.new .kl bg).assignData (some d) σ).proxPrimal x τ := fun _ => rfl
      obtain ⟨q, hq, hq'⟩ := C17_kl d σ τ x i hτ
      obtain ⟨s, hs, hs'⟩ := C17_kl d σ τ x' i hτ
      have e1 : q = r := by
        have : some q = some r := by rw [← hq, ← hr]; rfl
        exact Option.some.inj this
      have e2 : s = r' := by
        have : some s = some r' := by rw [← hs, ← hr']; rfl
        exact Option.some.inj this
      subst e1 e2
      have c1 := cert_kl (x := x i / τ.get i) (le_max_right (d.get i) 0) (inv_pos.mpr hτ)
      have c2 := cert_kl (x := x' i / τ.get i) (le_max_right (d.get i) 0) (inv_pos.mpr hτ)
      have u1 := hq'.unique (c1.isProx hτ)
      have u2 := hs'.unique (c2.isProx hτ)
      rw [u1, u2]
      obtain ⟨m1, x1, s1⟩ := c1
      obtain ⟨m2, x2, s2⟩ := c2
      have a := s1 _ m2
      have b := s2 _ m1
      set y1 := (x i / τ.get i - (1 + x i / τ.get i - Real.sqrt ((x i / τ.get i - 1) ^ 2 + 4 * (τ.get i)⁻¹ * max (d.get i) 0)) / 2) / (τ.get i)⁻¹
      set y2 := (x' i / τ.get i - (1 + x' i / τ.get i - Real.sqrt ((x' i / τ.get i - 1) ^ 2 + 4 * (τ.get i)⁻¹ * max (d.get i) 0)) / 2) / (τ.get i)⁻¹
      set p1 := (1 + x i / τ.get i - Real.sqrt ((x i / τ.get i - 1) ^ 2 + 4 * (τ.get i)⁻¹ * max (d.get i) 0)) / 2
      set p2 := (1 + x' i / τ.get i - Real.sqrt ((x' i / τ.get i - 1) ^ 2 + 4 * (τ.get i)⁻¹ * max (d.get i) 0)) / 2
      have hx1 : x i = τ.get i * p1 + y1 := by field_simp at x1; linarith
      have hx2 : x' i = τ.get i * p2 + y2 := by field_simp at x2; linarith
      have mono : 0 ≤ (p1 - p2) * (y1 - y2) := by nlinarith
      have h3 : (y1 - y2) ^ 2 ≤ (y1 - y2) * (x i - x' i) := by
        rw [hx1, hx2]; nlinarith [mul_nonneg hτ.le mono]
      have h4 : |y1 - y2| * |y1 - y2| ≤ |y1 - y2| * |x i - x' i| := by
        rw [← abs_mul, ← abs_mul, abs_of_nonneg (mul_self_nonneg _)]
        exact (by nlinarith : (y1 - y2) * (y1 - y2) ≤ (y1 - y2) * (x i - x' i)).trans (le_abs_self _)
      by_cases h0 : |y1 - y2| = 0
      · rw [h0]; exact abs_nonneg _
      · exact le_of_mul_le_mul_left h4 (lt_of_le_of_ne (abs_nonneg _) (Ne.symm h0))

example : AdmissibleAt (.huber (.scalar 0.5) none (fun _ => ∅) : Kind (Fin 3)) 1 := ⟨by norm_num, rfl⟩

/-! ## C20 – slicing. -/

/-- The residual of a sliced term is the slice of the residual, for every selection `g` of pixels. -/
theorem C20_slice_residual (t : DataTerm ι) (g : κ → ι) (proj : Arr ι) (mask : Option (Arr ι)) (k : κ) :
    (t.slice g).residual (proj ∘ g) (mask.map (· ∘ g)) k = t.residual proj mask (g k) := by
  rcases t with ⟨kind, bg, data, sigma, sd, s1, se, oe⟩
  cases kind <;> cases bg <;> cases data <;> cases sd <;> cases mask <;>
    simp [DataTerm.residual, DataTerm.slice, DataTerm.addBackground, DataTerm.applyMask, DataTerm.proxDual]

/-- Likewise for the dual update and dual proximal operator of the element-wise terms. -/
theorem C20_slice_dual (t : DataTerm ι) (ht : t.Elementwise) (g : κ → ι) (p proj : Arr ι) (w : Attr ι) (k : κ) :
    (t.slice g).proxDual ((t.slice g).updateDual (p ∘ g) (proj ∘ g)) (w.slice g) k
      = t.proxDual (t.updateDual p proj) w (g k) := by
  rcases t with ⟨kind, bg, data, sigma, sd, s1, se, oe⟩
  cases kind with
  | huber e grp row =>
    cases grp with
    | none =>
      cases bg <;> cases data <;> cases sd <;>
        simp [DataTerm.proxDual, DataTerm.slice, DataTerm.updateDual, DataTerm.subSigmaData]
    | some _ => simp [DataTerm.Elementwise] at ht
  | l12 _ => simp [DataTerm.Elementwise] at ht
  | _ =>
    cases bg <;> cases data <;> cases sd <;>
      simp [DataTerm.proxDual, DataTerm.slice, DataTerm.updateDual, DataTerm.subSigmaData,
        DataTerm.applyThreshold, DataTerm.innerNorm]

/-- Slicing with a permutation/selection and assigning sliced data commute. -/
theorem C20_slice_assign (t : DataTerm ι) (g : κ → ι) (data : Option (Attr ι)) (σ : Attr ι) :
    (t.assignData data σ).slice g = (t.slice g).assignData (data.map (Attr.slice g)) (σ.slice g) := by
  have m1 : ∀ (f : ℝ → ℝ) (a : Attr ι), (a.map f).slice g = (a.slice g).map f := by
    intro f a; cases a <;> rfl
  have m2 : ∀ (f : ℝ → ℝ → ℝ) (a b : Attr ι), (Attr.map₂ f a b).slice g = Attr.map₂ f (a.slice g) (b.slice g) := by
    intro f a b; cases a <;> cases b <;> rfl
  rcases t with ⟨kind, bg, d, sigma, sd, s1, se, oe⟩
  cases kind <;> cases data <;>
    simp [DataTerm.assignData, DataTerm.slice, DataTerm.computeSigmaData, DataTerm.computeSigma1, m1, m2]

/-! ## C21 – residuals. -/

/-- The residual is zero at every masked-out pixel (every class). -/
theorem C21_masked_zero (t : DataTerm ι) (proj mask : Arr ι) (i : ι) (hm : mask i = 0) :
    t.residual proj (some mask) i = 0 := by
  rcases t with ⟨kind, bg, data, sigma, sd, s1, se, oe⟩
  cases kind <;> simp [DataTerm.residual, DataTerm.applyMask, hm]
  simp [softThreshold, npSign]

/-- A background is the same as adding it to the projection beforehand (every class). -/
theorem C21_background (t : DataTerm ι) (bg : Attr ι) (proj : Arr ι) (mask : Option (Arr ι)) :
    ({ t with background := some bg } : DataTerm ι).residual proj mask
      = ({ t with background := none } : DataTerm ι).residual (fun i => proj i + bg.get i) mask := by
  rcases t with ⟨kind, bg', data, sigma, sd, s1, se, oe⟩
  cases kind <;> rfl

/-- l2: the residual of a perfect fit is zero, and conversely. -/
theorem C21_l2_zero_iff (bg : Option (Attr ι)) (b : Attr ι) (σ : Attr ι) (proj : Arr ι) :
    let t := (DataTerm.new .l2 bg).assignData (some b) σ
    t.residualNorm (t.residual proj none) = 0 ↔ ∀ i, proj i + optVal bg i = b.get i := by
  intro t
  have : ∀ i, t.residual proj none i = b.get i - (proj i + optVal bg i) := by
    intro i; cases bg <;> simp [t, DataTerm.residual, DataTerm.assignData, DataTerm.new, DataTerm.applyMask,
      DataTerm.addBackground, optVal]
  show (∑ i, t.residual proj none i ^ 2) = 0 ↔ _
  rw [Finset.sum_eq_zero_iff_of_nonneg (fun i _ => sq_nonneg _)]
  simp only [Finset.mem_univ, true_implies, this]
  refine forall_congr' fun i => ?_
  rw [sq_eq_zero_iff, sub_eq_zero, eq_comm]

/-- KL, with and without the proximal: where the projection (with background) is above the numerical floor, the residual is zero
exactly at a perfect fit. -/
theorem C21_kl_zero_iff (bg : Option (Attr ι)) (b : Attr ι) (σ : Attr ι) (proj : Arr ι) (i : ι) (hb : 0 ≤ b.get i)
    (hσ : 0 < σ.get i) (hp : eps ≤ proj i + optVal bg i) :
    let t := (DataTerm.new .kl bg).assignData (some b) σ
    (t.residual proj none i = 0 ↔ proj i + optVal bg i = b.get i) ∧
      (t.residualKLplain proj none i = 0 ↔ proj i + optVal bg i = b.get i) := by
  intro t
  have hpp : t.addBackground proj i = proj i + optVal bg i := by
    cases bg <;> simp [t, DataTerm.assignData, DataTerm.new, DataTerm.addBackground, optVal]
  have heps : (0 : ℝ) < eps := by unfold eps; positivity
  set y := proj i + optVal bg i with hy
  have hy0 : 0 < y := lt_of_lt_of_le heps hp
  constructor
  · have e : t.residual proj none i
        = -((1 + y * σ.get i - Real.sqrt ((y * σ.get i - 1) ^ 2 + 4 * σ.get i * b.get i)) / 2) := by
      have h1 : t.sigmaData.map (fun a => a.get i) = some (4 * σ.get i * max (b.get i) 0) := by
        simp only [t, DataTerm.assignData, DataTerm.new, DataTerm.computeSigmaData]
        cases σ <;> cases b <;> simp [Attr.map₂, Attr.get]
      rcases hsd : t.sigmaData with _ | a
      · rw [hsd] at h1; simp at h1
      · rw [hsd] at h1
        simp only [Option.map_some, Option.some.injEq] at h1
        rw [max_eq_left hb] at h1
        show -((t.proxDual fun i => max (max (t.addBackground proj i) eps) eps * t.sigma.get i) i) = _
        simp only [DataTerm.proxDual]
        rw [show t.kind = .kl from rfl]
        simp only [hsd, hpp, max_eq_left hp, h1]
        rfl
    rw [e]
    constructor
    · intro h
      have h2 : Real.sqrt ((y * σ.get i - 1) ^ 2 + 4 * σ.get i * b.get i) = 1 + y * σ.get i := by linarith
      have h3 := Real.sq_sqrt (show 0 ≤ (y * σ.get i - 1) ^ 2 + 4 * σ.get i * b.get i by positivity)
      rw [h2] at h3
      have h4 : σ.get i * (y - b.get i) = 0 := by linarith
      rcases mul_eq_zero.1 h4 with h5 | h5
      · exact absurd h5 hσ.ne'
      · linarith
    · intro h
      rw [← h, show (y * σ.get i - 1) ^ 2 + 4 * σ.get i * y = (1 + y * σ.get i) ^ 2 by ring, Real.sqrt_sq (by positivity)]
      ring
  · have e : t.residualKLplain proj none i = -(1 - max (b.get i) 0 / max y eps) := by
      show -(1 - max (b.get i) 0 / max (t.addBackground proj i) eps) = _
      rw [hpp]
    rw [e, max_eq_left hb, max_eq_left hp]
    constructor
    · intro h
      have : b.get i / y = 1 := by linarith
      rw [div_eq_one_iff_eq hy0.ne'] at this
      exact this.symm
    · intro h
      rw [← h, div_self hy0.ne']; ring

/-- KL without the proximal: the residual is minus the derivative of the functional `y - b log y` at the projection plus background. -/
theorem C21_kl_gradient (bg : Option (Attr ι)) (b : Attr ι) (σ : Attr ι) (proj : Arr ι) (i : ι) (hb : 0 ≤ b.get i)
    (hp : eps ≤ proj i + optVal bg i) :
    HasDerivAt (fun y => y - b.get i * Real.log (y + optVal bg i))
      (-((DataTerm.new .kl bg).assignData (some b) σ).residualKLplain proj none i) (proj i) := by
  have heps : (0 : ℝ) < eps := by unfold eps; positivity
  have hy0 : 0 < proj i + optVal bg i := lt_of_lt_of_le heps hp
  have e : ((DataTerm.new .kl bg).assignData (some b) σ).residualKLplain proj none i
      = -(1 - max (b.get i) 0 / max (proj i + optVal bg i) eps) := by
    cases bg <;> simp [DataTerm.residualKLplain, DataTerm.assignData, DataTerm.new, DataTerm.addBackground, optVal, DataTerm.applyMask]
  rw [e, max_eq_left hb, max_eq_left hp, neg_neg]
  have h1 := ((hasDerivAt_id (proj i)).add_const (optVal bg i)).log hy0.ne'
  have h2 := (hasDerivAt_id (proj i)).fun_sub (h1.const_mul (b.get i))
  refine h2.congr_deriv ?_
  simp only [id]
  ring

/-- The residual norm of the l2, weighted l2, l2-ball, l1, l12 and KL terms does not depend on the sign of the
residual and is never negative. -/
theorem C21_norm_sign (t : DataTerm ι) (hk : ∀ e g r, t.kind ≠ .huber e g r) (d : Arr ι) :
    t.residualNorm (fun i => - d i) = t.residualNorm d ∧ 0 ≤ t.residualNorm d := by
  have hs : ∀ v s, |softThreshold (-v) s| = |softThreshold v s| := by
    intro v s
    unfold softThreshold npSign
    rw [abs_neg]
    rcases lt_trichotomy v 0 with h | h | h
    · rw [if_pos (by linarith), if_neg (by linarith), if_pos h]; simp
    · subst h; simp
    · rw [if_neg (by linarith), if_pos (by linarith), if_pos h]; simp
  have hb : ∀ (c : ι → ℕ) (f : ι → ℝ), (∀ i, 0 ≤ f i) → 0 ≤ ⨆ i, ∑ k ∈ Finset.univ.filter (fun k => c k = c i), f k :=
    fun c f hf => Real.iSup_nonneg fun i => Finset.sum_nonneg fun k _ => hf k
  rcases t with ⟨kind, bg, data, sigma, sd, s1, se, oe, co⟩
  cases kind with
  | huber e g r => exact absurd rfl (hk e g r)
  | l2 => exact ⟨by simp [DataTerm.residualNorm], Finset.sum_nonneg fun _ _ => sq_nonneg _⟩
  | wl2 w => exact ⟨by simp [DataTerm.residualNorm, neg_div], Finset.sum_nonneg fun _ _ => sq_nonneg _⟩
  | l2b e => exact ⟨by simp [DataTerm.residualNorm], Finset.sum_nonneg fun _ _ => sq_nonneg _⟩
  | l1 =>
    refine ⟨by simp [DataTerm.residualNorm, DataTerm.applyThreshold], ?_⟩
    cases co with
    | none => exact Finset.sum_nonneg fun _ _ => abs_nonneg _
    | some c => exact hb c (fun k => |d k|) fun _ => abs_nonneg _
  | l12 g =>
    refine ⟨by simp [DataTerm.residualNorm], ?_⟩
    cases co with
    | none => exact Finset.sum_nonneg fun _ _ => Real.sqrt_nonneg _
    | some c => exact Real.iSup_nonneg fun i => Finset.sum_nonneg fun _ _ => Real.sqrt_nonneg _
  | l1b e =>
    refine ⟨by simp [DataTerm.residualNorm, DataTerm.applyThreshold, hs], ?_⟩
    cases co with
    | none => exact Finset.sum_nonneg fun _ _ => abs_nonneg _
    | some c => exact hb c (fun k => |softThreshold (d k) (e.get k)|) fun _ => abs_nonneg _
  | kl => exact ⟨by simp [DataTerm.residualNorm], Finset.sum_nonneg fun _ _ => abs_nonneg _⟩

/-- For the Huber term the reported norm changes when the residual changes sign (three pixels, one row each):
negative residuals are always treated as quadratic. -/
theorem C21_huber_norm_violated :
    ¬ ∀ (t : DataTerm (Fin 3)) (d : Arr (Fin 3)), t.residualNorm (fun i => - d i) = t.residualNorm d := by
  intro h
  have := h (DataTerm.new (.huber (.scalar 1) none (fun r => if r then {1} else {0})) none) ![5, 5, 0]
  simp only [DataTerm.residualNorm, DataTerm.new, Finset.sum_filter, Fin.sum_univ_three] at this
  norm_num [Matrix.cons_val_two] at this

example : ((DataTerm.new .kl (some (.scalar 1))).assignData (some (.array ![3, 4])) (.scalar 1)).residual ![1, 1]
    (some ![1, 0]) (1 : Fin 2) = 0 := C21_masked_zero _ _ _ _ rfl

/-! ## C22 – dual balls. -/

/-- l1 and l1-ball: after the dual update every value is at most the weight. -/
theorem C22_l1_ball (t : DataTerm ι) (hk : t.kind = .l1 ∨ ∃ e, t.kind = .l1b e) (p : Arr ι) (w : Attr ι) (i : ι)
    (hw : 0 < w.get i) : |t.proxDual p w i| ≤ w.get i := by
  have key : ∀ d : ℝ, |d / max |d| (w.get i) * w.get i| ≤ w.get i := by
    intro d
    rw [abs_mul, abs_div, abs_of_pos hw, abs_of_pos (lt_of_lt_of_le hw (le_max_right _ _))]
    refine mul_le_of_le_one_left hw.le ?_
    rw [div_le_one (lt_of_lt_of_le hw (le_max_right _ _))]
    exact le_max_left _ _
  rcases t with ⟨kind, bg, data, sigma, sd, s1, se, oe⟩
  rcases hk with rfl | ⟨e, rfl⟩
  · exact key _
  · exact key _

/-- Huber: after the dual update every value is at most one. -/
theorem C22_huber_ball (t : DataTerm ι) (e r) (hk : t.kind = .huber e none r) (p : Arr ι) (w : Attr ι) (i : ι) :
    |t.proxDual p w i| ≤ 1 := by
  rcases t with ⟨kind, bg, data, sigma, sd, s1, se, oe⟩
  subst hk
  simp only [DataTerm.proxDual]
  generalize DataTerm.subSigmaData _ p i * oe.get i = d
  have hm : (0 : ℝ) < max 1 |d| := lt_of_lt_of_le one_pos (le_max_left _ _)
  rw [abs_div, abs_of_pos hm, div_le_one hm]
  exact le_max_right _ _

theorem axisNorm_scaled (grp : ι → ℕ) (d c : Arr ι) (hc : ∀ i j, grp i = grp j → c i = c j) (i : ι) :
    axisNorm grp (fun j => d j * c j) i = axisNorm grp d i * |c i| := by
  unfold axisNorm
  have : ∑ j ∈ Finset.univ.filter (fun j => grp j = grp i), (d j * c j) ^ 2
      = (∑ j ∈ Finset.univ.filter (fun j => grp j = grp i), d j ^ 2) * c i ^ 2 := by
    rw [Finset.sum_mul]
    refine Finset.sum_congr rfl fun j hj => ?_
    rw [hc j i (Finset.mem_filter.mp hj).2]; ring
  rw [this, Real.sqrt_mul (Finset.sum_nonneg fun _ _ => sq_nonneg _), Real.sqrt_sq_eq_abs]

theorem axisNorm_congr (grp : ι → ℕ) (d : Arr ι) {i j : ι} (h : grp i = grp j) : axisNorm grp d i = axisNorm grp d j := by
  simp [axisNorm, h]

/-- l12 (norm along an axis): after the dual update the Euclidean norm along the axis is at most the weight,
for any axis length (weight constant along the axis). -/
theorem C22_l12_ball (t : DataTerm ι) (grp : ι → ℕ) (hk : t.kind = .l12 grp) (p : Arr ι) (w : Attr ι) (i : ι)
    (hw : ∀ j, 0 < w.get j) (hwc : ∀ i j, grp i = grp j → w.get i = w.get j) :
    axisNorm grp (t.proxDual p w) i ≤ w.get i := by
  rcases t with ⟨kind, bg, data, sigma, sd, s1, se, oe⟩
  subst hk
  simp only [DataTerm.proxDual, DataTerm.innerNorm, DataTerm.applyThreshold]
  set d := DataTerm.subSigmaData _ p
  have e : (fun i => d i / max (axisNorm grp d i) (w.get i) * w.get i)
      = fun i => d i * (w.get i / max (axisNorm grp d i) (w.get i)) := by
    funext i; ring
  rw [e, axisNorm_scaled grp d _ (fun i j h => by rw [hwc i j h, axisNorm_congr grp d h])]
  have hm : 0 < max (axisNorm grp d i) (w.get i) := lt_of_lt_of_le (hw i) (le_max_right _ _)
  rw [abs_of_nonneg (div_nonneg (hw i).le hm.le), mul_div_assoc', div_le_iff₀ hm, mul_comm]
  exact mul_le_mul_of_nonneg_left (le_max_left _ _) (hw i).le

/-- Huber along an axis. -/
theorem C22_huber_axis_ball (t : DataTerm ι) (e r) (grp : ι → ℕ) (hk : t.kind = .huber e (some grp) r) (p : Arr ι)
    (w : Attr ι) (i : ι) : axisNorm grp (t.proxDual p w) i ≤ 1 := by
  rcases t with ⟨kind, bg, data, sigma, sd, s1, se, oe⟩
  subst hk
  simp only [DataTerm.proxDual]
  set d : Arr ι := fun i => DataTerm.subSigmaData _ p i * oe.get i
  have e : (fun i => d i / max 1 (axisNorm grp d i)) = fun i => d i * (1 / max 1 (axisNorm grp d i)) := by
    funext i; ring
  show axisNorm grp (fun i => d i / max 1 (axisNorm grp d i)) i ≤ 1
  rw [e, axisNorm_scaled grp d _ (fun i j h => by rw [axisNorm_congr grp d h])]
  have hm : (0:ℝ) < max 1 (axisNorm grp d i) := lt_of_lt_of_le one_pos (le_max_left _ _)
  rw [abs_of_nonneg (by positivity), mul_one_div, div_le_one hm]
  exact le_max_right _ _

/-- Feasible duals are left in place when there is no data to subtract (l1 and l12). -/
theorem C22_feasible_fixed (t : DataTerm ι) (hk : t.kind = .l1 ∨ ∃ g, t.kind = .l12 g) (hd : t.data = none)
    (p : Arr ι) (w : Attr ι) (i : ι) (hw : 0 < w.get i) (hp : t.innerNorm p i ≤ w.get i) :
    t.proxDual p w i = p i := by
  rcases t with ⟨kind, bg, data, sigma, sd, s1, se, oe, co⟩
  subst hd
  rcases hk with rfl | ⟨g, rfl⟩ <;>
  · simp only [DataTerm.proxDual, DataTerm.applyThreshold]
    have hs : ∀ k, DataTerm.subSigmaData ⟨k, bg, none, sigma, sd, s1, se, oe, co⟩ p = p := fun k => by
      funext j; simp [DataTerm.subSigmaData]
    rw [hs, max_eq_right hp]
    field_simp

example : axisNorm (fun i : Fin 4 => i.val / 2) ((DataTerm.new (.l12 (fun i : Fin 4 => i.val / 2)) none).proxDual
    ![3, 4, 0, 1] (.scalar 2)) 0 ≤ 2 :=
  C22_l12_ball _ _ rfl _ (.scalar 2) 0 (fun _ => by norm_num) (fun _ _ _ => rfl)

end Verif.Props
