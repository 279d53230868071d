import Verif.Spec.Prox

namespace Verif.Spec
open Verif

/-- Certificate: `y` is a point where `p` is a subgradient of `F` and `x = p + σ y`. -/
def Cert (F : Functional) (σ x p y : ℝ) : Prop :=
  y ∈ F.dom ∧ x = p + σ * y ∧ ∀ z ∈ F.dom, F.val y + p * (z - y) ≤ F.val z

theorem Cert.conj_eq {F : Functional} {σ x p y : ℝ} (h : Cert F σ x p y) :
    F.conj p = ((p * y - F.val y : ℝ) : EReal) := by
  obtain ⟨hy, -, hs⟩ := h
  apply le_antisymm
  · refine iSup₂_le fun z hz => ?_
    have := hs z hz
    exact_mod_cast (by linarith : p * z - F.val z ≤ p * y - F.val y)
  · exact le_iSup₂ (f := fun y (_ : y ∈ F.dom) => ((p * y - F.val y : ℝ) : EReal)) y hy

theorem Cert.isProxConj {F : Functional} {σ x p y : ℝ} (hσ : 0 < σ) (h : Cert F σ x p y) :
    IsProxConj F σ x p := by
  have hc := h.conj_eq
  obtain ⟨hy, hx, hs⟩ := h
  refine ⟨by rw [hc]; exact EReal.coe_ne_top _, fun q hq => ?_⟩
  have h1 : ((q * y - F.val y : ℝ) : EReal) ≤ F.conj q :=
    le_iSup₂ (f := fun y (_ : y ∈ F.dom) => ((q * y - F.val y : ℝ) : EReal)) y hy
  have h2 : (p * y - F.val y) + (p - x) ^ 2 / (2 * σ) < (q * y - F.val y) + (q - x) ^ 2 / (2 * σ) := by
    have hne : 0 < (q - p) ^ 2 := by
      have : q - p ≠ 0 := sub_ne_zero.mpr hq
      positivity
    have hpos : 0 < (q - p) ^ 2 / (2 * σ) := by positivity
    have e : (q - x) ^ 2 / (2 * σ) - (p - x) ^ 2 / (2 * σ) = (q - p) ^ 2 / (2 * σ) - (q - p) * y := by
      subst hx; field_simp; ring
    nlinarith
  rw [hc]
  calc ((p * y - F.val y : ℝ) : EReal) + (((p - x) ^ 2 / (2 * σ) : ℝ) : EReal)
      = (((p * y - F.val y) + (p - x) ^ 2 / (2 * σ) : ℝ) : EReal) := by rw [EReal.coe_add]
    _ < (((q * y - F.val y) + (q - x) ^ 2 / (2 * σ) : ℝ) : EReal) := by exact_mod_cast h2
    _ = ((q * y - F.val y : ℝ) : EReal) + (((q - x) ^ 2 / (2 * σ) : ℝ) : EReal) := by rw [EReal.coe_add]
    _ ≤ _ := add_le_add_left h1 _

/-- Certificates give firm non-expansiveness. -/
theorem Cert.nonexp {F : Functional} {σ x p y x' p' y' : ℝ} (hσ : 0 < σ)
    (h : Cert F σ x p y) (h' : Cert F σ x' p' y') : |p - p'| ≤ |x - x'| := by
  obtain ⟨hy, hx, hs⟩ := h
  obtain ⟨hy', hx', hs'⟩ := h'
  have a := hs _ hy'
  have b := hs' _ hy
  have mono : 0 ≤ (p - p') * (y - y') := by nlinarith
  have e : (p - p') * (x - x') = (p - p') ^ 2 + σ * ((p - p') * (y - y')) := by subst hx hx'; ring
  have : (p - p') ^ 2 ≤ (p - p') * (x - x') := by nlinarith [mul_nonneg hσ.le mono]
  have h3 : |p - p'| * |p - p'| ≤ |p - p'| * |x - x'| := by
    rw [← abs_mul, ← abs_mul]
    calc |(p - p') * (p - p')| = (p - p') ^ 2 := by rw [abs_of_nonneg (mul_self_nonneg _)]; ring
      _ ≤ _ := this
      _ ≤ _ := le_abs_self _
  by_cases h0 : |p - p'| = 0
  · rw [h0]; exact abs_nonneg _
  · exact le_of_mul_le_mul_left h3 (lt_of_le_of_ne (abs_nonneg _) (Ne.symm h0))

/-- Primal version: `p = x - τ g` with `g` a subgradient at `p`. -/
theorem isProx_of_subgrad {F : Functional} {τ x p g : ℝ} (hτ : 0 < τ) (hp : p ∈ F.dom)
    (hx : x = p + τ * g) (hs : ∀ z ∈ F.dom, F.val p + g * (z - p) ≤ F.val z) : IsProx F τ x p := by
  refine ⟨hp, fun y hy hne => ?_⟩
  have h := hs y hy
  have hpos : 0 < (y - p) ^ 2 := by
    have : y - p ≠ 0 := sub_ne_zero.mpr hne
    positivity
  subst hx
  nlinarith [mul_le_mul_of_nonneg_left h hτ.le]

/-- A dual certificate is a primal one (Moreau). -/
theorem Cert.isProx {F : Functional} {τ x p y : ℝ} (hτ : 0 < τ) (h : Cert F τ⁻¹ (x / τ) p y) :
    IsProx F τ x y := by
  obtain ⟨hy, hx, hs⟩ := h
  refine isProx_of_subgrad hτ hy (g := p) ?_ hs
  have := congrArg (· * τ) hx
  simp only [add_mul] at this
  rw [div_mul_cancel₀ _ hτ.ne'] at this
  rw [this]; field_simp; ring

/-- Shifting the functional by a background. -/
theorem Cert.shift {F : Functional} {σ x p y bg : ℝ} (h : Cert F σ (x + σ * bg) p y) :
    Cert (F.shift bg) σ x p (y - bg) := by
  obtain ⟨hy, hx, hs⟩ := h
  refine ⟨by simpa [Functional.shift] using hy, by linarith, fun z hz => ?_⟩
  have := hs (z + bg) hz
  simp only [Functional.shift, sub_add_cancel]
  linarith [this, (by ring : p * (z + bg - y) = p * (z - (y - bg)))]

theorem softThreshold_of_ge {v t : ℝ} (ht : 0 ≤ t) (h : t ≤ v) : softThreshold v t = v - t := by
  unfold softThreshold npSign
  rcases lt_or_eq_of_le (ht.trans h) with h0 | h0
  · rw [if_pos h0, abs_of_pos h0, max_eq_left (by linarith)]; ring
  · subst h0
    have : t = 0 := le_antisymm h ht
    simp [this]

theorem softThreshold_of_le {v t : ℝ} (ht : 0 ≤ t) (h : v ≤ -t) : softThreshold v t = v + t := by
  unfold softThreshold npSign
  rcases lt_or_eq_of_le (show v ≤ 0 by linarith) with h0 | h0
  · rw [if_neg (by linarith), if_pos h0, abs_of_neg h0, max_eq_left (by linarith)]; ring
  · subst h0
    have : t = 0 := by linarith
    simp [this]

theorem softThreshold_of_abs {v t : ℝ} (h : |v| ≤ t) : softThreshold v t = 0 := by
  unfold softThreshold
  rw [max_eq_right (by linarith)]; ring

/-- Clipping to `[-w, w]` in the form `d / max(|d|, w) * w` used by the code. -/
theorem ballProj_cases {d w : ℝ} (hw : 0 < w) :
    (w ≤ d → d / max |d| w * w = w) ∧ (d ≤ -w → d / max |d| w * w = -w) ∧
    (|d| ≤ w → d / max |d| w * w = d) := by
  refine ⟨fun h => ?_, fun h => ?_, fun h => ?_⟩
  · have hd : 0 < d := lt_of_lt_of_le hw h
    rw [abs_of_pos hd, max_eq_left h]; field_simp
  · have hd : d < 0 := by linarith
    rw [abs_of_neg hd, max_eq_left (by linarith)]
    have : d ≠ 0 := hd.ne
    field_simp
  · rw [max_eq_right h]; field_simp

theorem tri (d w : ℝ) : w ≤ d ∨ d ≤ -w ∨ |d| ≤ w := by
  rcases le_or_gt w d with h | h
  · exact Or.inl h
  rcases le_or_gt d (-w) with h' | h'
  · exact Or.inr (Or.inl h')
  · exact Or.inr (Or.inr (abs_le.mpr ⟨h'.le, h.le⟩))

/-! ### Certificates for the concrete functionals -/

theorem cert_l2 {b σ x : ℝ} (hσ : 0 < σ) :
    Cert (fL2 b) σ x ((x - σ * b) * (1 / (1 + σ))) ((x + b) / (1 + σ)) := by
  have : (1 : ℝ) + σ ≠ 0 := by positivity
  refine ⟨trivial, by field_simp; ring, fun z _ => ?_⟩
  have e : (x - σ * b) * (1 / (1 + σ)) = (x + b) / (1 + σ) - b := by field_simp; ring
  simp only [fL2]
  rw [e]
  nlinarith [sq_nonneg (z - (x + b) / (1 + σ))]

theorem cert_wl2 {w b σ x : ℝ} (hw : 0 < w) (hσ : 0 < σ) :
    Cert (fWL2 w b) σ x ((x - σ * b) * (1 / (1 + σ / w))) ((x / w + b) / (1 + σ / w)) := by
  have h1 : (1 : ℝ) + σ / w ≠ 0 := by positivity
  have h2 : w + σ ≠ 0 := by positivity
  refine ⟨trivial, by field_simp; ring, fun z _ => ?_⟩
  have e : (x - σ * b) * (1 / (1 + σ / w)) = w * ((x / w + b) / (1 + σ / w) - b) := by field_simp; ring
  simp only [fWL2]
  rw [e]
  nlinarith [mul_nonneg hw.le (sq_nonneg (z - (x / w + b) / (1 + σ / w)))]

/-- zero weight: the functional is constant zero, its conjugate is the indicator of `{0}`. -/
theorem cert_wl2_zero {b σ x : ℝ} (hσ : 0 < σ) : Cert (fWL2 0 b) σ x 0 (x / σ) := by
  refine ⟨trivial, by field_simp; ring, fun z _ => ?_⟩
  simp [fWL2]

theorem cert_l1 {w b σ x : ℝ} (hw : 0 < w) (hσ : 0 < σ) :
    Cert (fL1 w b) σ x ((x - σ * b) / max |x - σ * b| w * w)
      ((x - (x - σ * b) / max |x - σ * b| w * w) / σ) := by
  obtain ⟨c1, c2, c3⟩ := ballProj_cases (d := x - σ * b) hw
  refine ⟨trivial, by field_simp; ring, fun z _ => ?_⟩
  simp only [fL1]
  rcases tri (x - σ * b) w with h | h | h
  · rw [c1 h]
    have hy : 0 ≤ (x - w) / σ - b := by
      rw [sub_nonneg, le_div_iff₀ hσ]; linarith
    rw [abs_of_nonneg hy]
    nlinarith [le_abs_self (z - b)]
  · rw [c2 h]
    have hy : (x - -w) / σ - b ≤ 0 := by
      rw [sub_nonpos, div_le_iff₀ hσ]; linarith
    rw [abs_of_nonpos hy]
    nlinarith [neg_abs_le (z - b)]
  · rw [c3 h]
    have hy : (x - (x - σ * b)) / σ = b := by field_simp; ring
    rw [hy]; simp only [sub_self, abs_zero, mul_zero, zero_add]
    calc (x - σ * b) * (z - b) ≤ |(x - σ * b) * (z - b)| := le_abs_self _
      _ = |x - σ * b| * |z - b| := abs_mul _ _
      _ ≤ w * |z - b| := mul_le_mul_of_nonneg_right h (abs_nonneg _)

theorem cert_huber {a b σ x : ℝ} (ha : 0 < a) (hσ : 0 < σ) :
    let d := (x - σ * b) * (1 / (1 + σ * a))
    Cert (fHuber a b) σ x (d / max 1 |d|) ((x - d / max 1 |d|) / σ) := by
  intro d
  have h1 : (0:ℝ) < 1 + σ * a := by positivity
  have hd : (1 + σ * a) * d = x - σ * b := by simp only [d]; field_simp
  obtain ⟨c1, c2, c3⟩ := ballProj_cases (d := d) one_pos
  simp only [mul_one] at c1 c2 c3
  rw [max_comm]
  refine ⟨trivial, by field_simp; ring, fun z _ => ?_⟩
  have hz : ∀ s : ℝ, |s| ≤ 1 → s * (z - b) - a * s ^ 2 / 2 ≤ (fHuber a b).val z := by
    intro s hs
    have hs' := abs_le.mp hs
    simp only [fHuber]
    split_ifs with hc
    · rw [le_div_iff₀ (by positivity)]
      nlinarith [sq_nonneg ((z - b) - a * s)]
    · push Not at hc
      rcases le_total 0 (z - b) with h0 | h0
      · rw [abs_of_nonneg h0] at hc ⊢
        nlinarith [mul_nonneg (sub_nonneg.mpr hs'.2) ha.le, sq_nonneg (1 - s), mul_nonneg (sub_nonneg.mpr hs'.2) (sub_nonneg.mpr hc.le)]
      · rw [abs_of_nonpos h0] at hc ⊢
        nlinarith [mul_nonneg (by linarith : 0 ≤ 1 + s) ha.le, sq_nonneg (1 + s), mul_nonneg (by linarith : 0 ≤ 1 + s) (sub_nonneg.mpr hc.le)]
  rcases tri d 1 with h | h | h
  · rw [c1 h]
    have hy : a ≤ (x - 1) / σ - b := by
      rw [le_sub_iff_add_le, le_div_iff₀ hσ]; nlinarith
    have hv : (fHuber a b).val ((x - 1) / σ) = ((x - 1) / σ - b) - a / 2 := by
      simp only [fHuber]
      rw [abs_of_nonneg (ha.le.trans hy)]
      split_ifs with hc
      · have : (x - 1) / σ - b = a := le_antisymm hc hy
        rw [this]; field_simp; norm_num
      · rfl
    rw [hv]
    have := hz 1 (by simp)
    linarith
  · rw [c2 h]
    have hy : (x - -1) / σ - b ≤ -a := by
      rw [sub_le_iff_le_add, div_le_iff₀ hσ]; nlinarith
    have hv : (fHuber a b).val ((x - -1) / σ) = -((x - -1) / σ - b) - a / 2 := by
      simp only [fHuber]
      rw [abs_of_nonpos (by linarith)]
      split_ifs with hc
      · have : (x - -1) / σ - b = -a := le_antisymm hy (by linarith)
        rw [this]; field_simp; norm_num
      · rfl
    rw [hv]
    have := hz (-1) (by simp)
    linarith
  · rw [c3 h]
    have hy : (x - d) / σ - b = a * d := by
      field_simp; nlinarith
    have hv : (fHuber a b).val ((x - d) / σ) = a * d ^ 2 / 2 := by
      simp only [fHuber]
      rw [hy, abs_mul, abs_of_pos ha, if_pos (by nlinarith)]
      field_simp
    rw [hv]
    have := hz d h
    have e : (x - d) / σ = b + a * d := by linarith
    rw [e]
    nlinarith

theorem cert_l2b {ε b σ x : ℝ} (hε : 0 < ε) (hσ : 0 < σ) :
    let p := softThreshold (x - σ * b) (σ * Real.sqrt ε) * (1 / (1 + σ * ε))
    Cert (fL2bScaled ε b) σ x p ((x - p) / σ) := by
  intro p
  have hr : 0 < Real.sqrt ε := Real.sqrt_pos.mpr hε
  have hrr : Real.sqrt ε ^ 2 = ε := Real.sq_sqrt hε.le
  set r := Real.sqrt ε with hrdef
  have h1 : (0:ℝ) < 1 + σ * ε := by positivity
  refine ⟨trivial, by field_simp; ring, fun z _ => ?_⟩
  have hz : ∀ s : ℝ, s * (z - b) - r * |s| - ε * s ^ 2 / 2 ≤ (fL2bScaled ε b).val z := by
    intro s
    simp only [fL2bScaled]
    rw [← hrdef, le_div_iff₀ (by positivity)]
    have hm : |s| * (|z - b| - r) ≤ |s| * max (|z - b| - r) 0 :=
      mul_le_mul_of_nonneg_left (le_max_left _ _) (abs_nonneg _)
    have hq : s * (z - b) ≤ |s| * |z - b| := by rw [← abs_mul]; exact le_abs_self _
    have h3 : s * (z - b) - r * |s| ≤ |s| * max (|z - b| - r) 0 := by linarith
    have h4 := mul_le_mul_of_nonneg_right h3 (by positivity : (0:ℝ) ≤ 2 * ε)
    have h5 := sq_nonneg (max (|z - b| - r) 0 - ε * |s|)
    have h6 : (ε * |s|) ^ 2 = ε ^ 2 * s ^ 2 := by rw [mul_pow, sq_abs]
    nlinarith
  have ht : 0 ≤ σ * r := by positivity
  rcases tri (x - σ * b) (σ * r) with h | h | h
  · have hp : p = (x - σ * b - σ * r) * (1 / (1 + σ * ε)) := by
      simp only [p]; rw [softThreshold_of_ge ht h]
    have hp0 : 0 ≤ p := by rw [hp]; exact mul_nonneg (by linarith) (by positivity)
    have he : (1 + σ * ε) * p = x - σ * b - σ * r := by rw [hp]; field_simp
    have hy : (x - p) / σ = b + r + ε * p := by field_simp; linarith
    have := hz p
    rw [abs_of_nonneg hp0] at this
    have hv : (fL2bScaled ε b).val ((x - p) / σ) = ε * p ^ 2 / 2 := by
      simp only [fL2bScaled]
      rw [← hrdef, hy, (by ring : b + r + ε * p - b = r + ε * p), abs_of_nonneg (by positivity),
        (by ring : r + ε * p - r = ε * p), max_eq_left (by positivity)]
      field_simp
    rw [hv, hy]; nlinarith
  · have hp : p = (x - σ * b + σ * r) * (1 / (1 + σ * ε)) := by
      simp only [p]; rw [softThreshold_of_le ht h]
    have hp0 : p ≤ 0 := by
      rw [hp]; exact mul_nonpos_of_nonpos_of_nonneg (by linarith) (by positivity)
    have he : (1 + σ * ε) * p = x - σ * b + σ * r := by rw [hp]; field_simp
    have hy : (x - p) / σ = b - r + ε * p := by field_simp; linarith
    have := hz p
    rw [abs_of_nonpos hp0] at this
    have hεp : ε * p ≤ 0 := mul_nonpos_of_nonneg_of_nonpos hε.le hp0
    have hv : (fL2bScaled ε b).val ((x - p) / σ) = ε * p ^ 2 / 2 := by
      simp only [fL2bScaled]
      rw [← hrdef, hy, (by ring : b - r + ε * p - b = -(r - ε * p)), abs_neg, abs_of_nonneg (by linarith),
        (by ring : r - ε * p - r = -(ε * p)), max_eq_left (by linarith)]
      field_simp
    rw [hv, hy]; nlinarith
  · have hp : p = 0 := by simp only [p]; rw [softThreshold_of_abs h]; ring
    rw [hp]
    have hv : (fL2bScaled ε b).val ((x - 0) / σ) = 0 := by
      simp only [fL2bScaled]
      have hab : |(x - 0) / σ - b| ≤ r := by
        have e : (x - 0) / σ - b = (x - σ * b) / σ := by field_simp; ring
        rw [e, abs_div, abs_of_pos hσ, div_le_iff₀ hσ]; linarith
      rw [← hrdef, max_eq_right (by linarith)]; simp
    rw [hv]
    have := hz 0
    simp at this ⊢
    exact this

theorem kl_log {b y z : ℝ} (hb : 0 < b) (hy : 0 < y) (hz : 0 < z) :
    (y - b * Real.log y) + (1 - b / y) * (z - y) ≤ z - b * Real.log z := by
  have h := Real.log_le_sub_one_of_pos (div_pos hz hy)
  rw [Real.log_div hz.ne' hy.ne'] at h
  have h2 := mul_le_mul_of_nonneg_left h hb.le
  have e : (1 - b / y) * (z - y) = (z - y) - b * (z / y - 1) := by field_simp
  rw [e]; linarith

theorem cert_kl {b σ x : ℝ} (hb : 0 ≤ b) (hσ : 0 < σ) :
    let p := (1 + x - Real.sqrt ((x - 1) ^ 2 + 4 * σ * b)) / 2
    Cert (fKL b) σ x p ((x - p) / σ) := by
  intro p
  rcases hb.lt_or_eq with hb | hb
  · set s := Real.sqrt ((x - 1) ^ 2 + 4 * σ * b) with hs
    have hs2 : s ^ 2 = (x - 1) ^ 2 + 4 * σ * b := Real.sq_sqrt (by positivity)
    have hs0 : 0 ≤ s := Real.sqrt_nonneg _
    have hgt : |x - 1| < s := by
      apply abs_lt_of_sq_lt_sq _ hs0
      rw [hs2]; have : 0 < 4 * σ * b := by positivity
      linarith
    have hgt' := abs_lt.mp hgt
    have hxp : x - p = (x - 1 + s) / 2 := by simp only [p]; ring
    have h1p : 1 - p = (s - (x - 1)) / 2 := by simp only [p]; ring
    have hxp0 : 0 < x - p := by rw [hxp]; linarith
    have hy0 : 0 < (x - p) / σ := div_pos hxp0 hσ
    have hprod : (1 - p) * (x - p) = σ * b := by rw [hxp, h1p]; nlinarith
    have hp : p = 1 - b / ((x - p) / σ) := by
      have : b / ((x - p) / σ) = 1 - p := by
        rw [div_div_eq_mul_div, div_eq_iff hxp0.ne']; linarith
      rw [this]; ring
    refine ⟨Or.inl hy0, by field_simp; ring, fun z hz => ?_⟩
    have hz0 : 0 < z := by
      rcases hz with hz | ⟨_, hz⟩
      · exact hz
      · exact absurd hz hb.ne'
    simp only [fKL]
    have := kl_log hb hy0 hz0
    rw [← hp] at this
    exact this
  · have hp : p = (1 + x - |x - 1|) / 2 := by
      simp only [p]; rw [← hb, mul_zero, add_zero, Real.sqrt_sq_eq_abs]
    have hp1 : p ≤ 1 ∧ p ≤ x ∧ (p = 1 ∨ p = x) := by
      rw [hp]
      rcases le_total 0 (x - 1) with h | h
      · rw [abs_of_nonneg h]; exact ⟨by linarith, by linarith, Or.inl (by ring)⟩
      · rw [abs_of_nonpos h]; exact ⟨by linarith, by linarith, Or.inr (by ring)⟩
    obtain ⟨h1, h2, h3⟩ := hp1
    have hy0 : 0 ≤ (x - p) / σ := div_nonneg (by linarith) hσ.le
    refine ⟨?_, by field_simp; ring, fun z hz => ?_⟩
    · rcases hy0.lt_or_eq with h | h
      · exact Or.inl h
      · exact Or.inr ⟨h.symm, hb.symm⟩
    · have hz0 : 0 ≤ z := by
        rcases hz with hz | ⟨hz, _⟩
        · exact hz.le
        · exact hz.ge
      simp only [fKL]
      rw [← hb]
      simp only [zero_mul, sub_zero]
      rcases h3 with h | h
      · rw [h]; linarith
      · rw [h]; simp only [sub_self, zero_div, sub_zero, zero_add]
        nlinarith

end Verif.Spec
