import Verif.Spec.Convex
import Verif.Lemmas.DataTerms
import Mathlib.Analysis.Convex.Basic
import Mathlib.Topology.Instances.Real.Lemmas

/-! Convexity of the pixel functionals, and the proximal maps of the data terms as certificates. -/

namespace Verif
open Verif.Spec DataTerm Finset

theorem convexOn_of_slopes {s : Set ℝ} (hs : Convex ℝ s) {f : ℝ → ℝ} (h : ∀ y ∈ s, ∃ p : ℝ, ∀ z ∈ s, f y + p * (z - y) ≤ f z) :
    ConvexOn ℝ s f := by
  refine ⟨hs, fun x hx y hy a b ha hb hab => ?_⟩
  obtain ⟨p, hp⟩ := h _ (hs hx hy ha hb hab)
  have h1 := mul_le_mul_of_nonneg_left (hp x hx) ha
  have h2 := mul_le_mul_of_nonneg_left (hp y hy) hb
  simp only [smul_eq_mul] at h1 h2 ⊢
  have e : a * (f (a * x + b * y) + p * (x - (a * x + b * y))) + b * (f (a * x + b * y) + p * (y - (a * x + b * y))) =
      (a + b) * f (a * x + b * y) + p * ((a * x + b * y) - (a + b) * (a * x + b * y)) := by ring
  rw [hab] at e
  linarith

theorem huber_lower {a v p : ℝ} (ha : 0 < a) (hp : |p| ≤ 1) :
    p * v - a * p ^ 2 / 2 ≤ if |v| ≤ a then v ^ 2 / (2 * a) else |v| - a / 2 := by
  split_ifs with h
  · rw [le_div_iff₀ (by positivity)]
    nlinarith [sq_nonneg (v - a * p)]
  · have h1 : p * v ≤ |p| * |v| := by rw [← abs_mul]; exact le_abs_self _
    have h2 : p ^ 2 = |p| ^ 2 := (sq_abs p).symm
    rw [h2]
    have h3 := abs_nonneg p
    nlinarith [mul_nonneg (sub_nonneg.2 hp) (sub_nonneg.2 (not_le.1 h).le), mul_nonneg (sub_nonneg.2 hp) (mul_nonneg ha.le (sub_nonneg.2 hp))]

theorem huber_attained {a v : ℝ} (ha : 0 < a) : ∃ p : ℝ, |p| ≤ 1 ∧
    (if |v| ≤ a then v ^ 2 / (2 * a) else |v| - a / 2) = p * v - a * p ^ 2 / 2 := by
  by_cases h : |v| ≤ a
  · refine ⟨v / a, ?_, ?_⟩
    · rw [abs_div, abs_of_pos ha]; exact (div_le_one ha).2 h
    · rw [if_pos h]; field_simp; ring
  · rw [if_neg h]
    rcases le_total 0 v with hv | hv
    · exact ⟨1, by simp, by rw [abs_of_nonneg hv]; ring⟩
    · exact ⟨-1, by simp, by rw [abs_of_nonpos hv]; ring⟩

variable {ι : Type}

theorem pixelFunctional_convex {kind : Kind ι} (hk : ConvexKind kind) (b : ℝ) (i : ι) :
    ConvexOn ℝ (pixelFunctional kind b i).dom (pixelFunctional kind b i).val := by
  cases kind with
  | l2 =>
    exact convexOn_of_slopes convex_univ fun y _ => ⟨y - b, fun z _ => by
      simp only [pixelFunctional, fL2]; nlinarith [sq_nonneg (z - y)]⟩
  | wl2 w =>
    exact convexOn_of_slopes convex_univ fun y _ => ⟨w.get i * (y - b), fun z _ => by
      simp only [pixelFunctional, fWL2]; nlinarith [mul_nonneg (hk i) (sq_nonneg (z - y))]⟩
  | l2b e =>
    refine convexOn_of_slopes convex_univ fun y _ => ?_
    have he : 0 < e.get i := hk i
    set r := Real.sqrt (e.get i) with hr
    have hr0 : 0 ≤ r := Real.sqrt_nonneg _
    have key : ∀ t : ℝ, 0 ≤ t → ∀ z A : ℝ, z - r ≤ A → 0 ≤ A → t ^ 2 + 2 * t * (z - r - t) ≤ A ^ 2 := by
      intro t ht z A h1 h2
      nlinarith [sq_nonneg (A - t), mul_le_mul_of_nonneg_left h1 ht]
    simp only [pixelFunctional, fL2bScaled]
    rcases le_total r |y - b| with h | h
    · rcases le_total 0 (y - b) with hy | hy
      · refine ⟨(y - b - r) / e.get i, fun z _ => ?_⟩
        rw [abs_of_nonneg hy] at h ⊢
        rw [max_eq_left (by linarith)]
        have := key (y - b - r) (by linarith) (z - b) (max (|z - b| - r) 0)
          (le_trans (by linarith [le_abs_self (z - b)]) (le_max_left _ _)) (le_max_right _ _)
        have e1 : (y - b - r) ^ 2 / (2 * e.get i) + (y - b - r) / e.get i * (z - y) =
            ((y - b - r) ^ 2 + 2 * (y - b - r) * (z - b - r - (y - b - r))) / (2 * e.get i) := by
          field_simp; ring
        rw [e1]
        exact div_le_div_of_nonneg_right this (by positivity)
      · refine ⟨-((-(y - b) - r) / e.get i), fun z _ => ?_⟩
        rw [abs_of_nonpos hy] at h ⊢
        rw [max_eq_left (by linarith)]
        have := key (-(y - b) - r) (by linarith) (-(z - b)) (max (|z - b| - r) 0)
          (le_trans (by linarith [neg_le_abs (z - b)]) (le_max_left _ _)) (le_max_right _ _)
        have e1 : (-(y - b) - r) ^ 2 / (2 * e.get i) + -((-(y - b) - r) / e.get i) * (z - y) =
            ((-(y - b) - r) ^ 2 + 2 * (-(y - b) - r) * (-(z - b) - r - (-(y - b) - r))) / (2 * e.get i) := by
          field_simp; ring
        rw [e1]
        exact div_le_div_of_nonneg_right this (by positivity)
    · refine ⟨0, fun z _ => ?_⟩
      rw [max_eq_right (by linarith)]
      simp only [ne_eq, OfNat.ofNat_ne_zero, not_false_eq_true, zero_pow, zero_div, zero_mul, add_zero]
      positivity
  | huber e grp row =>
    refine convexOn_of_slopes convex_univ fun y _ => ?_
    obtain ⟨p, hp, hv⟩ := huber_attained (v := y - b) (hk.1 i)
    refine ⟨p, fun z _ => ?_⟩
    simp only [pixelFunctional, fHuber]
    have := huber_lower (v := z - b) (hk.1 i) hp
    rw [hv]
    linarith
  | l1 =>
    refine convexOn_of_slopes convex_univ fun y _ => ?_
    simp only [pixelFunctional, fL1, one_mul]
    rcases le_total 0 (y - b) with h | h
    · exact ⟨1, fun z _ => by rw [abs_of_nonneg h]; linarith [le_abs_self (z - b)]⟩
    · exact ⟨-1, fun z _ => by rw [abs_of_nonpos h]; linarith [neg_le_abs (z - b)]⟩
  | l12 _ => exact hk.elim
  | l1b _ => exact hk.elim
  | kl =>
    set c := max b 0 with hc
    have hc0 : 0 ≤ c := le_max_right _ _
    have hconv : Convex ℝ {y : ℝ | 0 < y ∨ (y = 0 ∧ c = 0)} := by
      rcases hc0.eq_or_lt with h0 | h0
      · have : {y : ℝ | 0 < y ∨ (y = 0 ∧ c = 0)} = Set.Ici 0 := by
          ext y; simp only [Set.mem_setOf_eq, Set.mem_Ici, ← h0, and_true]
          rw [le_iff_lt_or_eq]; constructor <;> rintro (h | h) <;> simp_all
        rw [this]; exact convex_Ici _
      · have : {y : ℝ | 0 < y ∨ (y = 0 ∧ c = 0)} = Set.Ioi 0 := by
          ext y; simp [h0.ne']
        rw [this]; exact convex_Ioi _
    refine convexOn_of_slopes hconv fun y hy => ?_
    simp only [pixelFunctional, fKL, ← hc] at hy ⊢
    rcases hc0.eq_or_lt with h0 | h0
    · refine ⟨1, fun z _ => ?_⟩
      rw [← h0]; linarith
    · have hy' : 0 < y := by rcases hy with h | h; exact h; exact absurd h.2 h0.ne'
      refine ⟨1 - c / y, fun z hz => ?_⟩
      have hz' : 0 < z := by rcases hz with h | h; exact h; exact absurd h.2 h0.ne'
      have := kl_log h0 hy' hz'
      have e1 : (1 - c / y) * (z - y) = z - y - c * (z / y) + c := by field_simp; ring
      have h1 := Real.log_le_sub_one_of_pos (div_pos hz' hy')
      rw [Real.log_div hz'.ne' hy'.ne'] at h1
      have h2 := mul_le_mul_of_nonneg_left h1 hc0
      rw [e1]; linarith

variable [Fintype ι]

theorem proxDual_assign (t : DataTerm ι) (data : Option (Attr ι)) (σ : Attr ι) (p : Arr ι) (w : Attr ι) :
    (t.assignData data σ).proxDual p w = ((new t.kind t.background).assignData data σ).proxDual p w := by
  obtain ⟨kind, bg, d, s, sd, s1, sq, os⟩ := t
  cases kind <;> rfl

/-- The dual step of the data terms is, pixel by pixel, a map with certificates. -/
theorem term_prox (t : DataTerm ι) (hk : ConvexKind t.kind) (b σ : Arr ι) (hσ : ∀ i, 0 < σ i) :
    ∃ prox : ι → ℝ → ℝ,
      (∀ p proj i, (t.assignData (some (.array b)) (.array σ)).proxDual
        ((t.assignData (some (.array b)) (.array σ)).updateDual p proj) (.scalar 1) i = prox i (p i + σ i * proj i)) ∧
      ∀ i u, ∃ y, Cert ((pixelFunctional t.kind (b i) i).shift (optVal t.background i)) (σ i) u (prox i u) y := by
  have hu : ∀ p proj i, (t.assignData (some (.array b)) (.array σ)).updateDual p proj i =
      p i + σ i * proj i + σ i * optVal t.background i := fun p proj i => updateDual_eq t _ _ p proj i
  have wrap : ∀ (P : ι → ℝ → ℝ),
      (∀ p i, (t.assignData (some (.array b)) (.array σ)).proxDual p (.scalar 1) i = P i (p i)) →
      (∀ i u, ∃ y, Cert (pixelFunctional t.kind (b i) i) (σ i) u (P i u) y) → ∃ prox : ι → ℝ → ℝ,
      (∀ p proj i, (t.assignData (some (.array b)) (.array σ)).proxDual
        ((t.assignData (some (.array b)) (.array σ)).updateDual p proj) (.scalar 1) i = prox i (p i + σ i * proj i)) ∧
      ∀ i u, ∃ y, Cert ((pixelFunctional t.kind (b i) i).shift (optVal t.background i)) (σ i) u (prox i u) y := by
    intro P h1 h2
    refine ⟨fun i v => P i (v + σ i * optVal t.background i), fun p proj i => by rw [h1, hu], fun i u => ?_⟩
    obtain ⟨y, hy⟩ := h2 i (u + σ i * optVal t.background i)
    exact ⟨_, hy.shift⟩
  obtain ⟨kind, bg, d0, s0, sd0, s10, sq0, os0⟩ := t
  cases kind with
  | l2 =>
    exact wrap _ (fun p i => by rw [proxDual_assign]; exact proxDual_l2 _ _ _ _ _) fun i u => ⟨_, cert_l2 (hσ i)⟩
  | wl2 w =>
    refine wrap (fun i v => (v - σ i * b i) * (if w.get i = 0 then 0 else 1 / (1 + σ i / w.get i)))
      (fun p i => by rw [proxDual_assign]; exact proxDual_wl2 _ _ _ _ _ _) fun i u => ?_
    have hw : 0 ≤ w.get i := hk i
    by_cases h0 : w.get i = 0
    · simp only [h0, if_true, mul_zero, pixelFunctional]
      exact ⟨_, cert_wl2_zero (hσ i)⟩
    · simp only [h0, if_false, pixelFunctional]
      exact ⟨_, cert_wl2 (lt_of_le_of_ne hw (Ne.symm h0)) (hσ i)⟩
  | l2b e =>
    exact wrap _ (fun p i => by rw [proxDual_assign]; exact proxDual_l2b _ _ _ _ _ _) fun i u => ⟨_, cert_l2b (hk i) (hσ i)⟩
  | huber e grp row =>
    obtain ⟨he, rfl⟩ := hk
    exact wrap _ (fun p i => by rw [proxDual_assign]; exact proxDual_huber _ _ _ _ _ _ _) fun i u => ⟨_, cert_huber (he i) (hσ i)⟩
  | l1 =>
    exact wrap _ (fun p i => by rw [proxDual_assign]; exact proxDual_l1 _ _ _ _ _ _) fun i u => ⟨_, cert_l1 one_pos (hσ i)⟩
  | l12 _ => exact hk.elim
  | l1b _ => exact hk.elim
  | kl =>
    exact wrap _ (fun p i => by rw [proxDual_assign]; exact proxDual_kl _ _ _ _ _) fun i u => ⟨_, cert_kl (le_max_right _ _) (hσ i)⟩

end Verif
