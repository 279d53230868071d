import Mathlib.Analysis.Calculus.Deriv.Pow
import Mathlib.Analysis.Calculus.Deriv.Add
import Verif.Model.Analysis

/-!
# Intersections of lines (C47), bias and variance (C49), scale and bias (C111)
-/

namespace Verif

open Finset

/-! ## C47 -/

/-- Specification: the value of a line at the position `k`; a single value is a horizontal line. -/
noncomputable def Spec.sample : List ℝ → ℕ → ℝ
  | [v], _ => v
  | l, k => l.getD k 0

theorem lineAt_eq (l : List ℝ) (k : ℕ) : lineAt l k = Spec.sample l k := by
  unfold lineAt Spec.sample
  match l with
  | [] => simp
  | [v] => simp
  | _ :: _ :: _ => simp

/-- Specification: piecewise linear interpolation of a sampled line on the segment from `k` to `k + 1`. -/
noncomputable def onSegment (l : List ℝ) (k : ℕ) (x : ℝ) : ℝ := Spec.sample l k + (x - k) * (Spec.sample l (k + 1) - Spec.sample l k)

theorem crossPoint_spec (l1 l2 : List ℝ) (k : ℕ) (h : ¬ (isAbove l1 l2 k ↔ isAbove l1 l2 (k + 1))) :
    (k : ℝ) ≤ (crossPoint l1 l2 k).1 ∧ (crossPoint l1 l2 k).1 ≤ k + 1 ∧
      (crossPoint l1 l2 k).2 = onSegment l1 k (crossPoint l1 l2 k).1 ∧ (crossPoint l1 l2 k).2 = onSegment l2 k (crossPoint l1 l2 k).1 := by
  unfold isAbove at h
  unfold crossPoint onSegment
  simp only [← lineAt_eq]
  generalize lineAt l1 k = y1 at *
  generalize lineAt l1 (k + 1) = y2 at *
  generalize lineAt l2 k = y3 at *
  generalize lineAt l2 (k + 1) = y4 at *
  have hd : ((0 : ℝ) - 1) * (y3 - y4) - (y1 - y2) * (0 - 1) = (y1 - y3) - (y2 - y4) := by ring
  have hx : ((0 : ℝ) * y2 - y1 * 1) * (0 - 1) - (0 - 1) * (0 * y4 - y3 * 1) = y1 - y3 := by ring
  have hy : ((0 : ℝ) * y2 - y1 * 1) * (y3 - y4) - (y1 - y2) * (0 * y4 - y3 * 1) = y1 * y4 - y2 * y3 := by ring
  rw [hd, hx, hy]
  by_cases h1 : y1 < y3
  · have h2 : y4 ≤ y2 := by
      by_contra h2
      exact h ⟨fun _ => not_le.1 h2, fun _ => h1⟩
    have hden : (y1 - y3) - (y2 - y4) < 0 := by linarith
    have hne : (y1 - y3) - (y2 - y4) ≠ 0 := hden.ne
    refine ⟨?_, ?_, ?_, ?_⟩
    · have : 0 ≤ (y1 - y3) / ((y1 - y3) - (y2 - y4)) := div_nonneg_of_nonpos (by linarith) hden.le
      linarith
    · have : (y1 - y3) / ((y1 - y3) - (y2 - y4)) ≤ 1 := (div_le_one_of_neg hden).2 (by linarith)
      linarith
    · rw [add_sub_cancel_right]; field_simp; ring
    · rw [add_sub_cancel_right]; field_simp; ring
  · have h2 : y2 < y4 := by
      by_contra h2
      exact h ⟨fun h' => absurd h' h1, fun h' => absurd h' h2⟩
    push Not at h1
    have hden : 0 < (y1 - y3) - (y2 - y4) := by linarith
    have hne : (y1 - y3) - (y2 - y4) ≠ 0 := hden.ne'
    refine ⟨?_, ?_, ?_, ?_⟩
    · have : 0 ≤ (y1 - y3) / ((y1 - y3) - (y2 - y4)) := div_nonneg (by linarith) hden.le
      linarith
    · have : (y1 - y3) / ((y1 - y3) - (y2 - y4)) ≤ 1 := (div_le_one hden).2 (by linarith)
      linarith
    · rw [add_sub_cancel_right]; field_simp; ring
    · rw [add_sub_cancel_right]; field_simp; ring

/-- Specification: a crossing between the positions `k` and `k + 1`, within the limits. -/
def IsCrossing (l1 l2 : List ℝ) (lims : Option (Option ℕ × Option ℕ)) (k : ℕ) : Prop :=
  k + 1 < l1.length ∧ (∀ lo hi, lims = some (lo, hi) → (∀ l ∈ lo, l ≤ k) ∧ (∀ h ∈ hi, k < h)) ∧
    ¬ (Spec.sample l1 k < Spec.sample l2 k ↔ Spec.sample l1 (k + 1) < Spec.sample l2 (k + 1))

theorem mem_crossings (l1 l2 : List ℝ) (lims : Option (Option ℕ × Option ℕ)) (k : ℕ) :
    k ∈ crossings l1 l2 ((lims.bind Prod.fst).getD 0) ((lims.bind Prod.snd).getD (l1.length - 1)) ↔ IsCrossing l1 l2 lims k := by
  unfold crossings IsCrossing isAbove
  simp only [lineAt_eq]
  rw [List.mem_filter, List.mem_range, decide_eq_true_iff]
  constructor
  · rintro ⟨h1, h2, h3, h4⟩
    refine ⟨by omega, ?_, h4⟩
    rintro lo hi rfl
    simp only [Option.bind_some] at h2 h3
    constructor
    · rintro l hl
      cases hl
      exact h2
    · rintro l hl
      cases hl
      exact h3
  · rintro ⟨h1, h2, h4⟩
    refine ⟨by omega, ?_, ?_, h4⟩
    · cases lims with
      | none => exact Nat.zero_le k
      | some q =>
        obtain ⟨lo, hi⟩ := q
        cases lo with
        | none => exact Nat.zero_le k
        | some l => exact (h2 _ _ rfl).1 l rfl
    · cases lims with
      | none => show k < l1.length - 1; omega
      | some q =>
        obtain ⟨lo, hi⟩ := q
        cases hi with
        | none => show k < l1.length - 1; omega
        | some l => exact (h2 _ _ rfl).2 l rfl

theorem crossings_sorted (l1 l2 : List ℝ) (lo hi : ℕ) : (crossings l1 l2 lo hi).Pairwise (· < ·) :=
  List.Pairwise.filter _ List.pairwise_lt_range

/-- **C47.** For two sampled lines of the same length, or a line and a value, and any limits: if a point is returned, it is on both
lines, on a segment inside the limits at whose ends the lines are in a different order, and no other such segment comes before
(`"first"`) or after it (`"last"`); nothing is found if and only if there is no such segment. -/
theorem C47_intersection (l1 l2 : List ℝ) (hl : l2.length = 1 ∨ l2.length = l1.length) (pos : CrossPos)
    (lims : Option (Option ℕ × Option ℕ)) (hlim : lims ≠ some (none, none)) :
    (linesIntersection l1 l2 pos lims = .notFound ↔ ∀ k, ¬ IsCrossing l1 l2 lims k) ∧
    (∀ x y, linesIntersection l1 l2 pos lims = .point x y → ∃ k, IsCrossing l1 l2 lims k ∧ (k : ℝ) ≤ x ∧ x ≤ k + 1 ∧
      y = onSegment l1 k x ∧ y = onSegment l2 k x ∧
      (pos = .first → ∀ k', IsCrossing l1 l2 lims k' → k ≤ k') ∧ (pos = .last → ∀ k', IsCrossing l1 l2 lims k' → k' ≤ k)) ∧
    (linesIntersection l1 l2 pos lims = .valueError ↔ pos = .other ∧ ∃ k, IsCrossing l1 l2 lims k) := by
  have hmem := mem_crossings l1 l2 lims
  have hsort := crossings_sorted l1 l2 ((lims.bind Prod.fst).getD 0) ((lims.bind Prod.snd).getD (l1.length - 1))
  unfold linesIntersection
  rw [if_neg (by tauto), if_neg hlim]
  simp only
  generalize crossings l1 l2 ((lims.bind Prod.fst).getD 0) ((lims.bind Prod.snd).getD (l1.length - 1)) = c at *
  cases c with
  | nil =>
    rw [if_pos rfl]
    have hno : ∀ k, ¬ IsCrossing l1 l2 lims k := fun k hk => by simpa using (hmem k).2 hk
    refine ⟨⟨fun _ => hno, fun _ => rfl⟩, fun x y h => by simp at h, ⟨fun h => by simp at h, fun h => absurd h.2.choose_spec (hno _)⟩⟩
  | cons a t =>
    rw [if_neg (by simp)]
    have hyes : IsCrossing l1 l2 lims a := (hmem a).1 (by simp)
    have hex : ¬ ∀ k, ¬ IsCrossing l1 l2 lims k := fun h => h a hyes
    cases pos with
    | first =>
      refine ⟨⟨fun h => by simp at h, fun h => absurd h hex⟩, ?_, ⟨fun h => by simp at h, fun h => by simp at h⟩⟩
      intro x y h
      simp only [List.headD_cons, CrossResult.point.injEq] at h
      obtain ⟨rfl, rfl⟩ := h
      obtain ⟨p1, p2, p3, p4⟩ := crossPoint_spec l1 l2 a (by unfold isAbove; simp only [lineAt_eq]; exact hyes.2.2)
      refine ⟨a, hyes, p1, p2, p3, p4, fun _ k' hk' => ?_, fun h => by simp at h⟩
      rcases List.mem_cons.1 ((hmem k').2 hk') with h | h
      · exact h.ge
      · exact ((List.pairwise_cons.1 hsort).1 k' h).le
    | last =>
      refine ⟨⟨fun h => by simp at h, fun h => absurd h hex⟩, ?_, ⟨fun h => by simp at h, fun h => by simp at h⟩⟩
      intro x y h
      have hlast : (a :: t).getLastD 0 = (a :: t).getLast (by simp) := by
        rw [List.getLastD_eq_getLast?, List.getLast?_eq_getLast_of_ne_nil (by simp)]; rfl
      have hy : IsCrossing l1 l2 lims ((a :: t).getLastD 0) := (hmem _).1 (by rw [hlast]; exact List.getLast_mem _)
      simp only [CrossResult.point.injEq] at h
      obtain ⟨rfl, rfl⟩ := h
      obtain ⟨p1, p2, p3, p4⟩ := crossPoint_spec l1 l2 _ (by unfold isAbove; simp only [lineAt_eq]; exact hy.2.2)
      refine ⟨_, hy, p1, p2, p3, p4, fun h => by simp at h, fun _ k' hk' => ?_⟩
      have hm := (hmem k').2 hk'
      rw [hlast]
      rw [← List.dropLast_append_getLast (l := a :: t) (by simp)] at hm hsort
      rcases List.mem_append.1 hm with h | h
      · exact ((List.pairwise_append.1 hsort).2.2 k' h _ (by simp)).le
      · simp only [List.mem_singleton] at h
        exact h.le
    | other =>
      exact ⟨⟨fun h => by simp at h, fun h => absurd h hex⟩, fun x y h => by simp at h, ⟨fun _ => ⟨rfl, a, hyes⟩, fun _ => rfl⟩⟩

/-- Not vacuous: `3, 1` crosses the value 2 half way. -/
example : linesIntersection [3, 1] [2] .first none = .point (1 / 2) 2 := by
  have hc : crossings [3, 1] [2] 0 1 = [0] := by
    unfold crossings isAbove lineAt
    norm_num [List.range_succ]
  unfold linesIntersection
  simp only [List.length_cons, List.length_nil, ne_eq, not_true, false_and, if_false, Option.bind_none, Option.getD_none, reduceCtorEq]
  rw [hc]
  unfold crossPoint lineAt
  norm_num

/-! ## C49 -/

/-- **C49 (violated).** The documented decomposition, `MSE = Bias² + Var`: the variance is normalised by `R - 1`, the error by `R`. -/
theorem C49_mse_decomposition_violated :
    ¬ ∀ (R : ℕ) (reference : ℝ) (recs : Fin R → ℝ), 2 ≤ R →
      (biasVariance reference recs).1 = (biasVariance reference recs).2.1 + (biasVariance reference recs).2.2 := by
  intro h
  have := h 2 0 ![0, 2] le_rfl
  unfold biasVariance at this
  simp at this
  norm_num at this

/-- **C49 (partial).** `MSE = Bias² + (R - 1) / R · Var`, for any number of realisations above one; so that the documented sum is never
below the error, and exceeds it by `Var / R`. -/
theorem C49_mse_decomposition_partial {R : ℕ} (hR : 2 ≤ R) (reference : ℝ) (recs : Fin R → ℝ) :
    let m := biasVariance reference recs
    m.1 = m.2.1 + (R - 1) / R * m.2.2 ∧ m.2.1 + m.2.2 = m.1 + m.2.2 / R ∧ m.1 ≤ m.2.1 + m.2.2 ∧ 0 ≤ m.2.2 := by
  have hR2 : (2 : ℝ) ≤ R := by exact_mod_cast hR
  have h1 : (0 : ℝ) < R - 1 := by linarith
  have h0 : (R : ℝ) ≠ 0 := by linarith
  unfold biasVariance
  simp only
  set M := (∑ r, recs r) / R with hM
  have hs : ∑ r, recs r = M * R := by rw [hM]; field_simp
  have key : ∑ r, (recs r - reference) ^ 2 = ∑ r, (recs r - M) ^ 2 + R * (M - reference) ^ 2 := by
    have : ∀ r, (recs r - reference) ^ 2 = (recs r - M) ^ 2 + (2 * (M - reference) * (recs r - M) + (M - reference) ^ 2) := by
      intro r; ring
    simp only [this]
    rw [sum_add_distrib, sum_add_distrib, ← mul_sum, sum_sub_distrib, hs]
    simp only [sum_const, card_univ, Fintype.card_fin, nsmul_eq_mul]
    ring
  have hv : 0 ≤ (∑ r, (recs r - M) ^ 2) / ((R : ℝ) - 1) := div_nonneg (sum_nonneg fun _ _ => sq_nonneg _) h1.le
  have e1 : (∑ r, (recs r - reference) ^ 2) / R = (M - reference) ^ 2 + (R - 1) / R * ((∑ r, (recs r - M) ^ 2) / (R - 1)) := by
    rw [key]
    field_simp
    ring
  have e2 : (M - reference) ^ 2 + (∑ r, (recs r - M) ^ 2) / (R - 1) =
      (∑ r, (recs r - reference) ^ 2) / R + (∑ r, (recs r - M) ^ 2) / (R - 1) / R := by
    rw [e1]
    field_simp
    ring
  refine ⟨e1, e2, ?_, hv⟩
  rw [e2]
  have : 0 ≤ (∑ r, (recs r - M) ^ 2) / (R - 1) / R := div_nonneg hv (by linarith)
  linarith

/-! ## C111 -/

section
variable {ι κ : Type} [Fintype κ]

theorem scaleBias_eq (prj : (ι → ℝ) →ₗ[ℝ] κ → ℝ) (x : ι → ℝ) (a b : ℝ) (k : κ) :
    prj (fun i => x i * a + b) k = prj x k * a + prj (fun _ => 1) k * b := by
  have : (fun i => x i * a + b) = a • x + b • (fun _ => (1 : ℝ)) := by
    funext i
    simp [mul_comm]
  rw [this, map_add, map_smul, map_smul]
  simp [mul_comm]

theorem scaleBias_diff (prj : (ι → ℝ) →ₗ[ℝ] κ → ℝ) (x : ι → ℝ) (y : κ → ℝ) (a b s t : ℝ) :
    (scaleBiasObj prj x y (a + s) (b + t)).1 = (scaleBiasObj prj x y a b).1 + (scaleBiasObj prj x y a b).2.1 * s +
      (scaleBiasObj prj x y a b).2.2 * t + (∑ k, (prj x k * s + prj (fun _ => 1) k * t) ^ 2) / 2 := by
  unfold scaleBiasObj
  simp only [scaleBias_eq]
  have : ∀ k, (prj x k * (a + s) + prj (fun _ => 1) k * (b + t) - y k) ^ 2 =
      (prj x k * a + prj (fun _ => 1) k * b - y k) ^ 2 + (prj x k * s + prj (fun _ => 1) k * t) ^ 2 +
      2 * ((-(y k * prj x k) + prj x k ^ 2 * a + prj (fun _ => 1) k * prj x k * b) * s +
        (-(y k * prj (fun _ => 1) k) + prj (fun _ => 1) k ^ 2 * b + prj (fun _ => 1) k * prj x k * a) * t) := by
    intro k; ring
  simp only [this]
  rw [sum_add_distrib, sum_add_distrib, ← mul_sum, sum_add_distrib, ← sum_mul, ← sum_mul]
  simp only [sum_add_distrib, sum_neg_distrib, ← sum_mul]
  ring

/-- **C111 (one-dimensional data).** For any linear projector, image and data, the two numbers that `fit_scale_bias` gives to the minimiser are the partial
derivatives of its objective, half the squared norm of `P(a x + b) - y`; a point where both are zero minimises it over all scales and
biases; if the projections of the image and of the constant are not proportional, that point is unique; and for data that are exactly
`P(a x + b)`, it is `(a, b)`. -/
theorem C111_scale_bias_partial (prj : (ι → ℝ) →ₗ[ℝ] κ → ℝ) (x : ι → ℝ) (y : κ → ℝ) :
    (∀ a b, (scaleBiasObj prj x y a b).1 = (∑ k, (prj (fun i => a * x i + b) k - y k) ^ 2) / 2 ∧
      HasDerivAt (fun a => (scaleBiasObj prj x y a b).1) (scaleBiasObj prj x y a b).2.1 a ∧
      HasDerivAt (fun b => (scaleBiasObj prj x y a b).1) (scaleBiasObj prj x y a b).2.2 b) ∧
    (∀ a b, (scaleBiasObj prj x y a b).2 = (0, 0) → (∀ a' b', (scaleBiasObj prj x y a b).1 ≤ (scaleBiasObj prj x y a' b').1) ∧
      ((∀ s t : ℝ, (∀ k, s * prj x k + t * prj (fun _ => 1) k = 0) → s = 0 ∧ t = 0) →
        (∀ a' b', (scaleBiasObj prj x y a' b').2 = (0, 0) → a' = a ∧ b' = b) ∧
        (∀ a' b', y = prj (fun i => a' * x i + b') → a = a' ∧ b = b'))) := by
  have hderiv : ∀ g c e : ℝ, HasDerivAt (fun t : ℝ => e + g * (t - c) + (0 : ℝ)) g c := by
    intro g c e
    have := (((hasDerivAt_id c).sub_const c).const_mul g).const_add e
    simpa using this
  have hq : ∀ q c : ℝ, HasDerivAt (fun t : ℝ => q * (t - c) ^ 2) 0 c := by
    intro q c
    have := (((hasDerivAt_id c).sub_const c).pow 2).const_mul q
    simpa using this
  have huniq : ∀ a b a' b', (scaleBiasObj prj x y a b).2 = (0, 0) → (scaleBiasObj prj x y a' b').1 ≤ (scaleBiasObj prj x y a b).1 →
      (∀ s t : ℝ, (∀ k, s * prj x k + t * prj (fun _ => 1) k = 0) → s = 0 ∧ t = 0) → a' = a ∧ b' = b := by
    intro a b a' b' h hle hind
    have hd := scaleBias_diff prj x y a b (a' - a) (b' - b)
    rw [add_sub_cancel, add_sub_cancel, h] at hd
    have hz : ∑ k, (prj x k * (a' - a) + prj (fun _ => 1) k * (b' - b)) ^ 2 ≤ 0 := by linarith
    have hz' := (sum_eq_zero_iff_of_nonneg (fun k _ => sq_nonneg _)).1 (le_antisymm hz (sum_nonneg fun _ _ => sq_nonneg _))
    obtain ⟨h1, h2⟩ := hind (a' - a) (b' - b) fun k => by
      have := pow_eq_zero_iff (two_ne_zero) |>.1 (hz' k (mem_univ k))
      linarith
    exact ⟨by linarith, by linarith⟩
  refine ⟨fun a b => ⟨?_, ?_, ?_⟩, fun a b h => ?_⟩
  · unfold scaleBiasObj
    simp only [mul_comm a]
  · have e : (fun a' => (scaleBiasObj prj x y a' b).1) = fun a' => ((scaleBiasObj prj x y a b).1 +
        (scaleBiasObj prj x y a b).2.1 * (a' - a) + 0) + (∑ k, prj x k ^ 2) / 2 * (a' - a) ^ 2 := by
      funext a'
      have := scaleBias_diff prj x y a b (a' - a) 0
      rw [add_sub_cancel, add_zero] at this
      rw [this]
      simp only [mul_zero, add_zero, mul_pow, ← sum_mul]
      ring
    rw [e]
    have := (hderiv (scaleBiasObj prj x y a b).2.1 a (scaleBiasObj prj x y a b).1).add (hq ((∑ k, prj x k ^ 2) / 2) a)
    rw [add_zero] at this
    exact this
  · have e : (fun b' => (scaleBiasObj prj x y a b').1) = fun b' => ((scaleBiasObj prj x y a b).1 +
        (scaleBiasObj prj x y a b).2.2 * (b' - b) + 0) + (∑ k, prj (fun _ => 1) k ^ 2) / 2 * (b' - b) ^ 2 := by
      funext b'
      have := scaleBias_diff prj x y a b 0 (b' - b)
      rw [add_sub_cancel, add_zero] at this
      rw [this]
      simp only [mul_zero, add_zero, zero_add, mul_pow, ← sum_mul]
      ring
    rw [e]
    have := (hderiv (scaleBiasObj prj x y a b).2.2 b (scaleBiasObj prj x y a b).1).add (hq ((∑ k, prj (fun _ => 1) k ^ 2) / 2) b)
    rw [add_zero] at this
    exact this
  · refine ⟨fun a' b' => ?_, fun hind => ⟨fun a' b' h' => ?_, fun a' b' hy => ?_⟩⟩
    · have hd := scaleBias_diff prj x y a b (a' - a) (b' - b)
      rw [add_sub_cancel, add_sub_cancel, h] at hd
      have : 0 ≤ ∑ k, (prj x k * (a' - a) + prj (fun _ => 1) k * (b' - b)) ^ 2 := sum_nonneg fun _ _ => sq_nonneg _
      linarith
    · refine huniq a b a' b' h ?_ hind
      have hd := scaleBias_diff prj x y a' b' (a - a') (b - b')
      rw [add_sub_cancel, add_sub_cancel, h'] at hd
      have : 0 ≤ ∑ k, (prj x k * (a - a') + prj (fun _ => 1) k * (b - b')) ^ 2 := sum_nonneg fun _ _ => sq_nonneg _
      linarith
    · have h0 : (scaleBiasObj prj x y a' b').1 = 0 := by
        unfold scaleBiasObj
        simp only [mul_comm _ a', hy, sub_self]
        simp
      have hnn : 0 ≤ (scaleBiasObj prj x y a b).1 := by
        unfold scaleBiasObj
        exact div_nonneg (sum_nonneg fun _ _ => sq_nonneg _) (by norm_num)
      have := huniq a b a' b' h (by rw [h0]; exact hnn) hind
      exact ⟨this.1.symm, this.2.symm⟩
end

/-- Not vacuous: without a projector, `0, 1` fits `3, 5` with scale 2 and bias 3. -/
example : (scaleBiasObj (ι := Fin 2) (LinearMap.id : (Fin 2 → ℝ) →ₗ[ℝ] Fin 2 → ℝ) ![0, 1] ![3, 5] 2 3).2 = (0, 0) ∧
    (∀ s t : ℝ, (∀ k : Fin 2, s * ![0, 1] k + t * 1 = 0) → s = 0 ∧ t = 0) := by
  constructor
  · unfold scaleBiasObj
    simp
    norm_num
  · intro s t h
    have h0 := h 0
    have h1 := h 1
    simp at h0 h1
    exact ⟨by linarith, h0⟩

/-- The largest singular value of a diagonal matrix. -/
theorem specNorm_diag (p q : ℝ) : specNorm (fun k : Fin 2 × Fin 2 => if k.1 = k.2 then (if k.1 = 0 then p else q) else 0) = max |p| |q| := by
  have e : ∀ u : Fin 2 → ℝ, ∑ i, (∑ j, (if i = j then (if i = 0 then p else q) else 0) * u j) ^ 2 = (p * u 0) ^ 2 + (q * u 1) ^ 2 := by
    intro u; simp [Fin.sum_univ_two]
  unfold specNorm
  simp only [e]
  apply le_antisymm
  · refine csSup_le ⟨_, 0, by simp, rfl⟩ ?_
    rintro r ⟨u, hu, rfl⟩
    rw [Fin.sum_univ_two] at hu
    refine Real.sqrt_le_iff.2 ⟨le_max_of_le_left (abs_nonneg _), ?_⟩
    have h1 : p ^ 2 ≤ max |p| |q| ^ 2 := by
      rw [← sq_abs p]; exact pow_le_pow_left₀ (abs_nonneg _) (le_max_left _ _) 2
    have h2 : q ^ 2 ≤ max |p| |q| ^ 2 := by
      rw [← sq_abs q]; exact pow_le_pow_left₀ (abs_nonneg _) (le_max_right _ _) 2
    nlinarith [sq_nonneg (u 0), sq_nonneg (u 1), mul_le_mul_of_nonneg_right h1 (sq_nonneg (u 0)),
      mul_le_mul_of_nonneg_right h2 (sq_nonneg (u 1)), mul_le_mul_of_nonneg_left hu (sq_nonneg (max |p| |q|))]
  · have hb : BddAbove {r | ∃ u : Fin 2 → ℝ, ∑ j, u j ^ 2 ≤ 1 ∧ r = Real.sqrt ((p * u 0) ^ 2 + (q * u 1) ^ 2)} := by
      refine ⟨Real.sqrt (p ^ 2 + q ^ 2), ?_⟩
      rintro r ⟨u, hu, rfl⟩
      rw [Fin.sum_univ_two] at hu
      apply Real.sqrt_le_sqrt
      nlinarith [sq_nonneg (u 0), sq_nonneg (u 1), sq_nonneg p, sq_nonneg q, mul_nonneg (sq_nonneg p) (sq_nonneg (u 1)),
        mul_nonneg (sq_nonneg q) (sq_nonneg (u 0)), mul_le_mul_of_nonneg_left hu (sq_nonneg p), mul_le_mul_of_nonneg_left hu (sq_nonneg q)]
    refine max_le (le_csSup hb ⟨![1, 0], by simp, ?_⟩) (le_csSup hb ⟨![0, 1], by simp, ?_⟩)
    · simp [Real.sqrt_sq_eq_abs]
    · simp [Real.sqrt_sq_eq_abs]

/-- **C111 is violated by images**: the objective is then half the square of the largest singular value of the residual, of which the
two numbers are not the derivatives (src/corrct/processing/post.py:460). -/
theorem C111_image_violated : ¬ ∀ (prj : (Fin 1 → ℝ) →ₗ[ℝ] Fin 2 × Fin 2 → ℝ) (x : Fin 1 → ℝ) (y : Fin 2 × Fin 2 → ℝ) (a b : ℝ),
    HasDerivAt (fun b => (scaleBiasObjImage prj x y a b).1) (scaleBiasObjImage prj x y a b).2.2 b := by
  intro h
  let prj : (Fin 1 → ℝ) →ₗ[ℝ] Fin 2 × Fin 2 → ℝ :=
    { toFun := fun v k => if k.1 = k.2 then (if k.1 = 0 then v 0 else 0) else 0
      map_add' := fun v w => by funext k; simp only [Pi.add_apply]; split_ifs <;> simp
      map_smul' := fun c v => by funext k; simp only [Pi.smul_apply, smul_eq_mul, RingHom.id_apply]; split_ifs <;> simp }
  let y : Fin 2 × Fin 2 → ℝ := fun k => if k.1 = k.2 then (if k.1 = 0 then 1 else 10) else 0
  have e : ∀ b, (scaleBiasObjImage prj (fun _ => 0) y 0 b).1 = max |b - 1| |-10| ^ 2 / 2 := by
    intro b
    rw [← specNorm_diag]
    unfold scaleBiasObjImage
    simp only
    congr 3
    funext k
    simp only [prj, y, LinearMap.coe_mk, AddHom.coe_mk]
    split_ifs <;> simp
  have h1 := h prj (fun _ => 0) y 0 0
  have e2 : (scaleBiasObjImage prj (fun _ => 0) y 0 0).2.2 = -1 := by
    simp [scaleBiasObjImage, scaleBiasObj, prj, y, Fintype.sum_prod_type, Fin.sum_univ_two]
  rw [e2] at h1
  simp only [e] at h1
  have h2 : HasDerivAt (fun b : ℝ => max |b - 1| |-10| ^ 2 / 2) 0 0 := by
    refine (hasDerivAt_const (0 : ℝ) (50 : ℝ)).congr_of_eventuallyEq ?_
    filter_upwards [Ioo_mem_nhds (show (-1 : ℝ) < 0 by norm_num) (show (0 : ℝ) < 1 by norm_num)] with b hb
    have : |b - 1| ≤ |(-10 : ℝ)| := by
      rw [abs_neg, abs_of_pos (by norm_num : (0 : ℝ) < 10), abs_le]
      exact ⟨by linarith [hb.1], by linarith [hb.2]⟩
    rw [max_eq_right this]
    norm_num
  have := h1.unique h2
  norm_num at this

end Verif
