import Verif.Model.Regularizers
import Mathlib.Analysis.InnerProductSpace.PiL2

/-! # C144: the dual proximal map of vectorial total variation -/

namespace Verif
open Finset

variable {D C P : Type} [Fintype D] [Fintype C]

/-- Specification: the ball of radius `w` of the point-wise dual norm, for the exponents of derivatives and channels. The
dual exponents are: 1 ↦ ∞ (every entry, or every group, by itself), 2 ↦ 2, ∞ ↦ 1. -/
def VtvFeasible (der chan : PNorm) (w : ℝ) (y : D → C → ℝ) : Prop :=
  match der, chan with
  | .one, .one => ∀ d c, |y d c| ≤ w
  | .one, .two => ∀ d, Real.sqrt (∑ c, y d c ^ 2) ≤ w
  | .one, .inf => ∀ d, ∑ c, |y d c| ≤ w
  | .two, .one => ∀ c, Real.sqrt (∑ d, y d c ^ 2) ≤ w
  | .two, .two => Real.sqrt (∑ d, ∑ c, y d c ^ 2) ≤ w
  | .two, .inf => ∑ c, Real.sqrt (∑ d, y d c ^ 2) ≤ w
  | .inf, .one => ∀ c, ∑ d, |y d c| ≤ w
  | .inf, .two => Real.sqrt (∑ c, (∑ d, |y d c|) ^ 2) ≤ w
  | .inf, .inf => ∑ d, ∑ c, |y d c| ≤ w

/-- Specification: `r` is the feasible point nearest to `y`. -/
def VtvNearest (der chan : PNorm) (w : ℝ) (y r : D → C → ℝ) : Prop :=
  VtvFeasible der chan w r ∧ ∀ z, VtvFeasible der chan w z → ∑ d, ∑ c, (y d c - r d c) ^ 2 ≤ ∑ d, ∑ c, (y d c - z d c) ^ 2

/-- What the code does at one entry, the norm being `N`. -/
private noncomputable def shrink (N w y : ℝ) : ℝ := y / max N w * w

private theorem shrink_eq (N w y : ℝ) : shrink N w y = w / max N w * y := by unfold shrink; ring

private theorem fac_bounds {N w : ℝ} (hw : 0 < w) : 0 < w / max N w ∧ w / max N w ≤ 1 ∧ w / max N w * N ≤ w := by
  have hm : 0 < max N w := lt_of_lt_of_le hw (le_max_right _ _)
  refine ⟨div_pos hw hm, (div_le_one hm).2 (le_max_right _ _), ?_⟩
  rw [div_mul_eq_mul_div, div_le_iff₀ hm]
  exact mul_le_mul_of_nonneg_left (le_max_left _ _) hw.le

private theorem fac_one {N w : ℝ} (hw : 0 < w) (h : N ≤ w) : w / max N w = 1 := by
  rw [max_eq_right h, div_self hw.ne']

private theorem sqrt_scale {α : Type} [Fintype α] {c : ℝ} (hc : 0 ≤ c) (y : α → ℝ) :
    Real.sqrt (∑ a, (c * y a) ^ 2) = c * Real.sqrt (∑ a, y a ^ 2) := by
  have : ∑ a, (c * y a) ^ 2 = c ^ 2 * ∑ a, y a ^ 2 := by rw [mul_sum]; exact sum_congr rfl fun a _ => by ring
  rw [this, Real.sqrt_mul (sq_nonneg _), Real.sqrt_sq hc]

private theorem abs_scale {α : Type} [Fintype α] {c : ℝ} (hc : 0 ≤ c) (y : α → ℝ) :
    ∑ a, |c * y a| = c * ∑ a, |y a| := by
  rw [mul_sum]; exact sum_congr rfl fun a _ => by rw [abs_mul, abs_of_nonneg hc]

private theorem two_two_norm (y : D → C → ℝ) :
    Real.sqrt (∑ c, Real.sqrt (∑ d, y d c ^ 2) ^ 2) = Real.sqrt (∑ d, ∑ c, y d c ^ 2) := by
  rw [sum_comm (s := univ (α := D))]
  congr 1
  exact sum_congr rfl fun c _ => Real.sq_sqrt (sum_nonneg fun _ _ => sq_nonneg _)

private theorem one_two_norm (y : D → C → ℝ) (d : D) :
    Real.sqrt (∑ c, |y d c| ^ 2) = Real.sqrt (∑ c, y d c ^ 2) := by
  congr 1; exact sum_congr rfl fun c _ => sq_abs _

private noncomputable def gN (der : PNorm) (y : D → C → ℝ) (d : D) (c : C) : ℝ :=
  match der with
  | .one => |y d c|
  | .two => Real.sqrt (∑ d', y d' c ^ 2)
  | .inf => ∑ d', |y d' c|

private noncomputable def dN (der chan : PNorm) (y : D → C → ℝ) (d : D) (c : C) : ℝ :=
  match chan with
  | .one => gN der y d c
  | .two => Real.sqrt (∑ c', gN der y d c' ^ 2)
  | .inf => ∑ c', gN der y d c'

/-- C144. For every exponent pair, array and positive weights: the result is in the ball of the dual norm at every pixel,
and entries of a pixel that is already in the ball are unchanged. -/
theorem C144_vtv_feasible (der chan : PNorm) (w : Arr P) (dual : Arr (D × C × P)) (p : P) (hw : 0 < w p) :
    VtvFeasible der chan (w p) (fun d c => vtvProxDual der chan w dual (d, c, p)) ∧
    (VtvFeasible der chan (w p) (fun d c => dual (d, c, p)) →
      ∀ d c, vtvProxDual der chan w dual (d, c, p) = dual (d, c, p)) := by
  set y : D → C → ℝ := fun d c => dual (d, c, p) with hy
  have hval : ∀ d c, vtvProxDual der chan w dual (d, c, p) = w p / max (dN der chan y d c) (w p) * y d c := by
    intro d c
    refine Eq.trans ?_ (shrink_eq _ _ _)
    cases der <;> cases chan <;> rfl
  simp only [hval]
  cases der <;> cases chan <;> simp only [VtvFeasible, dN, gN] <;> constructor
  -- (1, 1)
  · intro d c
    obtain ⟨h0, h1, h2⟩ := fac_bounds (N := |y d c|) hw
    rw [abs_mul, abs_of_pos h0]; exact h2
  · intro h d c; rw [fac_one hw (h d c), one_mul]
  -- (1, 2)
  · intro d
    obtain ⟨h0, h1, h2⟩ := fac_bounds (N := Real.sqrt (∑ c', |y d c'| ^ 2)) hw
    rw [sqrt_scale h0.le]
    rw [one_two_norm] at h2 ⊢; exact h2
  · intro h d c; rw [fac_one hw (by rw [one_two_norm]; exact h d), one_mul]
  -- (1, inf)
  · intro d
    obtain ⟨h0, h1, h2⟩ := fac_bounds (N := ∑ c', |y d c'|) hw
    rw [abs_scale h0.le]; exact h2
  · intro h d c; rw [fac_one hw (h d), one_mul]
  -- (2, 1)
  · intro c
    obtain ⟨h0, h1, h2⟩ := fac_bounds (N := Real.sqrt (∑ d', y d' c ^ 2)) hw
    rw [sqrt_scale h0.le]; exact h2
  · intro h d c; rw [fac_one hw (h c), one_mul]
  -- (2, 2)
  · obtain ⟨h0, h1, h2⟩ := fac_bounds (N := Real.sqrt (∑ c', Real.sqrt (∑ d', y d' c' ^ 2) ^ 2)) hw
    set f := w p / max (Real.sqrt (∑ c', Real.sqrt (∑ d', y d' c' ^ 2) ^ 2)) (w p)
    have : ∑ d, ∑ c, (f * y d c) ^ 2 = f ^ 2 * ∑ d, ∑ c, y d c ^ 2 := by
      simp only [mul_sum]; exact sum_congr rfl fun d _ => sum_congr rfl fun c _ => by ring
    rw [this, Real.sqrt_mul (sq_nonneg _), Real.sqrt_sq h0.le]
    rw [two_two_norm] at h2; exact h2
  · intro h d c; rw [fac_one hw (by rw [two_two_norm]; exact h), one_mul]
  -- (2, inf)
  · obtain ⟨h0, h1, h2⟩ := fac_bounds (N := ∑ c', Real.sqrt (∑ d', y d' c' ^ 2)) hw
    simp only [sqrt_scale h0.le]
    rw [← mul_sum]; exact h2
  · intro h d c; rw [fac_one hw h, one_mul]
  -- (inf, 1)
  · intro c
    obtain ⟨h0, h1, h2⟩ := fac_bounds (N := ∑ d', |y d' c|) hw
    rw [abs_scale h0.le]; exact h2
  · intro h d c; rw [fac_one hw (h c), one_mul]
  -- (inf, 2)
  · obtain ⟨h0, h1, h2⟩ := fac_bounds (N := Real.sqrt (∑ c', (∑ d', |y d' c'|) ^ 2)) hw
    simp only [abs_scale h0.le]
    rw [sqrt_scale h0.le]; exact h2
  · intro h d c; rw [fac_one hw h, one_mul]
  -- (inf, inf)
  · obtain ⟨h0, h1, h2⟩ := fac_bounds (N := ∑ c', ∑ d', |y d' c'|) hw
    simp only [abs_scale h0.le]
    rw [← mul_sum]
    rw [sum_comm (f := fun c d => |y d c|)] at h2 ⊢
    exact h2
  · intro h d c; rw [fac_one hw (by rw [sum_comm]; exact h), one_mul]

/-- The nearest point of a ball. -/
private theorem ball_nearest {α : Type} [Fintype α] {w : ℝ} (hw : 0 < w) (y z : α → ℝ) (hz : Real.sqrt (∑ a, z a ^ 2) ≤ w) :
    ∑ a, (y a - w / max (Real.sqrt (∑ a, y a ^ 2)) w * y a) ^ 2 ≤ ∑ a, (y a - z a) ^ 2 := by
  set N := Real.sqrt (∑ a, y a ^ 2) with hN
  have hN2 : N ^ 2 = ∑ a, y a ^ 2 := Real.sq_sqrt (sum_nonneg fun _ _ => sq_nonneg _)
  set Z := Real.sqrt (∑ a, z a ^ 2) with hZ
  have hZ2 : Z ^ 2 = ∑ a, z a ^ 2 := Real.sq_sqrt (sum_nonneg fun _ _ => sq_nonneg _)
  have hcs : ∑ a, y a * z a ≤ N * Z := Real.sum_mul_le_sqrt_mul_sqrt _ _ _
  have e1 : ∑ a, (y a - z a) ^ 2 = N ^ 2 - 2 * ∑ a, y a * z a + Z ^ 2 := by
    rw [hN2, hZ2, mul_sum, ← sum_sub_distrib, ← sum_add_distrib]; exact sum_congr rfl fun a _ => by ring
  rcases le_total N w with h | h
  · rw [fac_one hw h]
    simp only [one_mul, sub_self]
    simp only [ne_eq, OfNat.ofNat_ne_zero, not_false_eq_true, zero_pow, sum_const_zero]
    exact sum_nonneg fun _ _ => sq_nonneg _
  · have hNp : 0 < N := lt_of_lt_of_le hw h
    rw [max_eq_left h]
    have e2 : ∑ a, (y a - w / N * y a) ^ 2 = (N - w) ^ 2 := by
      have : ∑ a, (y a - w / N * y a) ^ 2 = (1 - w / N) ^ 2 * ∑ a, y a ^ 2 := by
        rw [mul_sum]; exact sum_congr rfl fun a _ => by ring
      rw [this, ← hN2]; field_simp
    have hZ0 : 0 ≤ Z := Real.sqrt_nonneg _
    rw [e1, e2]
    nlinarith

/-- C144, exponents 1 and 2: the result is the nearest feasible point, i.e. the dual proximal map of the penalty. -/
theorem C144_vtv_projection_partial (der chan : PNorm) (hd : der ≠ .inf) (hc : chan ≠ .inf) (w : Arr P) (dual : Arr (D × C × P)) (p : P)
    (hw : 0 < w p) :
    VtvNearest der chan (w p) (fun d c => dual (d, c, p)) (fun d c => vtvProxDual der chan w dual (d, c, p)) := by
  refine ⟨(C144_vtv_feasible der chan w dual p hw).1, fun z hz => ?_⟩
  set y : D → C → ℝ := fun d c => dual (d, c, p) with hy
  have hval : ∀ d c, vtvProxDual der chan w dual (d, c, p) = w p / max (dN der chan y d c) (w p) * y d c := by
    intro d c
    refine Eq.trans ?_ (shrink_eq _ _ _)
    cases der <;> cases chan <;> rfl
  simp only [hval]
  cases der <;> cases chan <;> first | exact absurd rfl hd | exact absurd rfl hc | simp only [dN, gN]
  · refine sum_le_sum fun d _ => sum_le_sum fun c _ => ?_
    have := ball_nearest hw (fun _ : Unit => y d c) (fun _ => z d c) (by simpa [Real.sqrt_sq_eq_abs] using hz d c)
    simpa [Real.sqrt_sq_eq_abs] using this
  · refine sum_le_sum fun d _ => ?_
    have := ball_nearest hw (fun c => y d c) (fun c => z d c) (hz d)
    simp only [one_two_norm]
    exact this
  · rw [sum_comm (s := univ (α := D)), sum_comm (s := univ (α := D))]
    exact sum_le_sum fun c _ => ball_nearest hw (fun d => y d c) (fun d => z d c) (hz c)
  · have := ball_nearest hw (fun q : D × C => y q.1 q.2) (fun q => z q.1 q.2) (by rw [Fintype.sum_prod_type]; exact hz)
    simp only [Fintype.sum_prod_type] at this
    simp only [two_two_norm]
    exact this

/-- C144 fails for an infinite exponent (the default of the channels): the array is scaled down to the border of the ball,
which is not its nearest point. -/
theorem C144_vtv_infinite_violated :
    (∀ der, ¬ ∀ (w : Arr Unit) (dual : Arr (Fin 1 × Fin 2 × Unit)) (p : Unit), 0 < w p →
      VtvNearest der .inf (w p) (fun d c => dual (d, c, p)) (fun d c => vtvProxDual der .inf w dual (d, c, p))) ∧
    ∀ chan, ¬ ∀ (w : Arr Unit) (dual : Arr (Fin 2 × Fin 1 × Unit)) (p : Unit), 0 < w p →
      VtvNearest .inf chan (w p) (fun d c => dual (d, c, p)) (fun d c => vtvProxDual .inf chan w dual (d, c, p)) := by
  constructor
  · intro der h
    have h1 := (h (fun _ => 1) (fun q => if q.2.1 = 0 then 3 else 1) () one_pos).2 (fun _ c => if c = 0 then 1 else 0) (by
      cases der <;> simp [VtvFeasible, Fin.sum_univ_two])
    have e : ∀ x : ℝ, Real.sqrt (x ^ 2) = |x| := Real.sqrt_sq_eq_abs
    have m : max (3 + 1 : ℝ) 1 = 4 := by norm_num
    cases der <;> simp [vtvProxDual, Fin.sum_univ_two, e, m] at h1 <;> norm_num at h1
  · intro chan h
    have h1 := (h (fun _ => 1) (fun q => if q.1 = 0 then 3 else 1) () one_pos).2 (fun d _ => if d = 0 then 1 else 0) (by
      cases chan <;> simp [VtvFeasible, Fin.sum_univ_two])
    have e : ∀ x : ℝ, 0 ≤ x → Real.sqrt (x ^ 2) = x := fun x hx => Real.sqrt_sq hx
    have m : max (3 + 1 : ℝ) 1 = 4 := by norm_num
    have e4 := e (3 + 1) (by norm_num)
    cases chan <;> simp [vtvProxDual, Fin.sum_univ_two, e4, m] at h1 <;> norm_num at h1

/-- Non-vacuity: a pixel outside the ball, exponents (2, 1). -/
example : VtvNearest (D := Fin 2) (C := Fin 1) .two .one 1 (fun d _ => if d = 0 then 3 else 4)
    (fun d c => vtvProxDual .two .one (fun _ : Unit => 1) (fun q => if q.1 = 0 then 3 else 4) (d, c, ())) :=
  C144_vtv_projection_partial .two .one (by decide) (by decide) _ _ () one_pos

end Verif
