import Verif.Lemmas.Scaling

/-! The three-point inequality of (projected, preconditioned) gradient steps. -/

namespace Verif
open Finset

variable {ν ι : Type} [Fintype ν] [Fintype ι]

/-- Weighted least-squares objective `½ ∑ s (t - M x)²`. -/
noncomputable def wls (M : ι → ν → ℝ) (s t : Arr ι) (x : Arr ν) : ℝ := (∑ i, s i * (t i - ∑ j, M i j * x j) ^ 2) / 2

/-- Weighted squared distance. -/
noncomputable def wdist (w x z : Arr ν) : ℝ := ∑ j, w j * (x j - z j) ^ 2

/-- The (negative) gradient of `wls`. -/
noncomputable def wgrad (M : ι → ν → ℝ) (s t : Arr ι) (y : Arr ν) : Arr ν :=
  fun j => ∑ i, M i j * (s i * (t i - ∑ j, M i j * y j))

theorem wls_expand (M : ι → ν → ℝ) (s t : Arr ι) (y z : Arr ν) :
    wls M s t z = wls M s t y - ∑ j, (z j - y j) * wgrad M s t y j
      + (∑ i, s i * (∑ j, M i j * (z j - y j)) ^ 2) / 2 := by
  have h := matrix_adjoint M (fun j => z j - y j) (fun i => s i * (t i - ∑ j, M i j * y j))
  unfold wgrad
  rw [h]
  unfold wls
  have hz : ∀ i, ∑ j, M i j * (z j - y j) = (∑ j, M i j * z j) - ∑ j, M i j * y j := fun i => by
    rw [← sum_sub_distrib]; exact sum_congr rfl fun j _ => by ring
  simp_rw [hz]
  rw [show ∀ a b c d : ℝ, a / 2 = b / 2 - c + d / 2 ↔ a = b - 2 * c + d from fun a b c d => by
    constructor <;> intro h <;> linarith]
  rw [mul_sum, ← sum_sub_distrib, ← sum_add_distrib]
  exact sum_congr rfl fun i _ => by ring

/-- Three-point inequality of a preconditioned proximal gradient step from `y` to `x`. -/
theorem three_point {M : ι → ν → ℝ} {s t : Arr ι} {w : Arr ν} {ω : ℝ} (hω : 0 < ω) (hω1 : ω ≤ 1) (hs : ∀ i, 0 ≤ s i)
    (hw : ∀ j, 0 < w j) {G : Arr ν → ℝ} {x y z : Arr ν}
    (hPC : ∑ i, s i * (∑ j, M i j * (x j - y j)) ^ 2 ≤ ∑ j, w j * (x j - y j) ^ 2)
    (hVI : ω * G x + ∑ j, w j * (y j + ω / w j * wgrad M s t y j - x j) * (z j - x j) ≤ ω * G z) :
    2 * ω * (wls M s t x + G x - wls M s t z - G z) ≤ wdist w y z - wdist w x z := by
  have h1 := wls_expand M s t y x
  have h2 := wls_expand M s t y z
  have h3 : 0 ≤ ∑ i, s i * (∑ j, M i j * (z j - y j)) ^ 2 := sum_nonneg fun i _ => mul_nonneg (hs i) (sq_nonneg _)
  have h4 : ∑ j, w j * (y j + ω / w j * wgrad M s t y j - x j) * (z j - x j) =
      ∑ j, w j * (y j - x j) * (z j - x j) + ω * ∑ j, (z j - y j) * wgrad M s t y j
        - ω * ∑ j, (x j - y j) * wgrad M s t y j := by
    rw [mul_sum, mul_sum, ← sum_add_distrib, ← sum_sub_distrib]
    refine sum_congr rfl fun j _ => ?_
    have := (hw j).ne'
    field_simp
    ring
  have h5 : wdist w y z - wdist w x z = -(2 * ∑ j, w j * (y j - x j) * (z j - x j)) + ∑ j, w j * (x j - y j) ^ 2 := by
    unfold wdist
    rw [mul_sum, ← sum_sub_distrib, ← sum_neg_distrib, ← sum_add_distrib]
    exact sum_congr rfl fun j _ => by ring
  have h6 : 0 ≤ ∑ j, w j * (x j - y j) ^ 2 := sum_nonneg fun j _ => mul_nonneg (hw j).le (sq_nonneg _)
  have h7 : ω * ∑ i, s i * (∑ j, M i j * (x j - y j)) ^ 2 ≤ ∑ j, w j * (x j - y j) ^ 2 :=
    (mul_le_mul_of_nonneg_left hPC hω.le).trans (by nlinarith)
  have h8 := mul_nonneg hω.le h3
  rw [h4] at hVI
  rw [h5, h1, h2]
  nlinarith

end Verif

namespace Verif
open Finset Classical DataTerm

variable {ν ι Q : Type} [Fintype ν] [Fintype ι]

/-- One gradient step never increases the weighted distance to a consistent solution (`ω ∈ [0,2]`). -/
theorem fejer_dec {M : ι → ν → ℝ} {s : Arr ι} {w m e : Arr ν} {ω : ℝ} (hs : ∀ i, 0 ≤ s i)
    (hw : ∀ j, 0 < w j) (hm : ∀ j, m j = 0 ∨ m j = 1) (he : ∀ j, m j = 0 → e j = 0)
    (hPC : ∀ d : Arr ν, (∀ j, m j = 0 → d j = 0) →
      ∑ i, s i * (∑ j, M i j * d j) ^ 2 ≤ ∑ j, w j * d j ^ 2) :
    ∑ j, m j * (w j * (e j - ω / w j * ∑ i, M i j * (s i * ∑ j, M i j * e j)) ^ 2) ≤
      ∑ j, w j * e j ^ 2 - ω * (2 - ω) * ∑ i, s i * (∑ j, M i j * e j) ^ 2 := by
  set g : Arr ν := fun j => ∑ i, M i j * (s i * ∑ j, M i j * e j) with hg
  set q := ∑ i, s i * (∑ j, M i j * e j) ^ 2 with hq
  set T := ∑ j, m j * (g j ^ 2 / w j) with hT
  have h1 : ∑ j, m j * (e j * g j) = q := by
    have h := matrix_adjoint M e (fun i => s i * ∑ j, M i j * e j)
    rw [hq]
    calc ∑ j, m j * (e j * g j) = ∑ j, e j * g j := sum_congr rfl fun j _ => by
          rcases hm j with h0 | h0
          · simp [h0, he j h0]
          · simp [h0]
      _ = _ := by rw [h]; exact sum_congr rfl fun i _ => by ring
  have h2 : T ≤ q := by
    set d : Arr ν := fun j => m j * (g j / w j) with hd
    have hd0 : ∀ j, m j = 0 → d j = 0 := fun j h => by simp [hd, h]
    have h3 : T = ∑ i, (∑ j, M i j * d j) * (s i * ∑ j, M i j * e j) := by
      rw [← matrix_adjoint M d (fun i => s i * ∑ j, M i j * e j), hT]
      exact sum_congr rfl fun j _ => by simp only [hd, hg]; ring
    have h4 : ∑ j, w j * d j ^ 2 = T := by
      rw [hT]
      refine sum_congr rfl fun j _ => ?_
      have := (hw j).ne'
      rcases hm j with h0 | h0
      · simp [hd, h0]
      · simp only [hd, h0]; field_simp
    have h5 := hPC d hd0
    have h6 : T ≤ ∑ i, (s i * (∑ j, M i j * d j) ^ 2 / 2 + s i * (∑ j, M i j * e j) ^ 2 / 2) := by
      rw [h3]
      refine sum_le_sum fun i _ => ?_
      have := mul_nonneg (hs i) (sq_nonneg ((∑ j, M i j * d j) - ∑ j, M i j * e j))
      nlinarith
    rw [sum_add_distrib, ← sum_div, ← sum_div, ← hq] at h6
    linarith
  have h7 : ∑ j, m j * (w j * (e j - ω / w j * g j) ^ 2) = ∑ j, w j * e j ^ 2 - 2 * ω * ∑ j, m j * (e j * g j) + ω ^ 2 * T := by
    rw [hT, mul_sum, mul_sum, ← sum_sub_distrib, ← sum_add_distrib]
    refine sum_congr rfl fun j _ => ?_
    have := (hw j).ne'
    rcases hm j with h0 | h0
    · simp [h0, he j h0]
    · simp only [h0]; field_simp; ring
  rw [h7, h1]
  nlinarith [mul_nonneg (sq_nonneg ω) (sub_nonneg.2 h2)]

theorem fejer_step {M : ι → ν → ℝ} {s : Arr ι} {w m e : Arr ν} {ω : ℝ} (hω : 0 ≤ ω) (hω2 : ω ≤ 2) (hs : ∀ i, 0 ≤ s i)
    (hw : ∀ j, 0 < w j) (hm : ∀ j, m j = 0 ∨ m j = 1) (he : ∀ j, m j = 0 → e j = 0)
    (hPC : ∀ d : Arr ν, (∀ j, m j = 0 → d j = 0) →
      ∑ i, s i * (∑ j, M i j * d j) ^ 2 ≤ ∑ j, w j * d j ^ 2) :
    ∑ j, m j * (w j * (e j - ω / w j * ∑ i, M i j * (s i * ∑ j, M i j * e j)) ^ 2) ≤ ∑ j, w j * e j ^ 2 :=
  (fejer_dec hs hw hm he hPC).trans (sub_le_self _ (mul_nonneg (mul_nonneg hω (sub_nonneg.2 hω2))
    (sum_nonneg fun i _ => mul_nonneg (hs i) (sq_nonneg _))))

/-- The effective training mask as an array. -/
noncomputable def effMask (a : Args ν ι) : Arr ι := ((initBMasks a.bMask a.bTestMask).1).getD fun _ => 1

/-- The solution mask as an array. -/
noncomputable def effXMask (a : Args ν ι) : Arr ν := a.xMask.getD fun _ => 1

/-- What the diagonal scaling of a matrix yields (no regularizers). -/
theorem scaling_matrix {M : ι → ν → ℝ} {rs rt : ℝ} {a : Args ν ι} {sigma : Arr ι} {tau : Arr ν}
    (h : diagonalScaling (Q := Q) (fun x i => ∑ j, |M i j| * x j) (fun y j => ∑ i, |M i j| * y i) [] rs rt a.xMask
      (initBMasks a.bMask a.bTestMask).1 = .ok (sigma, tau))
    (hb : ∀ i, 0 ≤ effMask a i) (hx : ∀ j, 0 ≤ effXMask a j) :
    ∃ (R : Arr ι) (C : Arr ν), (∀ i, 0 < R i) ∧ (∀ j, 0 < C j) ∧ (∀ i, sigma i = rs / R i) ∧ (∀ j, tau j = rt / C j) ∧
      (∀ j, C j = ∑ i, |M i j| * effMask a i ∨ C j = 1) ∧ (∀ i, R i = ∑ j, |M i j| * effXMask a j ∨ R i = 1) ∧
      ((∀ i, ∑ j, |M i j| * effXMask a j ≤ 100000) → ∀ i, ∑ j, |M i j| * effXMask a j ≤ R i) ∧
      ((∀ j, ∑ i, |M i j| * effMask a i ≤ 100000) → ∀ j, ∑ i, |M i j| * effMask a i ≤ C j) := by
  have e1 : applyMask (initBMasks a.bMask a.bTestMask).1 (fun _ => 1) = effMask a := by
    unfold effMask applyMask
    cases (initBMasks a.bMask a.bTestMask).1 <;> simp
  have e2 : applyMask a.xMask (fun _ => 1) = effXMask a := by
    unfold effXMask applyMask
    cases a.xMask <;> simp
  have hc : ∀ j, 0 ≤ ∑ i, |M i j| * effMask a i := fun j => sum_nonneg fun i _ => mul_nonneg (abs_nonneg _) (hb i)
  have hr : ∀ i, 0 ≤ ∑ j, |M i j| * effXMask a j := fun i => sum_nonneg fun j _ => mul_nonneg (abs_nonneg _) (hx j)
  unfold diagonalScaling at h
  simp only [e1, e2, List.foldl_nil] at h
  have e3 : (fun j => |∑ i, |M i j| * effMask a i|) = fun j => ∑ i, |M i j| * effMask a i := by
    funext j; exact abs_of_nonneg (hc j)
  have e4 : (fun i => |∑ j, |M i j| * effXMask a j|) = fun i => ∑ j, |M i j| * effXMask a j := by
    funext i; exact abs_of_nonneg (hr i)
  rw [e3, e4] at h
  split_ifs at h with h1 h2
  simp only [Except.ok.injEq, Prod.mk.injEq] at h
  refine ⟨fixSmall fun i => ∑ j, |M i j| * effXMask a j, fixSmall fun j => ∑ i, |M i j| * effMask a i,
    fixSmall_pos hr h2, fixSmall_pos hc h1, fun i => by rw [← h.1], fun j => by rw [← h.2],
    fun j => fixSmall_cases _ j, fun i => fixSmall_cases _ i, fun hR => le_fixSmall hr h2 hR, fun hC => le_fixSmall hc h1 hC⟩

end Verif

namespace Verif
open Finset

variable {ν ι : Type} [Fintype ν] [Fintype ι]

/-- Sufficient decrease of a preconditioned projected gradient step with relaxation up to 2. -/
theorem descent {M : ι → ν → ℝ} {s t : Arr ι} {w : Arr ν} {ω : ℝ} (hω : 0 < ω) (hω2 : ω ≤ 2)
    (hw : ∀ j, 0 < w j) {x y : Arr ν}
    (hPC : ∑ i, s i * (∑ j, M i j * (x j - y j)) ^ 2 ≤ ∑ j, w j * (x j - y j) ^ 2)
    (hVI : ∑ j, w j * (y j + ω / w j * wgrad M s t y j - x j) * (y j - x j) ≤ 0) :
    wls M s t x ≤ wls M s t y := by
  have h1 := wls_expand M s t y x
  have h4 : ∑ j, w j * (y j + ω / w j * wgrad M s t y j - x j) * (y j - x j) =
      ∑ j, w j * (x j - y j) ^ 2 - ω * ∑ j, (x j - y j) * wgrad M s t y j := by
    rw [mul_sum, ← sum_sub_distrib]
    refine sum_congr rfl fun j _ => ?_
    have := (hw j).ne'
    field_simp
    ring
  rw [h4] at hVI
  set D := ∑ j, w j * (x j - y j) ^ 2
  set g := ∑ j, (x j - y j) * wgrad M s t y j
  have h6 : 0 ≤ D := sum_nonneg fun j _ => mul_nonneg (hw j).le (sq_nonneg _)
  have h7 : D / 2 ≤ g := by
    have : D ≤ ω * g := by linarith
    have hg : 0 ≤ g := by
      by_contra hg
      push Not at hg
      nlinarith
    nlinarith
  linarith

/-- The proximal inequality from the minimising property, for convex functions of one variable. -/
theorem prox_vi {g : ℝ → ℝ} (hg : ConvexOn ℝ Set.univ g) {τ v p : ℝ} (hτ : 0 ≤ τ)
    (h : ∀ y, τ * g p + (p - v) ^ 2 / 2 ≤ τ * g y + (y - v) ^ 2 / 2) (y : ℝ) :
    τ * g p + (v - p) * (y - p) ≤ τ * g y := by
  by_contra hc
  push Not at hc
  have key : ∀ θ : ℝ, 0 < θ → θ ≤ 1 → 0 ≤ (τ * g y - τ * g p - (v - p) * (y - p)) + θ / 2 * (y - p) ^ 2 := by
    intro θ h0 h1
    have hcv := hg.2 (Set.mem_univ p) (Set.mem_univ y) (sub_nonneg.2 h1) h0.le (by ring)
    simp only [smul_eq_mul] at hcv
    have h2 := h ((1 - θ) * p + θ * y)
    have h3 : τ * g ((1 - θ) * p + θ * y) ≤ τ * ((1 - θ) * g p + θ * g y) := mul_le_mul_of_nonneg_left hcv hτ
    have h4 : 0 ≤ θ * ((τ * g y - τ * g p - (v - p) * (y - p)) + θ / 2 * (y - p) ^ 2) := by nlinarith
    exact nonneg_of_mul_nonneg_right h4 h0
  set c := τ * g y - τ * g p - (v - p) * (y - p) with hcd
  have hc0 : c < 0 := by rw [hcd]; linarith
  rcases eq_or_lt_of_le (sq_nonneg (y - p)) with he | he
  · have := key 1 one_pos le_rfl
    rw [← he] at this
    linarith
  · have hpos : 0 < -c / (y - p) ^ 2 := div_pos (by linarith) he
    have h5 := key (min 1 (-c / (y - p) ^ 2)) (lt_min one_pos hpos) (min_le_left _ _)
    have h6 : min 1 (-c / (y - p) ^ 2) * (y - p) ^ 2 ≤ -c := by
      calc _ ≤ -c / (y - p) ^ 2 * (y - p) ^ 2 := mul_le_mul_of_nonneg_right (min_le_right _ _) he.le
        _ = -c := div_mul_cancel₀ _ he.ne'
    nlinarith

/-- Clipping the proximal point of a convex function to an interval gives the proximal point with the constraint. -/
theorem clip_prox_vi {g : ℝ → ℝ} (hg : ConvexOn ℝ Set.univ g) {τ v p : ℝ} (hτ : 0 ≤ τ)
    (h : ∀ y, τ * g p + (v - p) * (y - p) ≤ τ * g y) {lo hi : Option ℝ} {z : ℝ} (hl : ∀ l, lo = some l → l ≤ z)
    (hh : ∀ u, hi = some u → z ≤ u) :
    τ * g (clip1 lo hi p) + (v - clip1 lo hi p) * (z - clip1 lo hi p) ≤ τ * g z := by
  -- moving to a point `c` between `p` and `z`
  have key : ∀ c, (p ≤ c ∧ c ≤ z) ∨ (z ≤ c ∧ c ≤ p) → τ * g c + (v - c) * (z - c) ≤ τ * g z := by
    intro c hc
    by_cases hcp : c = p
    · rw [hcp]; exact h z
    have hne : z - p ≠ 0 := by
      intro h0
      rcases hc with ⟨h1, h2⟩ | ⟨h1, h2⟩ <;> exact hcp (by linarith)
    set θ := (c - p) / (z - p) with hθ
    have hcθ : c = (1 - θ) * p + θ * z := by rw [hθ]; field_simp; ring
    have hθ01 : 0 < θ ∧ θ ≤ 1 := by
      rcases hc with ⟨h1, h2⟩ | ⟨h1, h2⟩
      · have : 0 < z - p := lt_of_le_of_ne (by linarith) hne.symm
        have h3 : p < c := lt_of_le_of_ne h1 (Ne.symm hcp)
        exact ⟨div_pos (by linarith) this, (div_le_one this).2 (by linarith)⟩
      · have : z - p < 0 := lt_of_le_of_ne (by linarith) hne
        have h3 : c < p := lt_of_le_of_ne h2 hcp
        exact ⟨div_pos_of_neg_of_neg (by linarith) this, (div_le_one_of_neg this).2 (by linarith)⟩
    have hcv := hg.2 (Set.mem_univ p) (Set.mem_univ z) (sub_nonneg.2 hθ01.2) hθ01.1.le (by ring)
    simp only [smul_eq_mul] at hcv
    rw [← hcθ] at hcv
    have h1 : τ * g c ≤ τ * ((1 - θ) * g p + θ * g z) := mul_le_mul_of_nonneg_left hcv hτ
    have h2 := h c
    have h3 : (v - p) * (c - p) ≤ τ * g c - τ * g p := by linarith
    have h4 : c - p = θ * (z - p) := by rw [hθ]; field_simp
    have h5 : z - c = (1 - θ) * (z - p) := by rw [hcθ]; ring
    have h6 : v - c = (v - p) - θ * (z - p) := by rw [← h4]; ring
    rw [h4] at h3
    -- slope at c dominates
    have h7 : θ * (τ * g z - τ * g c) ≥ (1 - θ) * (τ * g c - τ * g p) := by nlinarith
    have h8 : θ * (τ * g z - τ * g c) ≥ θ * ((v - p) * ((1 - θ) * (z - p))) := by nlinarith [hθ01.2]
    have h9 := le_of_mul_le_mul_left h8 hθ01.1
    rw [h5, h6]
    nlinarith [mul_nonneg (mul_nonneg hθ01.1.le (sub_nonneg.2 hθ01.2)) (sq_nonneg (z - p))]
  have hbetw : ∀ l u : Option ℝ, (∀ x, l = some x → x ≤ z) → (∀ x, u = some x → z ≤ x) →
      (p ≤ clip1 l u p ∧ clip1 l u p ≤ z) ∨ (z ≤ clip1 l u p ∧ clip1 l u p ≤ p) ∨ clip1 l u p = p := by
    intro l u h1 h2
    unfold clip1
    cases l <;> cases u <;> simp only
    · simp
    · rename_i u
      have := h2 u rfl
      rcases le_total p u with h | h
      · simp [min_eq_left h]
      · rw [min_eq_right h]; tauto
    · rename_i l
      have := h1 l rfl
      rcases le_total p l with h | h
      · rw [max_eq_right h]; tauto
      · simp [max_eq_left h]
    · rename_i l u
      have a1 := h1 l rfl
      have a2 := h2 u rfl
      rcases le_total p l with h | h
      · rw [max_eq_right h, min_eq_left (by linarith)]; tauto
      · rw [max_eq_left h]
        rcases le_total p u with h' | h'
        · simp [min_eq_left h']
        · rw [min_eq_right h']; tauto
  rcases hbetw lo hi hl hh with h1 | h1 | h1
  · exact key _ (Or.inl h1)
  · exact key _ (Or.inr h1)
  · rw [h1]; exact h z

end Verif

namespace Verif
open Classical DataTerm Finset
variable {ν ι Q : Type} [Fintype ν] [Fintype ι]

/-- The scaling of a non-zero matrix without masks and regularizers is finite. -/
theorem matrix_scaling_ok {M : ι → ν → ℝ} (rs rt : ℝ) (hM : ∃ i j, M i j ≠ 0) :
    ∃ p, diagonalScaling (Q := Q) (fun x i => ∑ j, |M i j| * x j) (fun y j => ∑ i, |M i j| * y i) [] rs rt none none
      = .ok p := by
  obtain ⟨i, j, hij⟩ := hM
  have h1 : npMax (fun j => abs (∑ i, |M i j|)) ≠ 0 := by
    have h := le_npMax (fun j => abs (∑ i, |M i j|)) j
    have h2 : |M i j| ≤ ∑ i, |M i j| := single_le_sum (f := fun i => |M i j|) (fun i _ => abs_nonneg _) (mem_univ i)
    have h3 := le_abs_self (∑ i, |M i j|)
    have h4 := abs_pos.2 hij
    exact ne_of_gt (by linarith)
  have h1' : npMax (fun i => abs (∑ j, |M i j|)) ≠ 0 := by
    have h := le_npMax (fun i => abs (∑ j, |M i j|)) i
    have h2 : |M i j| ≤ ∑ j, |M i j| := single_le_sum (f := fun j => |M i j|) (fun i _ => abs_nonneg _) (mem_univ j)
    have h3 := le_abs_self (∑ j, |M i j|)
    have h4 := abs_pos.2 hij
    exact ne_of_gt (by linarith)
  unfold diagonalScaling
  simp only [applyMask, mul_one, List.foldl_nil, h1, h1', if_false]
  exact ⟨_, rfl⟩

theorem sirt_runs {S : Solver ν ι Q} {A : Operator ν ι} {b : Arr ι} {a : Args ν ι} {p}
    (h : diagonalScaling (absOrSelf A).1 (absOrSelf A).2 S.regs 1 S.relaxation a.xMask
      (initBMasks a.bMask a.bTestMask).1 = .ok p) (ht : a.bTestMask = none) : ∃ r, sirt S A b a = .ok r := by
  unfold sirt
  rcases hm : initBMasks a.bMask a.bTestMask with ⟨bm, tm⟩
  have htm : tm = none := by rw [ht] at hm; simp [initBMasks] at hm; exact hm.2.symm
  rw [hm] at h
  simp only at h
  simp only [bind, Except.bind, h, htm, testTerm]
  simp

theorem fista_runs {S : Solver ν ι Q} {A : Operator ν ι} {b : Arr ι} {a : Args ν ι} {p pc rnd}
    (h : fistaScaling S A a pc rnd = .ok p) (ht : a.bTestMask = none) : ∃ r, fista S A b a pc rnd = .ok r := by
  unfold fista
  rcases hm : initBMasks a.bMask a.bTestMask with ⟨bm, tm⟩
  have htm : tm = none := by rw [ht] at hm; simp [initBMasks] at hm; exact hm.2.symm
  simp only [bind, Except.bind, h, htm, testTerm]
  simp

theorem pdhg_runs {S : Solver ν ι Q} {A : Operator ν ι} {b : Arr ι} {a : Args ν ι} {p pc rnd}
    (h : pdhgScaling S A a pc rnd = .ok p) (ht : a.bTestMask = none) : ∃ r, pdhg S A b a pc rnd = .ok r := by
  unfold pdhg
  rcases hm : initBMasks a.bMask a.bTestMask with ⟨bm, tm⟩
  have htm : tm = none := by rw [ht] at hm; simp [initBMasks] at hm; exact hm.2.symm
  simp only [bind, Except.bind, h, htm, testTerm]
  simp

end Verif
