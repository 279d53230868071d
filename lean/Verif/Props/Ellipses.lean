import Verif.Model.Alignment
import Verif.Props.ConeCalibration

/-!
# Ellipses: C39 and the violated claims C93 (tilted ellipses) and C94 (extremes)
-/

namespace Verif

open Real

/-! ## Specification -/

/-- The points determine the conic: no other `m₀ u² + m₁ u + m₂ v + m₃ u v + m₄` vanishes on all of them. -/
def GeneralPosition {n : ℕ} (v u : Fin n → ℝ) : Prop :=
  ∀ m0 m1 m2 m3 m4 : ℝ, (∀ i, m0 * u i ^ 2 + m1 * u i + m2 * v i + m3 * (u i * v i) + m4 = 0) →
    m0 = 0 ∧ m1 = 0 ∧ m2 = 0 ∧ m3 = 0 ∧ m4 = 0

/-- A proper ellipse. -/
def EllPars.Proper (e : EllPars) : Prop := 0 < e.a ∧ 0 < e.b ∧ e.c ^ 2 < e.a * e.b

/-! ## Lemmas -/

/-- If the rows can all be made zero, a least-squares solution makes them all zero. -/
theorem IsLstsq.exact {n m : ℕ} {rows : (Fin m → ℝ) → Fin n → ℝ} {k : Fin m → ℝ} (h : IsLstsq rows k) (k' : Fin m → ℝ)
    (h' : ∀ i, rows k' i = 0) (i : Fin n) : rows k i = 0 := by
  have h1 : ∑ i, (rows k i) ^ 2 ≤ 0 := by
    refine (h k').trans (le_of_eq ?_)
    exact Finset.sum_eq_zero fun i _ => by rw [h' i]; ring
  have h2 := (Finset.sum_eq_zero_iff_of_nonneg (fun i _ => sq_nonneg (rows k i))).1
    (le_antisymm h1 (Finset.sum_nonneg fun i _ => sq_nonneg (rows k i))) i (Finset.mem_univ _)
  exact pow_eq_zero_iff (two_ne_zero) |>.1 h2

theorem absMaxOf_pos {n : ℕ} (x : Fin n → ℝ) (c : ℝ) (h : ∃ i, x i ≠ c) : 0 < absMaxOf x c := by
  obtain ⟨i, hi⟩ := h
  have : |x i - c| ≤ absMaxOf x c := le_ciSup (f := fun i => |x i - c|) (Set.finite_range _).bddAbove i
  exact lt_of_lt_of_le (abs_pos.2 (sub_ne_zero.2 hi)) this

theorem rangeOf_pos {n : ℕ} (x : Fin n → ℝ) (h : ∃ i j, x i ≠ x j) : 0 < rangeOf x := by
  obtain ⟨i, j, hij⟩ := h
  unfold rangeOf
  have ub : ∀ i, x i ≤ ⨆ i, x i := fun i => le_ciSup (Set.finite_range x).bddAbove i
  have lb : ∀ i, (⨅ i, x i) ≤ x i := fun i => ciInf_le (Set.finite_range x).bddBelow i
  rcases lt_or_gt_of_ne hij with h | h
  · linarith [ub j, lb i]
  · linarith [ub i, lb j]

theorem GeneralPosition.u_ne {n : ℕ} {v u : Fin n → ℝ} (h : GeneralPosition v u) (c : ℝ) : ∃ i, u i ≠ c := by
  by_contra hc
  push Not at hc
  have := h 0 1 0 0 (-c) fun i => by rw [hc i]; ring
  exact one_ne_zero this.2.1

theorem GeneralPosition.v_ne {n : ℕ} {v u : Fin n → ℝ} (h : GeneralPosition v u) (c : ℝ) : ∃ i, v i ≠ c := by
  by_contra hc
  push Not at hc
  have := h 0 0 1 0 (-c) fun i => by rw [hc i]; ring
  exact one_ne_zero this.2.2.1

/-- The coefficients (after undoing the scaling) that a fit on points of the ellipse `e` finds: they are those of `e`, in
coordinates centred at `(cv, cu)`. -/
theorem fit_coeffs {n : ℕ} (v u : Fin n → ℝ) (e : EllPars) (he : e.Proper) (hp : ∀ i, e.Contains (v i) (u i))
    (hg : GeneralPosition v u) (cu cv su sv : ℝ) (hsu : su ≠ 0) (hsv : sv ≠ 0) (k : Fin 5 → ℝ)
    (hk : IsLstsq (fun k (i : Fin n) => ellRow k ((v i - cv) / sv) ((u i - cu) / su)) k) :
    k 0 * (sv ^ 2 / su ^ 2) = e.a / e.b ∧
    k 1 * (sv ^ 2 / su) = e.a / e.b * (e.u - cu) + e.c / e.b * (e.v - cv) ∧
    k 2 * sv = (e.v - cv) + e.c / e.b * (e.u - cu) ∧
    k 3 * (sv / su) = e.c / e.b ∧
    k 4 * sv ^ 2 = e.a / e.b * (e.u - cu) ^ 2 + (e.v - cv) ^ 2 + 2 * (e.c / e.b) * (e.u - cu) * (e.v - cv) - 1 / e.b := by
  have hb : e.b ≠ 0 := he.2.1.ne'
  set U := e.u - cu with hU
  set V := e.v - cv with hV
  set K0 := e.a / e.b with hK0
  set K3 := e.c / e.b with hK3
  set K4 := K0 * U ^ 2 + V ^ 2 + 2 * K3 * U * V - 1 / e.b with hK4
  -- the equation of the ellipse in centred coordinates
  have eqn : ∀ i, K0 * (u i - cu) ^ 2 + (v i - cv) ^ 2 + 2 * K3 * (u i - cu) * (v i - cv) - 2 * (K0 * U + K3 * V) * (u i - cu) -
      2 * (V + K3 * U) * (v i - cv) + K4 = 0 := by
    intro i
    have h := hp i
    unfold EllPars.Contains at h
    have h2 : (v i - e.v) ^ 2 + K0 * (u i - e.u) ^ 2 + 2 * K3 * (u i - e.u) * (v i - e.v) = 1 / e.b := by
      rw [hK0, hK3]; field_simp; linarith
    rw [hK4, ← h2, hU, hV]; ring
  have hex := hk.exact ![K0 * su ^ 2 / sv ^ 2, (K0 * U + K3 * V) * su / sv ^ 2, (V + K3 * U) / sv, K3 * su / sv, K4 / sv ^ 2]
    (fun i => by
      have := eqn i
      simp [ellRow]
      field_simp
      linear_combination this)
  -- difference of the two solutions
  have hz : ∀ i, (k 0 * (sv ^ 2 / su ^ 2) - K0) * (u i - cu) ^ 2 + (-2) * (k 1 * (sv ^ 2 / su) - (K0 * U + K3 * V)) * (u i - cu) +
      (-2) * (k 2 * sv - (V + K3 * U)) * (v i - cv) + 2 * (k 3 * (sv / su) - K3) * ((u i - cu) * (v i - cv)) +
      (k 4 * sv ^ 2 - K4) = 0 := by
    intro i
    have h1 := eqn i
    have h2 := hex i
    have h3 : sv ^ 2 * ellRow k ((v i - cv) / sv) ((u i - cu) / su) = 0 := by
      have : ellRow k ((v i - cv) / sv) ((u i - cu) / su) = 0 := h2
      rw [this, mul_zero]
    have h4 : sv ^ 2 * ellRow k ((v i - cv) / sv) ((u i - cu) / su) =
        k 0 * (sv ^ 2 / su ^ 2) * (u i - cu) ^ 2 + (-2) * (k 1 * (sv ^ 2 / su)) * (u i - cu) + (-2) * (k 2 * sv) * (v i - cv) +
        2 * (k 3 * (sv / su)) * ((u i - cu) * (v i - cv)) + k 4 * sv ^ 2 + (v i - cv) ^ 2 := by
      unfold ellRow; field_simp; ring
    linear_combination h3 - h4 - h1
  set d0 := k 0 * (sv ^ 2 / su ^ 2) - K0
  set d1 := k 1 * (sv ^ 2 / su) - (K0 * U + K3 * V)
  set d2 := k 2 * sv - (V + K3 * U)
  set d3 := k 3 * (sv / su) - K3
  set d4 := k 4 * sv ^ 2 - K4
  obtain ⟨z0, z1, z2, z3, z4⟩ := hg d0 (-2 * d0 * cu - 2 * d1 - 2 * d3 * cv) (-2 * d2 - 2 * d3 * cu) (2 * d3)
    (d0 * cu ^ 2 + 2 * d1 * cu + 2 * d2 * cv + 2 * d3 * cu * cv + d4) (fun i => by linear_combination hz i)
  have w3 : d3 = 0 := by linarith
  have w2 : d2 = 0 := by rw [w3] at z2; linarith
  have w1 : d1 = 0 := by rw [w3, z0] at z1; linarith
  have w4 : d4 = 0 := by rw [z0, w1, w2, w3] at z4; linarith
  exact ⟨sub_eq_zero.1 z0, sub_eq_zero.1 w1, sub_eq_zero.1 w2, sub_eq_zero.1 w3, sub_eq_zero.1 w4⟩

/-- The formulas of the code on these coefficients. `U`, `V` is the centre in centred coordinates. -/
theorem ellFromCoeffs_u (a b c U V k4 : ℝ) (hb : b ≠ 0) (hd : a * b - c ^ 2 ≠ 0) :
    (ellFromCoeffs (a / b) (a / b * U + c / b * V) (V + c / b * U) (c / b) k4).u = U := by
  unfold ellFromCoeffs
  simp only
  have h1 : a / b * U + c / b * V - (V + c / b * U) * (c / b) = (a * b - c ^ 2) / b ^ 2 * U := by field_simp; ring
  have h2 : a / b - (c / b) ^ 2 = (a * b - c ^ 2) / b ^ 2 := by field_simp
  rw [h1, h2]
  field_simp

theorem ellFromCoeffs_v (a b c U V k4 : ℝ) :
    (ellFromCoeffs (a / b) (a / b * U + c / b * V) (V + c / b * U) (c / b) k4).v =
      (a / b - (c / b) ^ 2) * V / (a / b - (V + c / b * U) * (c / b)) := by
  unfold ellFromCoeffs
  simp only
  congr 1
  ring

theorem ellFromCoeffs_exact (a b c U V : ℝ) (ha : a ≠ 0) (hb : b ≠ 0) (hd : a * b - c ^ 2 ≠ 0)
    (hV : (a / b - (c / b) ^ 2) * V / (a / b - (V + c / b * U) * (c / b)) = V) :
    ellFromCoeffs (a / b) (a / b * U + c / b * V) (V + c / b * U) (c / b)
      (a / b * U ^ 2 + V ^ 2 + 2 * (c / b) * U * V - 1 / b) = { a := a, b := b, c := c, u := U, v := V } := by
  have hu := ellFromCoeffs_u a b c U V (a / b * U ^ 2 + V ^ 2 + 2 * (c / b) * U * V - 1 / b) hb hd
  have hv := ellFromCoeffs_v a b c U V (a / b * U ^ 2 + V ^ 2 + 2 * (c / b) * U * V - 1 / b)
  rw [hV] at hv
  have haa : (ellFromCoeffs (a / b) (a / b * U + c / b * V) (V + c / b * U) (c / b)
      (a / b * U ^ 2 + V ^ 2 + 2 * (c / b) * U * V - 1 / b)).a = a := by
    show a / b / (a / b * (ellFromCoeffs (a / b) (a / b * U + c / b * V) (V + c / b * U) (c / b)
      (a / b * U ^ 2 + V ^ 2 + 2 * (c / b) * U * V - 1 / b)).u ^ 2 + (ellFromCoeffs (a / b) (a / b * U + c / b * V) (V + c / b * U) (c / b)
      (a / b * U ^ 2 + V ^ 2 + 2 * (c / b) * U * V - 1 / b)).v ^ 2 + 2 * (c / b) * (ellFromCoeffs (a / b) (a / b * U + c / b * V) (V + c / b * U) (c / b)
      (a / b * U ^ 2 + V ^ 2 + 2 * (c / b) * U * V - 1 / b)).u * (ellFromCoeffs (a / b) (a / b * U + c / b * V) (V + c / b * U) (c / b)
      (a / b * U ^ 2 + V ^ 2 + 2 * (c / b) * U * V - 1 / b)).v - (a / b * U ^ 2 + V ^ 2 + 2 * (c / b) * U * V - 1 / b)) = a
    rw [hu, hv]
    have : a / b * U ^ 2 + V ^ 2 + 2 * (c / b) * U * V - (a / b * U ^ 2 + V ^ 2 + 2 * (c / b) * U * V - 1 / b) = 1 / b := by ring
    rw [this]; field_simp
  have hbb : (ellFromCoeffs (a / b) (a / b * U + c / b * V) (V + c / b * U) (c / b)
      (a / b * U ^ 2 + V ^ 2 + 2 * (c / b) * U * V - 1 / b)).b = b := by
    show (ellFromCoeffs (a / b) (a / b * U + c / b * V) (V + c / b * U) (c / b)
      (a / b * U ^ 2 + V ^ 2 + 2 * (c / b) * U * V - 1 / b)).a / (a / b) = b
    rw [haa]; field_simp
  have hcc : (ellFromCoeffs (a / b) (a / b * U + c / b * V) (V + c / b * U) (c / b)
      (a / b * U ^ 2 + V ^ 2 + 2 * (c / b) * U * V - 1 / b)).c = c := by
    show c / b * (ellFromCoeffs (a / b) (a / b * U + c / b * V) (V + c / b * U) (c / b)
      (a / b * U ^ 2 + V ^ 2 + 2 * (c / b) * U * V - 1 / b)).b = c
    rw [hbb]; field_simp
  generalize ellFromCoeffs (a / b) (a / b * U + c / b * V) (V + c / b * U) (c / b)
      (a / b * U ^ 2 + V ^ 2 + 2 * (c / b) * U * V - 1 / b) = E at hu hv haa hbb hcc
  cases E
  simp only at hu hv haa hbb hcc
  subst hu hv haa hbb hcc
  rfl

/-- The possible results of the fit. -/
theorem fitEllipse_cases {n : ℕ} (rescale : Bool) (v u : Fin n → ℝ) (e f : EllPars) (he : e.Proper)
    (hp : ∀ i, e.Contains (v i) (u i)) (hg : GeneralPosition v u) (hf : FitEllipse rescale v u f) :
    ∃ cu cv, (cv = if rescale then meanOf v else 0) ∧
      f = { ellFromCoeffs (e.a / e.b) (e.a / e.b * (e.u - cu) + e.c / e.b * (e.v - cv)) ((e.v - cv) + e.c / e.b * (e.u - cu))
              (e.c / e.b) (e.a / e.b * (e.u - cu) ^ 2 + (e.v - cv) ^ 2 + 2 * (e.c / e.b) * (e.u - cu) * (e.v - cv) - 1 / e.b) with
            u := (ellFromCoeffs (e.a / e.b) (e.a / e.b * (e.u - cu) + e.c / e.b * (e.v - cv)) ((e.v - cv) + e.c / e.b * (e.u - cu))
              (e.c / e.b) (e.a / e.b * (e.u - cu) ^ 2 + (e.v - cv) ^ 2 + 2 * (e.c / e.b) * (e.u - cu) * (e.v - cv) - 1 / e.b)).u + cu
            v := (ellFromCoeffs (e.a / e.b) (e.a / e.b * (e.u - cu) + e.c / e.b * (e.v - cv)) ((e.v - cv) + e.c / e.b * (e.u - cu))
              (e.c / e.b) (e.a / e.b * (e.u - cu) ^ 2 + (e.v - cv) ^ 2 + 2 * (e.c / e.b) * (e.u - cu) * (e.v - cv) - 1 / e.b)).v + cv } := by
  unfold FitEllipse at hf
  simp only at hf
  obtain ⟨k, hk, rfl⟩ := hf
  refine ⟨if rescale then meanOf u else 0, if rescale then meanOf v else 0, rfl, ?_⟩
  have hsu : (if rescale then absMaxOf u (if rescale then meanOf u else 0) else 1) ≠ 0 := by
    cases rescale
    · simp
    · simpa using (absMaxOf_pos u _ (hg.u_ne _)).ne'
  have hsv : (if rescale then absMaxOf v (if rescale then meanOf v else 0) else 1) ≠ 0 := by
    cases rescale
    · simp
    · simpa using (absMaxOf_pos v _ (hg.v_ne _)).ne'
  obtain ⟨h0, h1, h2, h3, h4⟩ := fit_coeffs v u e he hp hg _ _ _ _ hsu hsv k hk
  rw [h0, h1, h2, h3, h4]

/-! ## C39 -/

/-- **C39.** `fit_ellipse_parameters` on points of an ellipse whose axes are parallel to those of the detector, in general
position, finds the ellipse, with or without the rescaling. -/
theorem C39_fit_recovers {n : ℕ} (rescale : Bool) (v u : Fin n → ℝ) (e f : EllPars) (he : e.Proper) (hc : e.c = 0)
    (hp : ∀ i, e.Contains (v i) (u i)) (hg : GeneralPosition v u) (hf : FitEllipse rescale v u f) : f = e := by
  obtain ⟨cu, cv, -, rfl⟩ := fitEllipse_cases rescale v u e f he hp hg hf
  have hb : e.b ≠ 0 := he.2.1.ne'
  have ha : e.a ≠ 0 := he.1.ne'
  rw [ellFromCoeffs_exact e.a e.b e.c (e.u - cu) (e.v - cv) ha hb (by rw [hc]; have := mul_ne_zero ha hb; simpa using this)
    (by rw [hc]; field_simp; ring)]
  cases e
  simp

/-- A result of the fit exists: the system of a least-squares fit always has a solution; here for points of an ellipse. -/
theorem C39_fit_exists {n : ℕ} (rescale : Bool) (v u : Fin n → ℝ) (e : EllPars) (he : e.Proper)
    (hp : ∀ i, e.Contains (v i) (u i)) (hg : GeneralPosition v u) : ∃ f, FitEllipse rescale v u f := by
  have hsu : (if rescale then absMaxOf u (if rescale then meanOf u else 0) else 1) ≠ 0 := by
    cases rescale
    · simp
    · simpa using (absMaxOf_pos u _ (hg.u_ne _)).ne'
  have hsv : (if rescale then absMaxOf v (if rescale then meanOf v else 0) else 1) ≠ 0 := by
    cases rescale
    · simp
    · simpa using (absMaxOf_pos v _ (hg.v_ne _)).ne'
  unfold FitEllipse
  simp only
  revert hsu hsv
  generalize (if rescale then meanOf u else 0) = cu
  generalize (if rescale then meanOf v else 0) = cv
  generalize (if rescale then absMaxOf u cu else 1) = su
  generalize (if rescale then absMaxOf v cv else 1) = sv
  intro hsu hsv
  have hb : e.b ≠ 0 := he.2.1.ne'
  refine ⟨_, ![e.a / e.b * su ^ 2 / sv ^ 2, (e.a / e.b * (e.u - cu) + e.c / e.b * (e.v - cv)) * su / sv ^ 2,
    ((e.v - cv) + e.c / e.b * (e.u - cu)) / sv, e.c / e.b * su / sv,
    (e.a / e.b * (e.u - cu) ^ 2 + (e.v - cv) ^ 2 + 2 * (e.c / e.b) * (e.u - cu) * (e.v - cv) - 1 / e.b) / sv ^ 2], ?_, rfl⟩
  intro k'
  refine le_trans (le_of_eq (Finset.sum_eq_zero fun i _ => ?_)) (Finset.sum_nonneg fun i _ => sq_nonneg _)
  have h := hp i
  unfold EllPars.Contains at h
  have : ellRow ![e.a / e.b * su ^ 2 / sv ^ 2, (e.a / e.b * (e.u - cu) + e.c / e.b * (e.v - cv)) * su / sv ^ 2,
    ((e.v - cv) + e.c / e.b * (e.u - cu)) / sv, e.c / e.b * su / sv,
    (e.a / e.b * (e.u - cu) ^ 2 + (e.v - cv) ^ 2 + 2 * (e.c / e.b) * (e.u - cu) * (e.v - cv) - 1 / e.b) / sv ^ 2]
    ((v i - cv) / sv) ((u i - cu) / su) = 0 := by
    simp [ellRow]
    field_simp
    linear_combination h
  show (ellRow _ _ _) ^ 2 = 0
  rw [this]; ring

/-- The discriminant of `Ellipse.__call__`. -/
theorem ell_call_disc (e : EllPars) (uu : ℝ) :
    (2 * (-e.b * e.v + e.c * (uu - e.u))) ^ 2 - 4 * e.b * -(1 - e.a * (uu - e.u) ^ 2 - e.b * e.v ^ 2 + 2 * e.c * e.v * (uu - e.u)) =
      4 * (e.b - (e.a * e.b - e.c ^ 2) * (uu - e.u) ^ 2) := by ring

/-- **C39.** `Ellipse.__call__`: the two returned values are exactly the `v` for which `(v, u)` is on the ellipse, at every `u`
where there is one. -/
theorem C39_evaluation (e : EllPars) (he : e.Proper) (uu : ℝ) (hu : ∃ v, e.Contains v uu) (w : ℝ) :
    e.Contains w uu ↔ w = (e.call uu).1 ∨ w = (e.call uu).2 := by
  have hb : e.b ≠ 0 := he.2.1.ne'
  have quad : ∀ w, e.Contains w uu ↔ (2 * e.b * w + 2 * (-e.b * e.v + e.c * (uu - e.u))) ^ 2 =
      (2 * (-e.b * e.v + e.c * (uu - e.u))) ^ 2 - 4 * e.b * -(1 - e.a * (uu - e.u) ^ 2 - e.b * e.v ^ 2 + 2 * e.c * e.v * (uu - e.u)) := by
    intro w
    unfold EllPars.Contains
    constructor
    · intro h; linear_combination (4 * e.b) * h
    · intro h
      have : 4 * e.b * (e.b * (w - e.v) ^ 2 + e.a * (uu - e.u) ^ 2 + 2 * e.c * (uu - e.u) * (w - e.v) - 1) = 0 := by
        linear_combination h
      have h2 := (mul_eq_zero.1 this).resolve_left (mul_ne_zero four_ne_zero hb)
      linarith
  obtain ⟨w0, hw0⟩ := hu
  rw [quad] at hw0
  have hnn : 0 ≤ (2 * (-e.b * e.v + e.c * (uu - e.u))) ^ 2 -
      4 * e.b * -(1 - e.a * (uu - e.u) ^ 2 - e.b * e.v ^ 2 + 2 * e.c * e.v * (uu - e.u)) := by rw [← hw0]; positivity
  have hs := Real.sq_sqrt hnn
  rw [quad]
  unfold EllPars.call
  simp only
  set δ := √((2 * (-e.b * e.v + e.c * (uu - e.u))) ^ 2 -
      4 * e.b * -(1 - e.a * (uu - e.u) ^ 2 - e.b * e.v ^ 2 + 2 * e.c * e.v * (uu - e.u)))
  rw [← hs, sq_eq_sq_iff_eq_or_eq_neg]
  constructor
  · rintro (h | h)
    · left; field_simp; linarith
    · right; field_simp; linarith
  · rintro (h | h)
    · left; rw [h]; field_simp; ring
    · right; rw [h]; field_simp; ring

/-- Two chords that are not parallel have at most one common point, so the least-squares centre is unique. -/
theorem center_unique {n : ℕ} (v1 u1 v2 u2 : Fin n → ℝ) (cv cu cv' cu' : ℝ)
    (h : ∀ i, (u2 i - u1 i) * cv + -(v2 i - v1 i) * cu = v1 i * u2 i - u1 i * v2 i)
    (h' : ∀ i, (u2 i - u1 i) * cv' + -(v2 i - v1 i) * cu' = v1 i * u2 i - u1 i * v2 i)
    (hpar : ∃ i j, (u2 i - u1 i) * (v2 j - v1 j) ≠ (u2 j - u1 j) * (v2 i - v1 i)) : cv = cv' ∧ cu = cu' := by
  obtain ⟨i, j, hij⟩ := hpar
  have hne : (u2 i - u1 i) * (v2 j - v1 j) - (u2 j - u1 j) * (v2 i - v1 i) ≠ 0 := sub_ne_zero.2 hij
  constructor
  · have : ((u2 i - u1 i) * (v2 j - v1 j) - (u2 j - u1 j) * (v2 i - v1 i)) * (cv - cv') = 0 := by
      linear_combination (v2 j - v1 j) * (h i - h' i) - (v2 i - v1 i) * (h j - h' j)
    exact sub_eq_zero.1 ((mul_eq_zero.1 this).resolve_left hne)
  · have : ((u2 i - u1 i) * (v2 j - v1 j) - (u2 j - u1 j) * (v2 i - v1 i)) * (cu - cu') = 0 := by
      linear_combination (u2 j - u1 j) * (h i - h' i) - (u2 i - u1 i) * (h j - h' j)
    exact sub_eq_zero.1 ((mul_eq_zero.1 this).resolve_left hne)

/-- A fit of the centre, when all the chords have a common point, finds it. -/
theorem fitCenter_common {n : ℕ} (rescale : Bool) (v1 u1 v2 u2 : Fin n → ℝ) (cv cu fv fu : ℝ)
    (h : ∀ i, (u2 i - u1 i) * cv + -(v2 i - v1 i) * cu = v1 i * u2 i - u1 i * v2 i)
    (hpar : ∃ i j, (u2 i - u1 i) * (v2 j - v1 j) ≠ (u2 j - u1 j) * (v2 i - v1 i))
    (hf : FitCenter rescale v1 u1 v2 u2 fv fu) : fv = cv ∧ fu = cu := by
  have hv : ∃ i, v1 i ≠ v2 i := by
    by_contra hc
    push Not at hc
    obtain ⟨i, j, hij⟩ := hpar
    apply hij; rw [hc i, hc j]; ring
  have hu : ∃ i, u1 i ≠ u2 i := by
    by_contra hc
    push Not at hc
    obtain ⟨i, j, hij⟩ := hpar
    apply hij; rw [hc i, hc j]; ring
  unfold FitCenter at hf
  simp only at hf
  have hsv : (if rescale then rangeOf (Fin.append v1 v2) else 1) ≠ 0 := by
    cases rescale
    · simp
    · obtain ⟨i, hi⟩ := hv
      simpa using (rangeOf_pos (Fin.append v1 v2) ⟨Fin.castAdd n i, Fin.natAdd n i, by rw [Fin.append_left, Fin.append_right]; exact hi⟩).ne'
  have hsu : (if rescale then rangeOf (Fin.append u1 u2) else 1) ≠ 0 := by
    cases rescale
    · simp
    · obtain ⟨i, hi⟩ := hu
      simpa using (rangeOf_pos (Fin.append u1 u2) ⟨Fin.castAdd n i, Fin.natAdd n i, by rw [Fin.append_left, Fin.append_right]; exact hi⟩).ne'
  revert hf hsu hsv
  generalize (if rescale then rangeOf (Fin.append v1 v2) else 1) = sv
  generalize (if rescale then rangeOf (Fin.append u1 u2) else 1) = su
  generalize ((∑ i, v1 i) + ∑ i, v2 i) / (2 * (n : ℝ)) = mv
  generalize ((∑ i, u1 i) + ∑ i, u2 i) / (2 * (n : ℝ)) = mu
  rintro ⟨k, hk, rfl, rfl⟩ hsv hsu
  have hex := hk.exact ![(cv - mv) / sv, (cu - mu) / su] (fun i => by
    simp [centerRow]
    field_simp
    linear_combination h i)
  refine center_unique v1 u1 v2 u2 _ _ _ _ (fun i => ?_) h hpar
  have := hex i
  have h2 : su * sv * centerRow ((v1 i - mv) / sv) ((u1 i - mu) / su) ((v2 i - mv) / sv) ((u2 i - mu) / su) k = 0 := by
    have : centerRow ((v1 i - mv) / sv) ((u1 i - mu) / su) ((v2 i - mv) / sv) ((u2 i - mu) / su) k = 0 := this
    rw [this, mul_zero]
  unfold centerRow at h2
  have h3 : su * sv * ((((u2 i - mu) / su - (u1 i - mu) / su)) * k 0 + -((v2 i - mv) / sv - (v1 i - mv) / sv) * k 1 -
      ((v1 i - mv) / sv * ((u2 i - mu) / su) - (u1 i - mu) / su * ((v2 i - mv) / sv))) =
      (u2 i - u1 i) * (k 0 * sv) - (v2 i - v1 i) * (k 1 * su) - ((v1 i - mv) * (u2 i - mu) - (u1 i - mu) * (v2 i - mv)) := by
    field_simp
    ring
  rw [h3] at h2
  linear_combination h2

theorem opposite_collinear (g : ConeBeam) (ht : g.theta = 0) (he : g.eta = 0) (hD : g.D ≠ 0) (r z s v1 u1 v2 u2 cv cu : ℝ)
    (h1 : IsProjection g (circlePoint r z s) v1 u1) (h2 : IsProjection g (circlePoint r z (s + π)) v2 u2)
    (hc : IsProjection g ⟨0, 0, z⟩ cv cu) : (u2 - u1) * cv + -(v2 - v1) * cu = v1 * u2 - u1 * v2 := by
  obtain ⟨t1, a1, b1, c1⟩ := (projection_iff g ht he r z s _ _).1 h1
  obtain ⟨t2, a2, b2, c2⟩ := (projection_iff g ht he r z (s + π) _ _).1 h2
  have hc' : IsProjection g (circlePoint 0 z 0) cv cu := by
    have : circlePoint 0 z 0 = ⟨0, 0, z⟩ := by unfold circlePoint; simp
    rw [this]; exact hc
  obtain ⟨t, a0, b0, c0⟩ := (projection_iff g ht he 0 z 0 _ _).1 hc'
  have e1 : cos (s + π + g.phi) = -cos (s + g.phi) := by rw [show s + π + g.phi = s + g.phi + π by ring, cos_add_pi]
  have e2 : sin (s + π + g.phi) = -sin (s + g.phi) := by rw [show s + π + g.phi = s + g.phi + π by ring, sin_add_pi]
  rw [e1] at a2
  rw [e2] at c2
  rw [zero_mul, sub_zero] at a0 c0
  revert a0 a1 a2 c0 c1 c2 hD
  generalize g.D = D
  generalize g.R * cos g.phi = A
  generalize g.R * sin g.phi = B
  have e3 : r * -cos (s + g.phi) = -(r * cos (s + g.phi)) := by ring
  have e4 : r * -sin (s + g.phi) = -(r * sin (s + g.phi)) := by ring
  rw [e3, e4]
  generalize r * cos (s + g.phi) = X
  generalize r * sin (s + g.phi) = Y
  intro hD a1 c1 a2 c2 a0 c0
  have hv1 : v1 = g.v0 + t1 * z := by linarith
  have hv2 : v2 = g.v0 + t2 * z := by linarith
  have hv : cv = g.v0 + t * z := by linarith
  have hu : cu = g.u0 + t * B := by linarith
  have hu1 : u1 = g.u0 + t1 * (B - Y) := by linarith
  have hu2 : u2 = g.u0 + t2 * (B - -Y) := by linarith
  have hk : t * (t1 + t2) = 2 * t1 * t2 := by
    have : D * (t * (t1 + t2) - 2 * t1 * t2) = 0 := by
      linear_combination (-t * t2) * a1 + (-t * t1) * a2 + (2 * t1 * t2) * a0
    exact sub_eq_zero.1 ((mul_eq_zero.1 this).resolve_left hD)
  rw [hv1, hv2, hv, hu, hu1, hu2]
  linear_combination (z * Y) * hk

/-- **C39.** `fit_ellipse_center` finds the projection of the centre of the circle from pairs of opposite points of the trajectory
(the centre of the circle is not projected to the centre of the ellipse). -/
theorem C39_projected_centre {n : ℕ} (rescale : Bool) (g : ConeBeam) (ht : g.theta = 0) (he : g.eta = 0) (hD : g.D ≠ 0)
    (r z : ℝ) (s : Fin n → ℝ) (v1 u1 v2 u2 : Fin n → ℝ) (h1 : ∀ i, IsProjection g (circlePoint r z (s i)) (v1 i) (u1 i))
    (h2 : ∀ i, IsProjection g (circlePoint r z (s i + π)) (v2 i) (u2 i))
    (hpar : ∃ i j, (u2 i - u1 i) * (v2 j - v1 j) ≠ (u2 j - u1 j) * (v2 i - v1 i))
    (fv fu cv cu : ℝ) (hf : FitCenter rescale v1 u1 v2 u2 fv fu) (hc : IsProjection g ⟨0, 0, z⟩ cv cu) : fv = cv ∧ fu = cu := by
  exact fitCenter_common rescale v1 u1 v2 u2 cv cu fv fu
    (fun i => opposite_collinear g ht he hD r z (s i) _ _ _ _ _ _ (h1 i) (h2 i) hc) hpar hf

/-- Six points of the ellipse `x² + y² + x y = 1` around `(1, 1)`. -/
theorem six_points_general : GeneralPosition (n := 6) ![1, 1, 2, 0, 0, 2] ![2, 0, 1, 1, 2, 0] := by
  intro m0 m1 m2 m3 m4 h
  have a := h 0
  have b := h 1
  have c := h 2
  have d := h 3
  have e := h 4
  have f := h 5
  simp [Matrix.cons_val] at a b c d e f
  refine ⟨?_, ?_, ?_, ?_, ?_⟩ <;> linarith

/-- Non-vacuity of C39: points of a circle in general position. -/
example : ∃ (v u : Fin 6 → ℝ) (e : EllPars), e.Proper ∧ e.c = 0 ∧ (∀ i, e.Contains (v i) (u i)) ∧ GeneralPosition v u := by
  refine ⟨![0, 0, 5, -5, 3, 4], ![5, -5, 0, 0, 4, 3], ⟨1 / 25, 1 / 25, 0, 0, 0⟩, ⟨by norm_num, by norm_num, by norm_num⟩, rfl, ?_, ?_⟩
  · intro i; fin_cases i <;> simp [EllPars.Contains] <;> norm_num
  · intro m0 m1 m2 m3 m4 h
    have a := h 0
    have b := h 1
    have c := h 2
    have d := h 3
    have e := h 4
    have f := h 5
    simp [Matrix.cons_val] at a b c d e f
    refine ⟨?_, ?_, ?_, ?_, ?_⟩ <;> linarith

/-! ## C93: tilted ellipses -/

/-- **C93 (violated).** `fit_ellipse_parameters` finds the ellipse through the points: wrong for tilted ellipses, since the
formula of the `v` of the centre has a wrong denominator. -/
theorem C93_tilted_ellipse_violated :
    ¬ ∀ (n : ℕ) (rescale : Bool) (v u : Fin n → ℝ) (e f : EllPars), e.Proper → (∀ i, e.Contains (v i) (u i)) →
      GeneralPosition v u → FitEllipse rescale v u f → f = e := by
  intro h
  let e : EllPars := { a := 1, b := 1, c := 1 / 2, u := 1, v := 1 }
  have he : e.Proper := ⟨one_pos, one_pos, by norm_num [e]⟩
  have hp : ∀ i, e.Contains ((![1, 1, 2, 0, 0, 2] : Fin 6 → ℝ) i) ((![2, 0, 1, 1, 2, 0] : Fin 6 → ℝ) i) := by
    intro i; fin_cases i <;> simp [EllPars.Contains, e] <;> norm_num
  obtain ⟨f, hf⟩ := C39_fit_exists false _ _ e he hp six_points_general
  have h1 := h 6 false _ _ e f he hp six_points_general hf
  obtain ⟨cu, cv, hcv, h2⟩ := fitEllipse_cases false _ _ e f he hp six_points_general hf
  rw [h1] at h2
  unfold FitEllipse at hf
  simp only [Bool.false_eq_true, if_false] at hf
  obtain ⟨k, hk, rfl⟩ := hf
  obtain ⟨h0, h1', h2', h3, h4⟩ := fit_coeffs _ _ e he hp six_points_general 0 0 1 1 one_ne_zero one_ne_zero k hk
  rw [h0, h1', h2', h3, h4] at h1
  have := congrArg EllPars.v h1
  simp [ellFromCoeffs, e] at this
  norm_num at this

/-- **C93 (partial).** What is true of all ellipses: the `u` of the centre is found; and the whole ellipse is, if `v` of the
centre is the mean of the `v` of the points (with the rescaling), as for samples that are symmetric around the centre. -/
theorem C93_tilted_ellipse_partial {n : ℕ} (rescale : Bool) (v u : Fin n → ℝ) (e f : EllPars) (he : e.Proper)
    (hp : ∀ i, e.Contains (v i) (u i)) (hg : GeneralPosition v u) (hf : FitEllipse rescale v u f) :
    f.u = e.u ∧ (rescale = true → meanOf v = e.v → f = e) := by
  obtain ⟨cu, cv, hcv, hf'⟩ := fitEllipse_cases rescale v u e f he hp hg hf
  have hb : e.b ≠ 0 := he.2.1.ne'
  have ha : e.a ≠ 0 := he.1.ne'
  have hd : e.a * e.b - e.c ^ 2 ≠ 0 := by have := he.2.2; linarith
  constructor
  · rw [hf']
    simp only
    rw [ellFromCoeffs_u _ _ _ _ _ _ hb hd]
    ring
  · intro hr hm
    rw [hr] at hcv
    simp only [if_true] at hcv
    rw [hf', ellFromCoeffs_exact e.a e.b e.c (e.u - cu) (e.v - cv) ha hb hd (by rw [hcv, hm]; simp)]
    cases e
    simp

/-! ## C94: the extremes -/

/-- **C94 (violated).** `Ellipse.extremes_u` are the smallest and largest `u` of the ellipse: wrong for tilted ones. -/
theorem C94_extremes_violated :
    ¬ ∀ e : EllPars, e.Proper → IsLeast {u | ∃ v, e.Contains v u} e.extremesU.1 ∧ IsGreatest {u | ∃ v, e.Contains v u} e.extremesU.2 := by
  intro h
  have := (h ⟨1, 1, 1 / 2, 0, 0⟩ ⟨by norm_num, by norm_num, by norm_num⟩).2.2
    (show (11 / 10 : ℝ) ∈ _ from ⟨(-(11 / 10) + √(4 - 3 * (11 / 10) ^ 2)) / 2, by
      unfold EllPars.Contains
      have hs := Real.sq_sqrt (show (0 : ℝ) ≤ 4 - 3 * (11 / 10) ^ 2 by norm_num)
      simp only
      linear_combination (1 / 4) * hs⟩)
  simp [EllPars.extremesU] at this
  norm_num at this

/-- **C94 (partial).** What is true: the values are on the ellipse's range of `u`, and they are its extremes if the axes of the
ellipse are parallel to those of the detector. -/
theorem C94_extremes_partial (e : EllPars) (he : e.Proper) :
    (∃ v, e.Contains v e.extremesU.1) ∧ (∃ v, e.Contains v e.extremesU.2) ∧
    (e.c = 0 → IsLeast {u | ∃ v, e.Contains v u} e.extremesU.1 ∧ IsGreatest {u | ∃ v, e.Contains v u} e.extremesU.2) := by
  have ha := he.1
  have hb := he.2.1
  have hs : (√(1 / e.a)) ^ 2 = 1 / e.a := Real.sq_sqrt (by positivity)
  have hs' : e.a * (√(1 / e.a)) ^ 2 = 1 := by rw [hs]; field_simp
  have m1 : ∃ v, e.Contains v e.extremesU.1 := by
    refine ⟨e.v, ?_⟩
    unfold EllPars.Contains EllPars.extremesU
    simp only
    linear_combination hs'
  have m2 : ∃ v, e.Contains v e.extremesU.2 := by
    refine ⟨e.v, ?_⟩
    unfold EllPars.Contains EllPars.extremesU
    simp only
    linear_combination hs'
  have bound : e.c = 0 → ∀ u ∈ {u | ∃ v, e.Contains v u}, |u - e.u| ≤ √(1 / e.a) := by
    rintro hc u ⟨v, hv⟩
    unfold EllPars.Contains at hv
    rw [hc] at hv
    apply Real.abs_le_sqrt
    rw [le_div_iff₀ ha]
    nlinarith [mul_nonneg hb.le (sq_nonneg (v - e.v))]
  refine ⟨m1, m2, fun hc => ⟨⟨m1, fun u hu => ?_⟩, ⟨m2, fun u hu => ?_⟩⟩⟩
  · have := (abs_le.1 (bound hc u hu)).1
    unfold EllPars.extremesU; simp only; linarith
  · have := (abs_le.1 (bound hc u hu)).2
    unfold EllPars.extremesU; simp only; linarith

end Verif
