import Verif.Props.Geometry

/-!
# Calibration of cone-beam geometries from the trajectories of two points (C89, C90)
-/

namespace Verif

open V3 Real

/-! ## Specification: projections and ellipses -/

/-- `(v, u)` is the projection of the point `P` of the volume on the detector: the point of the detector with these coordinates
is on the line from the source through `P`. -/
def IsProjection (g : ConeBeam) (P : V3) (v u : ℝ) : Prop :=
  ∃ s d eu ev t, (g.prjGeom false).srcPos = [s] ∧ (g.prjGeom false).detPos = [d] ∧ (g.prjGeom false).detU = [eu] ∧
    (g.prjGeom false).detV = [ev] ∧ s + smul t (P - s) = d + smul u eu + smul v ev

/-- The point at angle `s` on the circle of radius `r` around the rotation axis at height `z`. -/
noncomputable def circlePoint (r z s : ℝ) : V3 := ⟨r * cos s, r * sin s, z⟩

/-- `(v, u)` is on the ellipse. -/
def EllPars.Contains (p : EllPars) (v u : ℝ) : Prop :=
  p.b * (v - p.v) ^ 2 + p.a * (u - p.u) ^ 2 + 2 * p.c * (u - p.u) * (v - p.v) = 1

/-- The ellipse is the trajectory of the point that turns on the circle. -/
def EllPars.IsTrajectory (p : EllPars) (g : ConeBeam) (r z : ℝ) : Prop :=
  ∀ s v u, IsProjection g (circlePoint r z s) v u → p.Contains v u

/-! ## Projections of a circle -/

theorem projection_iff (g : ConeBeam) (ht : g.theta = 0) (he : g.eta = 0) (r z s v u : ℝ) :
    IsProjection g (circlePoint r z s) v u ↔ ∃ t, t * (g.R * cos g.phi - r * cos (s + g.phi)) = g.D ∧ v - g.v0 = t * z ∧
      u - g.u0 = t * (g.R * sin g.phi - r * sin (s + g.phi)) := by
  have h0 : smul (-g.eta) g.normal = 0 := by ext <;> simp [he]
  have hcs := sin_sq_add_cos_sq g.phi
  have key : ∀ t, (smul g.R ⟨1, 0, 0⟩ + 0 + smul t (circlePoint r z s - (smul g.R ⟨1, 0, 0⟩ + 0)) =
      -(smul g.D g.normal) + smul g.R ⟨1, 0, 0⟩ - smul g.u0 g.alpha - smul g.v0 g.beta + 0 + smul u g.alpha + smul v g.beta) ↔
      (t * (g.R * cos g.phi - r * cos (s + g.phi)) = g.D ∧ v - g.v0 = t * z ∧
        u - g.u0 = t * (g.R * sin g.phi - r * sin (s + g.phi))) := by
    intro t
    rw [V3.ext_iff]
    simp only [ConeBeam.normal, ConeBeam.alpha, ConeBeam.beta, circlePoint, ht, add_x, add_y, add_z, sub_x, sub_y, sub_z, neg_x,
      neg_y, neg_z, smul_x, smul_y, smul_z, zero_x, zero_y, zero_z, sin_zero, cos_zero, cos_add, sin_add]
    constructor
    · rintro ⟨h1, h2, h3⟩
      refine ⟨?_, ?_, ?_⟩
      · linear_combination (-cos g.phi) * h1 + (sin g.phi) * h2 + (g.D) * hcs
      · linear_combination -h3
      · linear_combination (sin g.phi) * h1 + (cos g.phi) * h2 - (u - g.u0) * hcs
    · rintro ⟨h1, h2, h3⟩
      refine ⟨?_, ?_, ?_⟩
      · linear_combination (-cos g.phi) * h1 + (sin g.phi) * h3 + t * (g.R - r * cos s) * hcs
      · linear_combination (sin g.phi) * h1 + (cos g.phi) * h3 - t * (r * sin s) * hcs
      · linear_combination -h2
  constructor
  · rintro ⟨sp, d, eu, ev, t, hs, hd, hu, hv, h⟩
    refine ⟨t, (key t).1 ?_⟩
    have hs' := (List.cons.inj hs).1
    have hd' := (List.cons.inj hd).1
    have hu' := (List.cons.inj hu).1
    have hv' := (List.cons.inj hv).1
    rw [h0, rotVec_zero] at hu' hv'
    rw [← hs', ← hd', ← hu', ← hv'] at h
    exact h
  · rintro ⟨t, h⟩
    refine ⟨_, _, _, _, t, rfl, rfl, rfl, rfl, ?_⟩
    rw [h0, rotVec_zero, rotVec_zero]
    exact (key t).2 h

/-- The ellipse of the projections of a circle; `A = R cos φ`, `B = R sin φ`. -/
noncomputable def trueEll (A B D v0 u0 r z : ℝ) : EllPars where
  b := (A ^ 2 + B ^ 2 - r ^ 2) * (A ^ 2 - r ^ 2) / (D ^ 2 * z ^ 2 * r ^ 2)
  a := (A ^ 2 - r ^ 2) / (D ^ 2 * r ^ 2)
  c := -B * (A ^ 2 - r ^ 2) / (D ^ 2 * z * r ^ 2)
  v := v0 + A * D * z / (A ^ 2 - r ^ 2)
  u := u0 + A * B * D / (A ^ 2 - r ^ 2)

/-- The trajectory is an ellipse. -/
theorem trueEll_contains (A B D v0 u0 r z X Y t v u : ℝ) (hD : D ≠ 0) (hr : r ≠ 0) (hz : z ≠ 0) (hA : A ^ 2 - r ^ 2 ≠ 0)
    (hXY : X ^ 2 + Y ^ 2 = 1) (ht : t * (A - r * X) = D) (hv : v - v0 = t * z) (hu : u - u0 = t * (B - r * Y)) :
    (trueEll A B D v0 u0 r z).Contains v u := by
  unfold EllPars.Contains trueEll
  have hv' : v = v0 + t * z := by linarith
  have hu' : u = u0 + t * (B - r * Y) := by linarith
  subst hv' hu'
  simp only
  have e1 : v0 + t * z - (v0 + A * D * z / (A ^ 2 - r ^ 2)) = z * (t * (A ^ 2 - r ^ 2) - A * D) / (A ^ 2 - r ^ 2) := by
    field_simp; ring
  have e2 : u0 + t * (B - r * Y) - (u0 + A * B * D / (A ^ 2 - r ^ 2)) =
      (t * (B - r * Y) * (A ^ 2 - r ^ 2) - A * B * D) / (A ^ 2 - r ^ 2) := by
    field_simp; ring
  rw [e1, e2]
  subst ht
  have hw : A - r * X ≠ 0 := fun h => hD (by rw [h, mul_zero])
  have ht0 : t ≠ 0 := fun h => hD (by rw [h, zero_mul])
  field_simp
  linear_combination (r ^ 2 * (A ^ 2 - r ^ 2) ^ 2) * hXY

/-- The algebra of `trueEll_unique`: the equations of the coefficients determine the parameters. -/
theorem trueEll_algebra (A B D r z a b c α β : ℝ) (hD : D ≠ 0) (hr : 0 < r) (hz : z ≠ 0) (hA : r < A)
    (EY : a * (D * B - β * A) + c * (D * z - α * A) = 0) (EXY : a * β + c * α = 0)
    (EXX : α * (b * α + c * β) = 1 + a * D ^ 2) (EX : (D * z - α * A) * (b * α + c * β) = -A)
    (E1 : (D * z - α * A) * (b * (D * z - α * A) + c * (D * B - β * A)) = A ^ 2 - a * D ^ 2 * r ^ 2) :
    a = (A ^ 2 - r ^ 2) / (D ^ 2 * r ^ 2) ∧ c = -B * (A ^ 2 - r ^ 2) / (D ^ 2 * z * r ^ 2) ∧
    α = A * D * z / (A ^ 2 - r ^ 2) ∧ β = A * B * D / (A ^ 2 - r ^ 2) ∧
    b = (A ^ 2 + B ^ 2 - r ^ 2) * (A ^ 2 - r ^ 2) / (D ^ 2 * z ^ 2 * r ^ 2) := by
  have hr0 : r ≠ 0 := hr.ne'
  have hcz : a * B + c * z = 0 := by
    have : D * (a * B + c * z) = 0 := by linear_combination EY + A * EXY
    exact (mul_eq_zero.1 this).resolve_left hD
  have hG : D * z * (b * α + c * β) = A * a * D ^ 2 := by linear_combination EX + A * EXX
  have hA0 : A ≠ 0 := by linarith
  have ha : a ≠ 0 := by
    intro ha
    subst ha
    have hc : c = 0 := by
      rcases mul_eq_zero.1 (by linear_combination hcz : c * z = 0) with h | h
      · exact h
      · exact absurd h hz
    subst hc
    have hG0 : b * α + 0 * β = 0 := by
      rcases mul_eq_zero.1 (by linear_combination hG : D * z * (b * α + 0 * β) = 0) with h | h
      · exact absurd h (mul_ne_zero hD hz)
      · exact h
    rw [hG0] at EXX
    simp at EXX
  have hGv : b * α + c * β = A * a * D / z := by
    have h0 : D * z ≠ 0 := mul_ne_zero hD hz
    field_simp
    have : D * ((b * α + c * β) * z - A * a * D) = 0 := by linear_combination hG
    rcases mul_eq_zero.1 this with h | h
    · exact absurd h hD
    · linear_combination h
  have hp : (D * z - α * A) * (a * D) = -z := by
    have h1 : (D * z - α * A) * (A * a * D / z) = -A := by rw [← hGv]; exact EX
    have h2 : A * ((D * z - α * A) * (a * D) + z) = 0 := by
      field_simp at h1
      linear_combination A * h1
    have := (mul_eq_zero.1 h2).resolve_left hA0
    linarith
  have hpD : (D * z - α * A) * (b * z + c * B) = -(a * D * r ^ 2) := by
    have : D * ((D * z - α * A) * (b * z + c * B) + a * D * r ^ 2) = 0 := by linear_combination E1 + A * EX
    have := (mul_eq_zero.1 this).resolve_left hD
    linarith
  have hbz : z * (b * z + c * B) = a ^ 2 * D ^ 2 * r ^ 2 := by linear_combination (b * z + c * B) * hp - (a * D) * hpD
  have hβα : a * (β * z - α * B) = 0 := by linear_combination z * EXY - α * hcz
  have hβ' : β * z = α * B := by
    have := (mul_eq_zero.1 hβα).resolve_left ha
    linarith
  have hGα : α * (b * z + c * B) = A * a * D := by
    have : (b * α + c * β) * z = A * a * D := by rw [hGv]; field_simp
    linear_combination this - c * hβ'
  have hαv : α * (a * D * r ^ 2) = A * z := by
    have : (a * D) * (α * (a * D * r ^ 2) - A * z) = 0 := by linear_combination z * hGα - α * hbz
    have := (mul_eq_zero.1 this).resolve_left (mul_ne_zero ha hD)
    linarith
  have hav : a * (D ^ 2 * r ^ 2) = A ^ 2 - r ^ 2 := by
    have : z * (a * (D ^ 2 * r ^ 2) - (A ^ 2 - r ^ 2)) = 0 := by linear_combination r ^ 2 * hp + A * hαv
    have := (mul_eq_zero.1 this).resolve_left hz
    linarith
  have hA2 : A ^ 2 - r ^ 2 ≠ 0 := by
    have : 0 < A ^ 2 - r ^ 2 := by nlinarith
    exact this.ne'
  have hDr : D ^ 2 * r ^ 2 ≠ 0 := mul_ne_zero (pow_ne_zero 2 hD) (pow_ne_zero 2 hr0)
  have ea : a = (A ^ 2 - r ^ 2) / (D ^ 2 * r ^ 2) := by rw [eq_div_iff hDr]; exact hav
  have ec : c = -B * (A ^ 2 - r ^ 2) / (D ^ 2 * z * r ^ 2) := by
    rw [eq_div_iff (by positivity)]
    linear_combination D ^ 2 * r ^ 2 * hcz - B * hav
  have eα : α = A * D * z / (A ^ 2 - r ^ 2) := by
    rw [eq_div_iff hA2, ← hav]
    linear_combination D * hαv
  have eβ : β = A * B * D / (A ^ 2 - r ^ 2) := by
    have : z * (β * (A ^ 2 - r ^ 2) - A * B * D) = 0 := by
      rw [eα] at hβ'
      field_simp at hβ'
      linear_combination z * hβ'
    rw [eq_div_iff hA2]
    have := (mul_eq_zero.1 this).resolve_left hz
    linarith
  have eb : b = (A ^ 2 + B ^ 2 - r ^ 2) * (A ^ 2 - r ^ 2) / (D ^ 2 * z ^ 2 * r ^ 2) := by
    rw [eq_div_iff (by positivity)]
    have h1 : a ^ 2 * D ^ 2 * r ^ 2 * (D ^ 2 * r ^ 2) = (A ^ 2 - r ^ 2) ^ 2 := by rw [← hav]; ring
    linear_combination D ^ 2 * r ^ 2 * hbz + h1 - B * (D ^ 2 * r ^ 2) * hcz + B ^ 2 * hav
  exact ⟨ea, ec, eα, eβ, eb⟩

/-- The trajectory determines the ellipse. -/
theorem trueEll_unique (A B D v0 u0 r z : ℝ) (hD : D ≠ 0) (hr : 0 < r) (hz : z ≠ 0) (hA : r < A) (p : EllPars)
    (h : ∀ X Y : ℝ, X ^ 2 + Y ^ 2 = 1 → p.Contains (v0 + D / (A - r * X) * z) (u0 + D / (A - r * X) * (B - r * Y))) :
    p = trueEll A B D v0 u0 r z := by
  obtain ⟨b, a, c, pv, pu⟩ := p
  have hF : ∀ X Y : ℝ, X ^ 2 + Y ^ 2 = 1 →
      b * (D * z - (pv - v0) * (A - r * X)) ^ 2 + a * (D * (B - r * Y) - (pu - u0) * (A - r * X)) ^ 2 +
      2 * c * (D * z - (pv - v0) * (A - r * X)) * (D * (B - r * Y) - (pu - u0) * (A - r * X)) = (A - r * X) ^ 2 := by
    intro X Y hXY
    have := h X Y hXY
    unfold EllPars.Contains at this
    simp only at this
    have hX : X ≤ 1 := by nlinarith [sq_nonneg Y]
    have hw : A - r * X ≠ 0 := by nlinarith
    have e1 : v0 + D / (A - r * X) * z - pv = (D * z - (pv - v0) * (A - r * X)) / (A - r * X) := by field_simp; ring
    have e2 : u0 + D / (A - r * X) * (B - r * Y) - pu = (D * (B - r * Y) - (pu - u0) * (A - r * X)) / (A - r * X) := by
      field_simp; ring
    rw [e1, e2] at this
    field_simp at this
    linear_combination this
  generalize hα : pv - v0 = α at hF
  generalize hβ : pu - u0 = β at hF
  have f1 := hF 1 0 (by norm_num)
  have f2 := hF (-1) 0 (by norm_num)
  have f3 := hF 0 1 (by norm_num)
  have f4 := hF 0 (-1) (by norm_num)
  have f5 := hF (4 / 5) (3 / 5) (by norm_num)
  have f6 := hF (4 / 5) (-(3 / 5)) (by norm_num)
  have hr0 : r ≠ 0 := hr.ne'
  -- coefficient of XY and of Y
  have EY : a * (D * B - β * A) + c * (D * z - α * A) = 0 := by
    have : D * r * (a * (D * B - β * A) + c * (D * z - α * A)) = 0 := by linear_combination (1 / 4) * (f4 - f3)
    rcases mul_eq_zero.1 this with h | h
    · exact absurd h (mul_ne_zero hD hr0)
    · exact h
  have EXY : a * β + c * α = 0 := by
    have : D * r ^ 2 * (a * β + c * α) = 0 := by linear_combination (25 / 96) * (f6 - f5) * 2 - (5 / 4) * D * r * EY
    rcases mul_eq_zero.1 this with h | h
    · exact absurd h (mul_ne_zero hD (pow_ne_zero 2 hr0))
    · exact h
  have EXX : α * (b * α + c * β) = 1 + a * D ^ 2 := by
    have : r ^ 2 * (b * α ^ 2 + a * β ^ 2 + 2 * c * α * β - 1 - a * D ^ 2) = 0 := by
      linear_combination (1 / 4) * (f1 + f2 - f3 - f4) * 2
    rcases mul_eq_zero.1 this with h | h
    · exact absurd h (pow_ne_zero 2 hr0)
    · linear_combination h - β * EXY
  have EX : (D * z - α * A) * (b * α + c * β) = -A := by
    have : r * ((D * z - α * A) * (b * α + c * β) + (D * B - β * A) * (a * β + c * α) + A) = 0 := by
      linear_combination (1 / 4) * (f1 - f2)
    rcases mul_eq_zero.1 this with h | h
    · exact absurd h hr0
    · linear_combination h - (D * B - β * A) * EXY
  have E1 : (D * z - α * A) * (b * (D * z - α * A) + c * (D * B - β * A)) = A ^ 2 - a * D ^ 2 * r ^ 2 := by
    linear_combination (1 / 2) * (f3 + f4) - (D * B - β * A) * EY
  obtain ⟨ea, ec, eα, eβ, eb⟩ := trueEll_algebra A B D r z a b c α β hD hr hz hA EY EXY EXX EX E1
  clear f1 f2 f3 f4 f5 f6 hF h
  have e1 : pv = v0 + A * D * z / (A ^ 2 - r ^ 2) := by rw [← eα]; linarith
  have e2 : pu = u0 + A * B * D / (A ^ 2 - r ^ 2) := by rw [← eβ]; linarith
  unfold trueEll
  rw [← ea, ← eb, ← ec, ← e1, ← e2]

/-! ## The fit -/

section Fit

variable (A B D v0 u0 r z1 z2 : ℝ)

theorem ell_disc (hD : D ≠ 0) (hr : r ≠ 0) (z : ℝ) (hz : z ≠ 0) :
    let p := trueEll A B D v0 u0 r z
    p.a * p.b - p.c ^ 2 = (A ^ 2 - r ^ 2) ^ 3 / (D ^ 4 * z ^ 2 * r ^ 4) := by
  simp only [trueEll]
  field_simp
  ring

theorem sqrt_of_sq {x y : ℝ} (hy : 0 ≤ y) (h : x = y ^ 2) : sqrt x = y := by rw [h, sqrt_sq hy]

theorem ell_ecc (hD : 0 < D) (hr : 0 < r) (hA : r < A) (z : ℝ) (hz : z ≠ 0) :
    let p := trueEll A B D v0 u0 r z
    sqrt (p.b - p.c ^ 2 / p.a) = (A ^ 2 - r ^ 2) / (D * |z| * r) := by
  have hA2 : 0 < A ^ 2 - r ^ 2 := by nlinarith
  have hz' : 0 < |z| := abs_pos.2 hz
  apply sqrt_of_sq (by positivity)
  rw [div_pow, mul_pow, mul_pow, sq_abs]
  simp only [trueEll]
  have := hA2.ne'
  field_simp
  ring

theorem ell_fitN (hD : 0 < D) (hr : 0 < r) (hA : r < A) (h1 : z1 ≠ 0) (h2 : z2 ≠ 0) :
    fitN (trueEll A B D v0 u0 r z1) (trueEll A B D v0 u0 r z2) =
      let m := |z1| / |z2|
      let m0 := A * (z2 - z1) / (r * |z2|)
      ((1 - m0 ^ 2 - m ^ 2) / (2 * m0 * m), ((A ^ 2 - r ^ 2) / (D ^ 2 * r ^ 2)) * (1 - m ^ 2) / (2 * m0 * m)) := by
  have hA2 : 0 < A ^ 2 - r ^ 2 := by nlinarith
  have hz1' : 0 < |z1| := abs_pos.2 h1
  have hz2' : 0 < |z2| := abs_pos.2 h2
  have e1 := ell_ecc A B D v0 u0 r hD hr hA z1 h1
  have e2 := ell_ecc A B D v0 u0 r hD hr hA z2 h2
  unfold fitN
  simp only at e1 e2 ⊢
  rw [e1, e2]
  have hm : (A ^ 2 - r ^ 2) / (D * |z2| * r) / ((A ^ 2 - r ^ 2) / (D * |z1| * r)) = |z1| / |z2| := by
    have := hA2.ne'
    field_simp
  have hm0 : ((trueEll A B D v0 u0 r z2).v - (trueEll A B D v0 u0 r z1).v) * ((A ^ 2 - r ^ 2) / (D * |z2| * r)) =
      A * (z2 - z1) / (r * |z2|) := by
    have := hA2.ne'
    simp only [trueEll]
    field_simp
    ring
  rw [hm, hm0]
  simp only [trueEll]
  congr 2
  ring

/-- The quadratic equation of the distance: the root that the code takes. -/
theorem quadratic_root (a n0 n1 X σ e : ℝ) (hn1 : n1 ≠ 0) (hX : 0 ≤ X) (hquad : (n0 + n1 * X) ^ 2 = 1 + a * X)
    (hσ : 0 ≤ σ) (hroot : 2 * n1 * (n0 + n1 * X) - a = -e * σ) (he : e ^ 2 = 1) :
    sqrt (((a - 2 * (n0 * n1)) - e * sqrt (a ^ 2 + 4 * n1 ^ 2 - 4 * (n0 * n1) * a)) / (2 * n1 ^ 2)) = sqrt X := by
  have hdisc : sqrt (a ^ 2 + 4 * n1 ^ 2 - 4 * (n0 * n1) * a) = σ := by
    apply sqrt_of_sq hσ
    have : σ ^ 2 = (2 * n1 * (n0 + n1 * X) - a) ^ 2 := by rw [hroot]; linear_combination (-σ ^ 2) * he
    rw [this]
    linear_combination (-4 * n1 ^ 2) * hquad
  rw [hdisc]
  congr 1
  rw [div_eq_iff (by positivity)]
  linear_combination -hroot

theorem ell_distance (e : ℝ) (hD : 0 < D) (hr : 0 < r) (hA : r < A) (h1 : z1 < 0)
    (he : (e = 1 ∧ 0 < z2 ∧ z2 ≠ -z1) ∨ (e = -1 ∧ z2 < 0 ∧ z2 ≠ z1)) :
    fitDistance (trueEll A B D v0 u0 r z1) (trueEll A B D v0 u0 r z2) e = some D := by
  have hA2 : 0 < A ^ 2 - r ^ 2 := by nlinarith
  have hA0 : 0 < A := by linarith
  have h2 : z2 ≠ 0 := by rcases he with ⟨_, h, _⟩ | ⟨_, h, _⟩ <;> linarith [h] <;> exact ne_of_gt h
  have hm1 : 0 < |z1| := abs_pos.2 h1.ne
  have hm2 : 0 < |z2| := abs_pos.2 h2
  unfold fitDistance
  rw [ell_fitN A B D v0 u0 r z1 z2 hD hr hA h1.ne h2]
  have ha : (trueEll A B D v0 u0 r z1).a = (A ^ 2 - r ^ 2) / (D ^ 2 * r ^ 2) := rfl
  simp only
  rw [ha]
  have haX : (A ^ 2 - r ^ 2) / (D ^ 2 * r ^ 2) * D ^ 2 = (A / r) ^ 2 - 1 := by field_simp
  have hapos : 0 < (A ^ 2 - r ^ 2) / (D ^ 2 * r ^ 2) := by positivity
  generalize (A ^ 2 - r ^ 2) / (D ^ 2 * r ^ 2) = a at *
  have hmpos : 0 < |z1| / |z2| := by positivity
  have hk : 0 < A / r := by positivity
  have hm0 : A * (z2 - z1) / (r * |z2|) = (A / r) * ((z2 - z1) / |z2|) := by field_simp
  rw [hm0]
  rcases he with ⟨rfl, hz2, hne⟩ | ⟨rfl, hz2, hne⟩
  · have hs : (z2 - z1) / |z2| = 1 + |z1| / |z2| := by
      rw [abs_of_neg h1, abs_of_pos hz2]; field_simp; ring
    have hm1' : |z1| / |z2| ≠ 1 := by
      rw [abs_of_neg h1, abs_of_pos hz2]
      intro h
      rw [div_eq_one_iff_eq hz2.ne'] at h
      exact hne h.symm
    rw [hs]
    generalize |z1| / |z2| = m at *
    generalize A / r = k at *
    have hn1 : a * (1 - m ^ 2) / (2 * (k * (1 + m)) * m) = a * (1 - m) / (2 * k * m) := by field_simp; ring
    have hsum : (1 - (k * (1 + m)) ^ 2 - m ^ 2) / (2 * (k * (1 + m)) * m) + a * (1 - m) / (2 * k * m) * D ^ 2 = -k := by
      have : a * (1 - m) / (2 * k * m) * D ^ 2 = (1 - m) * (k ^ 2 - 1) / (2 * k * m) := by rw [← haX]; ring
      rw [this]; field_simp; ring
    rw [hn1]
    generalize (1 - (k * (1 + m)) ^ 2 - m ^ 2) / (2 * (k * (1 + m)) * m) = n0 at *
    have hne1 : a * (1 - m) / (2 * k * m) ≠ 0 := by
      have : 1 - m ≠ 0 := fun h => hm1' (by linarith)
      positivity
    rw [if_neg hne1]
    congr 1
    rw [← sqrt_sq hD.le]
    refine Eq.trans ?_ (quadratic_root a n0 (a * (1 - m) / (2 * k * m)) (D ^ 2) (a / m) 1 hne1 (sq_nonneg _) ?_ (by positivity) ?_
      (by norm_num))
    · rfl
    · rw [hsum]; linear_combination -haX
    · rw [hsum]; field_simp; ring
  · have hs : (z2 - z1) / |z2| = |z1| / |z2| - 1 := by
      rw [abs_of_neg h1, abs_of_neg hz2]; field_simp; ring
    have hm1' : |z1| / |z2| ≠ 1 := by
      rw [abs_of_neg h1, abs_of_neg hz2]
      intro h
      rw [div_eq_one_iff_eq (by linarith)] at h
      exact hne (by linarith)
    rw [hs]
    generalize |z1| / |z2| = m at *
    generalize A / r = k at *
    have hmm : m - 1 ≠ 0 := fun h => hm1' (by linarith)
    have hn1 : a * (1 - m ^ 2) / (2 * (k * (m - 1)) * m) = -(a * (1 + m) / (2 * k * m)) := by field_simp; ring
    have hsum : (1 - (k * (m - 1)) ^ 2 - m ^ 2) / (2 * (k * (m - 1)) * m) + -(a * (1 + m) / (2 * k * m)) * D ^ 2 = -k := by
      have : -(a * (1 + m) / (2 * k * m)) * D ^ 2 = -((1 + m) * (k ^ 2 - 1) / (2 * k * m)) := by rw [← haX]; ring
      rw [this]; field_simp; ring
    rw [hn1]
    generalize (1 - (k * (m - 1)) ^ 2 - m ^ 2) / (2 * (k * (m - 1)) * m) = n0 at *
    have hne1 : -(a * (1 + m) / (2 * k * m)) ≠ 0 := by
      have : 0 < a * (1 + m) / (2 * k * m) := by positivity
      linarith
    rw [if_neg hne1]
    congr 1
    rw [← sqrt_sq hD.le]
    refine Eq.trans ?_ (quadratic_root a n0 (-(a * (1 + m) / (2 * k * m))) (D ^ 2) (a / m) (-1) hne1 (sq_nonneg _) ?_
      (by positivity) ?_ (by norm_num))
    · rfl
    · rw [hsum]; linear_combination -haX
    · rw [hsum]; field_simp; ring

/-- What the formulas of the fit give on one true ellipse. -/
theorem ell_formulas (R : ℝ) (hR : R ^ 2 = A ^ 2 + B ^ 2) (hRpos : 0 < R) (hD : 0 < D) (hr : 0 < r) (hA : r < A) (z : ℝ)
    (hz : z ≠ 0) :
    let p := trueEll A B D v0 u0 r z
    sqrt (p.a + p.a ^ 2 * D ^ 2) / sqrt (p.a * p.b - p.c ^ 2) = A * D * |z| / (A ^ 2 - r ^ 2) ∧
    sqrt (p.a * p.b - p.c ^ 2) / sqrt (p.a * p.b + p.a ^ 2 * p.b * D ^ 2 - p.c ^ 2) = r / R ∧
    (∀ s, D * s * p.a * sqrt p.a / sqrt (p.a * p.b + p.a ^ 2 * p.b * D ^ 2 - p.c ^ 2) = s * |z| / R) ∧
    p.c / (2 * p.a) = -B / (2 * z) := by
  have hA2 : 0 < A ^ 2 - r ^ 2 := by nlinarith
  have hA0 : 0 < A := by linarith
  have hz' : 0 < |z| := abs_pos.2 hz
  have hz2 : |z| ^ 2 = z ^ 2 := sq_abs z
  have hdisc := ell_disc A B D v0 u0 r hD.ne' hr.ne' z hz
  simp only at hdisc ⊢
  have hΔ : 0 < (trueEll A B D v0 u0 r z).a * (trueEll A B D v0 u0 r z).b - (trueEll A B D v0 u0 r z).c ^ 2 := by
    rw [hdisc]; positivity
  have hs : 0 < sqrt ((trueEll A B D v0 u0 r z).a * (trueEll A B D v0 u0 r z).b - (trueEll A B D v0 u0 r z).c ^ 2) := sqrt_pos.2 hΔ
  have hapos : 0 < (trueEll A B D v0 u0 r z).a := by simp only [trueEll]; positivity
  have hmul : ∀ x y k : ℝ, 0 ≤ x → 0 ≤ k → y = x * k ^ 2 → sqrt y = sqrt x * k := by
    intro x y k hx hk h; rw [h, sqrt_mul hx, sqrt_sq hk]
  have e1 : sqrt ((trueEll A B D v0 u0 r z).a + (trueEll A B D v0 u0 r z).a ^ 2 * D ^ 2) =
      sqrt ((trueEll A B D v0 u0 r z).a * (trueEll A B D v0 u0 r z).b - (trueEll A B D v0 u0 r z).c ^ 2) *
        (A * D * |z| / (A ^ 2 - r ^ 2)) := by
    apply hmul _ _ _ hΔ.le (by positivity)
    rw [hdisc, div_pow, mul_pow, mul_pow, hz2]
    simp only [trueEll]
    have := hA2.ne'
    field_simp
    ring
  have e2 : sqrt ((trueEll A B D v0 u0 r z).a * (trueEll A B D v0 u0 r z).b + (trueEll A B D v0 u0 r z).a ^ 2 *
      (trueEll A B D v0 u0 r z).b * D ^ 2 - (trueEll A B D v0 u0 r z).c ^ 2) =
      sqrt ((trueEll A B D v0 u0 r z).a * (trueEll A B D v0 u0 r z).b - (trueEll A B D v0 u0 r z).c ^ 2) * (R / r) := by
    apply hmul _ _ _ hΔ.le (by positivity)
    rw [hdisc, div_pow, hR]
    simp only [trueEll]
    field_simp
    ring
  have e3 : sqrt ((trueEll A B D v0 u0 r z).a * (trueEll A B D v0 u0 r z).b - (trueEll A B D v0 u0 r z).c ^ 2) =
      sqrt (trueEll A B D v0 u0 r z).a * ((trueEll A B D v0 u0 r z).a * D * r / |z|) := by
    apply hmul _ _ _ hapos.le (by positivity)
    rw [hdisc, div_pow, hz2]
    simp only [trueEll]
    field_simp
  refine ⟨?_, ?_, ?_, ?_⟩
  · rw [e1]; field_simp
  · rw [e2]; field_simp
  · intro s
    have hsa : 0 < sqrt (trueEll A B D v0 u0 r z).a := sqrt_pos.2 hapos
    rw [e2, e3]
    field_simp
  · simp only [trueEll]
    have := hA2.ne'
    field_simp

end Fit

/-- The trajectory of a point turning on a circle determines the ellipse. -/
theorem isTrajectory_iff (g : ConeBeam) (ht : g.theta = 0) (he : g.eta = 0) (hD : 0 < g.D) (r z : ℝ) (hr : 0 < r)
    (hA : r < g.R * cos g.phi) (hz : z ≠ 0) (p : EllPars) :
    p.IsTrajectory g r z ↔ p = trueEll (g.R * cos g.phi) (g.R * sin g.phi) g.D g.v0 g.u0 r z := by
  have hA2 : (g.R * cos g.phi) ^ 2 - r ^ 2 ≠ 0 := by
    have : 0 < (g.R * cos g.phi) ^ 2 - r ^ 2 := by nlinarith
    exact this.ne'
  constructor
  · intro h
    apply trueEll_unique _ _ _ _ _ _ _ hD.ne' hr hz hA
    intro X Y hXY
    obtain ⟨s, hs1, hs2⟩ : ∃ s, cos s = X ∧ sin s = Y := by
      have : ‖(⟨X, Y⟩ : ℂ)‖ = 1 := by
        rw [Complex.norm_def, Complex.normSq_mk, show X * X + Y * Y = 1 by linarith, sqrt_one]
      refine ⟨Complex.arg ⟨X, Y⟩, ?_, ?_⟩
      · have h0 : (⟨X, Y⟩ : ℂ) ≠ 0 := by intro h; rw [h, norm_zero] at this; norm_num at this
        rw [Complex.cos_arg h0, this]; simp
      · rw [Complex.sin_arg, this]; simp
    have hX : X ≤ 1 := by nlinarith [sq_nonneg Y]
    have hw : g.R * cos g.phi - r * X ≠ 0 := by nlinarith
    apply h (s - g.phi)
    rw [projection_iff g ht he]
    refine ⟨g.D / (g.R * cos g.phi - r * X), ?_, ?_, ?_⟩
    · rw [sub_add_cancel, hs1]; field_simp
    · ring
    · rw [sub_add_cancel, hs2]; ring
  · rintro rfl s v u h
    rw [projection_iff g ht he] at h
    obtain ⟨t, h1, h2, h3⟩ := h
    exact trueEll_contains _ _ _ _ _ _ _ (cos (s + g.phi)) (sin (s + g.phi)) t v u hD.ne' hr.ne' hz hA2
      (by rw [add_comm]; exact sin_sq_add_cos_sq _) h1 h2 h3

private theorem isClose0_false (x : ℝ) (hx : 1 / 10 ^ 8 < x) : isClose0 x = false := by
  unfold isClose0
  rw [decide_eq_false_iff_not, abs_of_pos (lt_trans (by norm_num) hx)]
  linarith

/-- With the right source-detector distance the other quantities are exact, also for circles at the same distance from the source. -/
theorem fitConeFrom_exact (g : ConeBeam) (ht : g.theta = 0) (he : g.eta = 0) (hDpos : 0 < g.D) (hR : 1 / 10 ^ 8 < g.R)
    (hphi : |g.phi| < π / 2) (r z1 z2 e : ℝ) (hr : 0 < r) (hA : r < g.R * cos g.phi) (h1 : z1 < 0)
    (h2 : (e = 1 ∧ 0 < z2) ∨ (e = -1 ∧ z2 < 0 ∧ z2 ≠ z1))
    (p q : EllPars) (hp : p.IsTrajectory g r z1) (hq : q.IsTrajectory g r z2) :
    fitConeFrom p q r e g.D = some { D := g.D, v0 := g.v0, u0 := g.u0, phi := g.phi, R := g.R } := by
  have hRpos : 0 < g.R := lt_trans (by norm_num) hR
  have hz2 : z2 ≠ 0 := by rcases h2 with ⟨_, h⟩ | ⟨_, h, _⟩; exacts [h.ne', h.ne]
  rw [isTrajectory_iff g ht he hDpos r z1 hr hA h1.ne] at hp
  rw [isTrajectory_iff g ht he hDpos r z2 hr hA hz2] at hq
  have hRsq : g.R ^ 2 = (g.R * cos g.phi) ^ 2 + (g.R * sin g.phi) ^ 2 := by
    linear_combination (-g.R ^ 2) * sin_sq_add_cos_sq g.phi
  obtain ⟨p1, p2, p3, p4⟩ := ell_formulas (g.R * cos g.phi) (g.R * sin g.phi) g.D g.v0 g.u0 r g.R hRsq hRpos hDpos hr hA z1 h1.ne
  obtain ⟨q1, q2, q3, q4⟩ := ell_formulas (g.R * cos g.phi) (g.R * sin g.phi) g.D g.v0 g.u0 r g.R hRsq hRpos hDpos hr hA z2 hz2
  rw [← hp] at p1 p2 p3 p4
  rw [← hq] at q1 q2 q3 q4
  have hA2 : 0 < (g.R * cos g.phi) ^ 2 - r ^ 2 := by nlinarith
  have hpv : p.v = g.v0 + g.R * cos g.phi * g.D * z1 / ((g.R * cos g.phi) ^ 2 - r ^ 2) := by rw [hp]; rfl
  have hqv : q.v = g.v0 + g.R * cos g.phi * g.D * z2 / ((g.R * cos g.phi) ^ 2 - r ^ 2) := by rw [hq]; rfl
  have hpu : p.u = g.u0 + g.R * cos g.phi * (g.R * sin g.phi) * g.D / ((g.R * cos g.phi) ^ 2 - r ^ 2) := by rw [hp]; rfl
  have hqu : q.u = g.u0 + g.R * cos g.phi * (g.R * sin g.phi) * g.D / ((g.R * cos g.phi) ^ 2 - r ^ 2) := by rw [hq]; rfl
  have hs1 : (-1 : ℝ) * |z1| = z1 := by rw [abs_of_neg h1]; ring
  have hs2 : (-1 : ℝ) * -e * |z2| = z2 := by
    rcases h2 with ⟨rfl, h⟩ | ⟨rfl, h, _⟩
    · rw [abs_of_pos h]; ring
    · rw [abs_of_neg h]; ring
  have hz12 : z1 - z2 ≠ 0 := by
    rcases h2 with ⟨_, h⟩ | ⟨_, h, h'⟩
    · exact (by linarith : z1 - z2 < 0).ne
    · intro h0; exact h' (by linarith)
  have v01 : p.v - -1 * sqrt (p.a + p.a ^ 2 * g.D ^ 2) / sqrt (p.a * p.b - p.c ^ 2) = g.v0 := by
    rw [mul_div_assoc, p1, hpv]
    have : (-1 : ℝ) * (g.R * cos g.phi * g.D * |z1| / ((g.R * cos g.phi) ^ 2 - r ^ 2)) =
        g.R * cos g.phi * g.D * (-1 * |z1|) / ((g.R * cos g.phi) ^ 2 - r ^ 2) := by ring
    rw [this, hs1]; ring
  have v02 : q.v - -1 * -e * sqrt (q.a + q.a ^ 2 * g.D ^ 2) / sqrt (q.a * q.b - q.c ^ 2) = g.v0 := by
    rw [mul_div_assoc, q1, hqv]
    have : (-1 : ℝ) * -e * (g.R * cos g.phi * g.D * |z2| / ((g.R * cos g.phi) ^ 2 - r ^ 2)) =
        g.R * cos g.phi * g.D * (-1 * -e * |z2|) / ((g.R * cos g.phi) ^ 2 - r ^ 2) := by ring
    rw [this, hs2]; ring
  unfold fitConeFrom
  simp only [v01, v02, p2, q2, p3, q3, hs1, hs2, p4, q4, sub_self, abs_zero]
  rw [if_neg (by push Not; exact abs_nonneg _)]
  have hRfit : (-(r / (r / g.R) * (z2 / g.R)) * (r / (r / g.R)) + r / (r / g.R) * (z1 / g.R) * (r / (r / g.R))) /
      (r / (r / g.R) * (z1 / g.R) - r / (r / g.R) * (z2 / g.R)) = g.R := by
    field_simp
    ring
  have hv0 : (g.v0 + g.v0) / 2 = g.v0 := by ring
  rw [hRfit, isClose0_false g.R hR, hv0]
  simp only [Bool.false_eq_true, if_false]
  have hne := hA2.ne'
  congr 2
  · rw [hpu, hqu, hpv, hqv]
    have hz1 := h1.ne
    field_simp
    ring
  · have hz1 := h1.ne
    have : -(-(g.R * sin g.phi) / (2 * z1)) * (z1 / g.R) + -(-(g.R * sin g.phi) / (2 * z2)) * (z2 / g.R) = sin g.phi := by
      field_simp; ring
    rw [this]
    rw [abs_lt] at hphi
    exact arcsin_sin (by linarith) (by linarith)

/-- **C89.** The calibration is exact: from the ellipses that the projections of two points, turning on circles of known radius
`r` around the rotation axis, describe on a detector without tilt (`θ = 0`, the in-plane rotation `η` being corrected before),
`fit` recovers the distance `D` of source and detector, the point `(v0, u0)` under the source, the angle `φ` of the detector and
the distance `R` of source and rotation axis. The first circle is below the source; for `e = 1` the second one is above, not at
the same distance, for `e = -1` it is also below. -/
theorem C89_calibration_exact (g : ConeBeam) (ht : g.theta = 0) (he : g.eta = 0) (hD : 1 / 10 ^ 8 < g.D) (hR : 1 / 10 ^ 8 < g.R)
    (hphi : |g.phi| < π / 2) (r z1 z2 e : ℝ) (hr : 0 < r) (hA : r < g.R * cos g.phi) (h1 : z1 < 0)
    (h2 : (e = 1 ∧ 0 < z2 ∧ z2 ≠ -z1) ∨ (e = -1 ∧ z2 < 0 ∧ z2 ≠ z1))
    (p q : EllPars) (hp : p.IsTrajectory g r z1) (hq : q.IsTrajectory g r z2) :
    fitCone p q r e = some { D := g.D, v0 := g.v0, u0 := g.u0, phi := g.phi, R := g.R } := by
  have hDpos : 0 < g.D := lt_trans (by norm_num) hD
  have hz2 : z2 ≠ 0 := by rcases h2 with ⟨_, h, _⟩ | ⟨_, h, _⟩; exacts [h.ne', h.ne]
  have hdist := ell_distance (g.R * cos g.phi) (g.R * sin g.phi) g.D g.v0 g.u0 r z1 z2 e hDpos hr hA h1 h2
  rw [← (isTrajectory_iff g ht he hDpos r z1 hr hA h1.ne p).1 hp, ← (isTrajectory_iff g ht he hDpos r z2 hr hA hz2 q).1 hq] at hdist
  unfold fitCone
  rw [hdist]
  simp only [isClose0_false g.D hD, Bool.false_eq_true, if_false]
  exact fitConeFrom_exact g ht he hDpos hR hphi r z1 z2 e hr hA h1 (h2.imp (fun h => ⟨h.1, h.2.1⟩) id) p q hp hq

/-- Non-vacuity of C89: a calibration setup, and the ellipses exist. -/
example : ∃ (g : ConeBeam) (r z1 z2 : ℝ) (p q : EllPars), g.theta = 0 ∧ g.eta = 0 ∧ g.phi = 0 ∧ g.D = 1000 ∧ g.R = 100 ∧ 0 < r ∧
    r < g.R * cos g.phi ∧ z1 < 0 ∧ 0 < z2 ∧ z2 ≠ -z1 ∧ p.IsTrajectory g r z1 ∧ q.IsTrajectory g r z2 := by
  refine ⟨⟨0, 0, 0, 1000, 100, 3, 4, 64, 64⟩, 10, -20, 30, _, _, rfl, rfl, rfl, rfl, rfl, by norm_num, by simp; norm_num,
    by norm_num, by norm_num, by norm_num,
    (isTrajectory_iff _ rfl rfl (by norm_num) 10 (-20) (by norm_num) (by simp; norm_num) (by norm_num) _).2 rfl,
    (isTrajectory_iff _ rfl rfl (by norm_num) 10 30 (by norm_num) (by simp; norm_num) (by norm_num) _).2 rfl⟩

/-- Circles on the two sides of the source at the same distance (a symmetric phantom): the source-detector distance is 0/0 and an
error is raised, for every setup. -/
theorem symmetric_circles_raise (g : ConeBeam) (ht : g.theta = 0) (he : g.eta = 0) (hD : 0 < g.D) (r z : ℝ) (hr : 0 < r)
    (hA : r < g.R * cos g.phi) (hz : 0 < z) (p q : EllPars) (hp : p.IsTrajectory g r (-z)) (hq : q.IsTrajectory g r z) (e : ℝ) :
    fitCone p q r e = none := by
  rw [isTrajectory_iff g ht he hD r (-z) hr hA (by linarith)] at hp
  rw [isTrajectory_iff g ht he hD r z hr hA hz.ne'] at hq
  have hn := ell_fitN (g.R * cos g.phi) (g.R * sin g.phi) g.D g.v0 g.u0 r (-z) z hD hr hA (by linarith) hz.ne'
  rw [← hp, ← hq] at hn
  have : (fitN p q).2 = 0 := by
    rw [hn, abs_neg]
    simp [div_self (abs_pos.2 hz.ne').ne']
  unfold fitCone fitDistance
  simp only [this, if_true]

/-- **C90 (violated).** The calibration works wherever the circles are on the two sides of the source: not if they are at the
same distance from it. -/
theorem C90_symmetric_circles_violated :
    ¬ ∀ (g : ConeBeam) (r z1 z2 : ℝ) (p q : EllPars), g.theta = 0 → g.eta = 0 → 1 / 10 ^ 8 < g.D → 1 / 10 ^ 8 < g.R →
      |g.phi| < π / 2 → 0 < r → r < g.R * cos g.phi → z1 < 0 → 0 < z2 → p.IsTrajectory g r z1 → q.IsTrajectory g r z2 →
      (fitCone p q r 1).isSome := by
  intro h
  have hp := (isTrajectory_iff ⟨0, 0, 0, 1000, 100, 3, 4, 64, 64⟩ rfl rfl (by norm_num) 10 (-20) (by norm_num)
    (by simp; norm_num) (by norm_num) _).2 rfl
  have hq := (isTrajectory_iff ⟨0, 0, 0, 1000, 100, 3, 4, 64, 64⟩ rfl rfl (by norm_num) 10 20 (by norm_num)
    (by simp; norm_num) (by norm_num) _).2 rfl
  have := h _ 10 (-20) 20 _ _ rfl rfl (by norm_num) (by norm_num) (by simp; exact pi_pos) (by norm_num) (by simp; norm_num)
    (by norm_num) (by norm_num) hp hq
  rw [symmetric_circles_raise _ rfl rfl (by norm_num) 10 20 (by norm_num) (by simp; norm_num) (by norm_num) _ _ hp hq] at this
  simp at this

/-- **C90 (partial).** With the measured distance of source and detector the calibration is exact for symmetric phantoms too. -/
theorem C90_measured_distance_partial (g : ConeBeam) (ht : g.theta = 0) (he : g.eta = 0) (hD : 0 < g.D) (hR : 1 / 10 ^ 8 < g.R)
    (hphi : |g.phi| < π / 2) (r z1 z2 e : ℝ) (hr : 0 < r) (hA : r < g.R * cos g.phi) (h1 : z1 < 0)
    (h2 : (e = 1 ∧ 0 < z2) ∨ (e = -1 ∧ z2 < 0 ∧ z2 ≠ z1))
    (p q : EllPars) (hp : p.IsTrajectory g r z1) (hq : q.IsTrajectory g r z2) :
    fitConeFrom p q r e g.D = some { D := g.D, v0 := g.v0, u0 := g.u0, phi := g.phi, R := g.R } :=
  fitConeFrom_exact g ht he hD hR hphi r z1 z2 e hr hA h1 h2 p q hp hq

example : ∃ (g : ConeBeam) (r z1 z2 : ℝ) (p q : EllPars), g.theta = 0 ∧ g.eta = 0 ∧ g.D = 1000 ∧ g.R = 100 ∧ z2 = -z1 ∧ z1 < 0 ∧
    p.IsTrajectory g r z1 ∧ q.IsTrajectory g r z2 := by
  refine ⟨⟨0, 0, 0, 1000, 100, 3, 4, 64, 64⟩, 10, -20, 20, _, _, rfl, rfl, rfl, rfl, by norm_num, by norm_num,
    (isTrajectory_iff _ rfl rfl (by norm_num) 10 (-20) (by norm_num) (by simp; norm_num) (by norm_num) _).2 rfl,
    (isTrajectory_iff _ rfl rfl (by norm_num) 10 20 (by norm_num) (by simp; norm_num) (by norm_num) _).2 rfl⟩

/-- **C90 (partial).** What is true: it fails only then, see `C89_calibration_exact`; the other quantities do not need the computed
distance: with a measured `D`, `v0` is recovered from the first ellipse alone. -/
theorem C90_v0_from_one_ellipse_partial (g : ConeBeam) (ht : g.theta = 0) (he : g.eta = 0) (hD : 0 < g.D) (r z : ℝ) (hr : 0 < r)
    (hR : 0 < g.R) (hA : r < g.R * cos g.phi) (hz : z < 0) (p : EllPars) (hp : p.IsTrajectory g r z) :
    p.v - -1 * sqrt (p.a + p.a ^ 2 * g.D ^ 2) / sqrt (p.a * p.b - p.c ^ 2) = g.v0 := by
  rw [isTrajectory_iff g ht he hD r z hr hA hz.ne] at hp
  have hRsq : g.R ^ 2 = (g.R * cos g.phi) ^ 2 + (g.R * sin g.phi) ^ 2 := by
    linear_combination (-g.R ^ 2) * sin_sq_add_cos_sq g.phi
  obtain ⟨p1, -, -, -⟩ := ell_formulas (g.R * cos g.phi) (g.R * sin g.phi) g.D g.v0 g.u0 r g.R hRsq hR hD hr hA z hz.ne
  rw [← hp] at p1
  have hpv : p.v = g.v0 + g.R * cos g.phi * g.D * z / ((g.R * cos g.phi) ^ 2 - r ^ 2) := by rw [hp]; rfl
  rw [mul_div_assoc, p1, hpv, abs_of_neg hz]
  ring

end Verif
