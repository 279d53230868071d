import Verif.Model.ConeSetup
import Verif.Props.ConeCalibration
import Verif.Props.Fits
import Verif.Props.Ellipses

/-!
# C203, C204: the tilt of the detector in the cone-beam calibration, repeated fits
-/

namespace Verif

open V3 Real

/-! ## Projections on a tilted detector -/

theorem rotVec_perp (x : ℝ) (n a : V3) (h1 : dot n n = 1) (h2 : dot n a = 0) :
    rotVec (smul x n) a = smul (cos x) a + smul (sin x) (cross n a) := by
  have hn : V3.norm (smul x n) = |x| := by
    unfold V3.norm
    have : dot (smul x n) (smul x n) = x ^ 2 * dot n n := by unfold dot; simp; ring
    rw [this, h1, mul_one, sqrt_sq_eq_abs]
  have hd : dot (smul x n) a = 0 := by
    have : dot (smul x n) a = x * dot n a := by unfold dot; simp; ring
    rw [this, h2, mul_zero]
  unfold rotVec
  rw [hn, hd]
  by_cases hx : |x| = 0
  · have := abs_eq_zero.1 hx; subst this
    ext <;> simp
  · simp only [hx, if_false]
    have hx0 : x ≠ 0 := fun h => hx (by simp [h])
    have hsin : Real.sin |x| / |x| * x = Real.sin x := by
      rcases le_or_gt 0 x with h | h
      · rw [abs_of_nonneg h]; field_simp
      · rw [abs_of_neg h, Real.sin_neg]; field_simp
    rw [Real.cos_abs]
    ext
    · simp [cross]; linear_combination (n.y * a.z - n.z * a.y) * hsin
    · simp [cross]; linear_combination (n.z * a.x - n.x * a.z) * hsin
    · simp [cross]; linear_combination (n.x * a.y - n.y * a.x) * hsin

theorem tilted_axes (g : ConeBeam) :
    rotVec (smul (-g.eta) g.normal) g.alpha = smul (cos g.eta) g.alpha + smul (sin g.eta) g.beta ∧
    rotVec (smul (-g.eta) g.normal) g.beta = smul (cos g.eta) g.beta + smul (-sin g.eta) g.alpha := by
  have hp := sin_sq_add_cos_sq g.phi
  have ht := sin_sq_add_cos_sq g.theta
  have hn : dot g.normal g.normal = 1 := by
    unfold dot ConeBeam.normal; simp only
    linear_combination (cos g.theta ^ 2) * hp + ht
  constructor
  · rw [rotVec_perp _ _ _ hn (by unfold dot ConeBeam.normal ConeBeam.alpha; simp only; ring)]
    ext
    · simp [cross, ConeBeam.normal, ConeBeam.alpha, ConeBeam.beta]
    · simp [cross, ConeBeam.normal, ConeBeam.alpha, ConeBeam.beta]
    · simp [cross, ConeBeam.normal, ConeBeam.alpha, ConeBeam.beta]
      linear_combination (sin g.eta * cos g.theta) * hp
  · rw [rotVec_perp _ _ _ hn (by
      unfold dot ConeBeam.normal ConeBeam.beta; simp only
      linear_combination (-sin g.theta * cos g.theta) * hp)]
    ext
    · simp [cross, ConeBeam.normal, ConeBeam.alpha, ConeBeam.beta]
      linear_combination (sin g.eta * sin g.phi) * ht
    · simp [cross, ConeBeam.normal, ConeBeam.alpha, ConeBeam.beta]
      linear_combination (sin g.eta * cos g.phi) * ht
    · simp [cross, ConeBeam.normal, ConeBeam.alpha, ConeBeam.beta]
      right; ring

/-- A geometry without the tilt of the detector around its normal. -/
def Spec.untilted (g : ConeBeam) : ConeBeam := { g with eta := 0 }

theorem projection_untilt (g : ConeBeam) (P : V3) (v u : ℝ) :
    IsProjection g P v u ↔
      IsProjection (Spec.untilted g) P (cos g.eta * v + sin g.eta * u) (-sin g.eta * v + cos g.eta * u) := by
  obtain ⟨e1, e2⟩ := tilted_axes g
  have e3 : rotVec (smul (-(Spec.untilted g).eta) (Spec.untilted g).normal) (Spec.untilted g).alpha = g.alpha := by
    have : smul (-(Spec.untilted g).eta) (Spec.untilted g).normal = 0 := by ext <;> simp [Spec.untilted]
    rw [this, rotVec_zero]; rfl
  have e4 : rotVec (smul (-(Spec.untilted g).eta) (Spec.untilted g).normal) (Spec.untilted g).beta = g.beta := by
    have : smul (-(Spec.untilted g).eta) (Spec.untilted g).normal = 0 := by ext <;> simp [Spec.untilted]
    rw [this, rotVec_zero]; rfl
  have key : ∀ d : V3, d + smul u (smul (cos g.eta) g.alpha + smul (sin g.eta) g.beta) +
      smul v (smul (cos g.eta) g.beta + smul (-sin g.eta) g.alpha) =
      d + smul (-sin g.eta * v + cos g.eta * u) g.alpha + smul (cos g.eta * v + sin g.eta * u) g.beta := by
    intro d
    ext <;> simp <;> ring
  unfold IsProjection
  simp only [ConeBeam.prjGeom, ConeBeam.prjGeomWith]
  rw [e1, e2, e3, e4]
  constructor
  · rintro ⟨s, d, eu, ev, t, hs, hd, hu, hv, h⟩
    obtain rfl := (List.cons.inj hs).1
    obtain rfl := (List.cons.inj hd).1
    obtain rfl := (List.cons.inj hu).1
    obtain rfl := (List.cons.inj hv).1
    refine ⟨_, _, _, _, t, rfl, rfl, rfl, rfl, ?_⟩
    exact h.trans (key _)
  · rintro ⟨s, d, eu, ev, t, hs, hd, hu, hv, h⟩
    obtain rfl := (List.cons.inj hs).1
    obtain rfl := (List.cons.inj hd).1
    obtain rfl := (List.cons.inj hu).1
    obtain rfl := (List.cons.inj hv).1
    refine ⟨_, _, _, _, t, rfl, rfl, rfl, rfl, ?_⟩
    exact h.trans (key _).symm

theorem untiltPoint_eq (eta : ℝ) (h : 1 / 10 < |eta * (180 / π)|) (v u : ℝ) :
    untiltPoint (eta * (180 / π)) (v, u) = (cos eta * v + sin eta * u, -sin eta * v + cos eta * u) := by
  unfold untiltPoint
  rw [if_pos h]
  have e : eta * (180 / π) * (π / 180) = eta := by field_simp
  have e2 : smul (-eta) (⟨0, 0, 1⟩ : V3) = ⟨0, 0, -eta⟩ := by ext <;> simp
  simp only [e, e2, rotVec_z, cos_neg, sin_neg]
  ext <;> simp

/-! ## The angle of the line through two points -/

theorem rotAxisAngle_polar (L η : ℝ) (hL : 0 < L) (h1 : -π ≤ η) (h2 : η < π) (c1 c2 : ℝ × ℝ)
    (hv : c1.1 - c2.1 = -(L * cos η)) (hu : c1.2 - c2.2 = -(L * sin η)) : rotAxisAngle c1 c2 = η * (180 / π) := by
  have hpi := pi_pos
  unfold rotAxisAngle arctan2
  rw [hv, hu]
  congr 1
  have hfl : ∀ a : ℝ, 0 ≤ a → a ≤ π → floorMod a (2 * π) = a := by
    intro a ha hb
    unfold floorMod
    have : ⌊a / (2 * π)⌋ = 0 := by
      rw [Int.floor_eq_zero_iff, Set.mem_Ico]
      exact ⟨by positivity, by rw [div_lt_one (by positivity)]; linarith⟩
    rw [this]; simp
  have hfl' : ∀ a : ℝ, a < 0 → -π ≤ a → floorMod a (2 * π) = a + 2 * π := by
    intro a ha hb
    unfold floorMod
    have : ⌊a / (2 * π)⌋ = -1 := by
      rw [Int.floor_eq_iff]
      push_cast
      constructor
      · rw [le_div_iff₀ (by positivity)]; linarith
      · rw [div_lt_iff₀ (by positivity)]; linarith
    rw [this]; push_cast; ring
  rcases le_or_gt η 0 with h | h
  · have harg : Complex.arg ⟨-(L * cos η), -(L * sin η)⟩ = η + π := by
      have := Complex.arg_mul_cos_add_sin_mul_I hL (θ := η + π) ⟨by linarith, by linarith⟩
      rw [← this]
      congr 1
      rw [← Complex.ofReal_cos, ← Complex.ofReal_sin, cos_add_pi, sin_add_pi]
      apply Complex.ext <;> simp [← Complex.ofReal_cos, ← Complex.ofReal_sin]
    rw [harg, hfl _ (by linarith) (by linarith)]
    ring
  · have harg : Complex.arg ⟨-(L * cos η), -(L * sin η)⟩ = η - π := by
      have := Complex.arg_mul_cos_add_sin_mul_I hL (θ := η - π) ⟨by linarith, by linarith⟩
      rw [← this]
      congr 1
      rw [← Complex.ofReal_cos, ← Complex.ofReal_sin, cos_sub_pi, sin_sub_pi]
      apply Complex.ext <;> simp [← Complex.ofReal_cos, ← Complex.ofReal_sin]
    rw [harg, hfl' _ (by linarith) (by linarith)]
    ring

/-- The projections of two points of the rotation axis. -/
theorem axis_points (g : ConeBeam) (ht : g.theta = 0) (hD : 0 < g.D) (hR : 0 < g.R * cos g.phi) (z1 z2 : ℝ) (c1 c2 : ℝ × ℝ)
    (h1 : IsProjection g ⟨0, 0, z1⟩ c1.1 c1.2) (h2 : IsProjection g ⟨0, 0, z2⟩ c2.1 c2.2) :
    c1.1 - c2.1 = -(g.D / (g.R * cos g.phi) * (z2 - z1) * cos g.eta) ∧
    c1.2 - c2.2 = -(g.D / (g.R * cos g.phi) * (z2 - z1) * sin g.eta) := by
  have hcirc : ∀ z, (⟨0, 0, z⟩ : V3) = circlePoint 0 z 0 := by intro z; unfold circlePoint; simp
  rw [projection_untilt, hcirc, projection_iff (Spec.untilted g) ht rfl] at h1 h2
  obtain ⟨t1, a1, b1, d1⟩ := h1
  obtain ⟨t2, a2, b2, d2⟩ := h2
  simp only [Spec.untilted, zero_mul, sub_zero] at a1 a2 b1 b2 d1 d2
  have ht1 : t1 = g.D / (g.R * cos g.phi) := by rw [eq_div_iff hR.ne']; linarith
  have ht2 : t2 = g.D / (g.R * cos g.phi) := by rw [eq_div_iff hR.ne']; linarith
  rw [ht1] at b1 d1
  rw [ht2] at b2 d2
  have hcs := sin_sq_add_cos_sq g.eta
  generalize g.D / (g.R * cos g.phi) = t at *
  constructor
  · linear_combination (cos g.eta) * (b1 - b2) - (sin g.eta) * (d1 - d2) - (c1.1 - c2.1) * hcs
  · linear_combination (sin g.eta) * (b1 - b2) + (cos g.eta) * (d1 - d2) - (c1.2 - c2.2) * hcs

/-! ## C203: the tilt -/

/-- Degrees. -/
noncomputable def Spec.deg (x : ℝ) : ℝ := x * (180 / π)

/-- **C203, proved part (1).** The angle computed from the projections of the centres of two circles, the first one below the second, is the
tilt of the detector, up to the rounding to four decimals; so tilts of up to 119 degrees are found, and the wrong order of the circles is
noticed for tilts of up to 59 degrees. -/
theorem C203_tilt_found_partial (g : ConeBeam) (ht : g.theta = 0) (hD : 0 < g.D) (hR : 0 < g.R * cos g.phi) (h1 : -π ≤ g.eta) (h2 : g.eta < π)
    (z1 z2 : ℝ) (hz : z1 < z2) (c1 c2 : ℝ × ℝ) (hc1 : IsProjection g ⟨0, 0, z1⟩ c1.1 c1.2) (hc2 : IsProjection g ⟨0, 0, z2⟩ c2.1 c2.2) :
    rotAxisAngle c1 c2 = Spec.deg g.eta ∧
    |rotAxisAngleDeg c1 c2 - Spec.deg g.eta| ≤ 1 / 20000 ∧
    (|Spec.deg g.eta| ≤ 119 → initEta c1 c2 = some (rotAxisAngleDeg c1 c2)) ∧
    (|Spec.deg g.eta| ≤ 59 → initEta c2 c1 = none) := by
  have hL : 0 < g.D / (g.R * cos g.phi) * (z2 - z1) := mul_pos (div_pos hD hR) (by linarith)
  obtain ⟨hv, hu⟩ := axis_points g ht hD hR z1 z2 c1 c2 hc1 hc2
  have hpi := pi_pos
  have ha : rotAxisAngle c1 c2 = Spec.deg g.eta := rotAxisAngle_polar _ g.eta hL h1 h2 c1 c2 hv hu
  have hr : |rotAxisAngleDeg c1 c2 - Spec.deg g.eta| ≤ 1 / 20000 := by
    have := around_error 4 (rotAxisAngle c1 c2)
    rw [ha] at this
    unfold rotAxisAngleDeg
    rw [ha]
    exact this.trans (by norm_num)
  refine ⟨ha, hr, fun h => ?_, fun h => ?_⟩
  · unfold initEta
    simp only
    rw [if_neg]
    rw [abs_le] at h hr
    rw [not_lt, abs_le]
    constructor <;> linarith [hr.1, hr.2, h.1, h.2]
  · have hdeg : Spec.deg g.eta * (π / 180) = g.eta := by unfold Spec.deg; field_simp
    have hx : |rotAxisAngle c2 c1| ≥ 121 := by
      rw [abs_le] at h
      rcases le_or_gt 0 g.eta with h0 | h0
      · have := rotAxisAngle_polar _ (g.eta - π) hL (by linarith) (by linarith) c2 c1
          (by rw [cos_sub_pi]; linarith) (by rw [sin_sub_pi]; linarith)
        rw [this]
        have e : (g.eta - π) * (180 / π) = Spec.deg g.eta - 180 := by unfold Spec.deg; field_simp
        rw [e, abs_of_neg (by linarith)]
        linarith
      · have := rotAxisAngle_polar _ (g.eta + π) hL (by linarith) (by linarith) c2 c1
          (by rw [cos_add_pi]; linarith) (by rw [sin_add_pi]; linarith)
        rw [this]
        have e : (g.eta + π) * (180 / π) = Spec.deg g.eta + 180 := by unfold Spec.deg; field_simp
        rw [e, abs_of_pos (by linarith)]
        linarith
    have he := around_error 4 (rotAxisAngle c2 c1)
    unfold initEta
    simp only
    rw [if_pos]
    unfold rotAxisAngleDeg
    have h3 : |rotAxisAngle c2 c1| - |around 4 (rotAxisAngle c2 c1)| ≤ |around 4 (rotAxisAngle c2 c1) - rotAxisAngle c2 c1| := by
      rw [abs_sub_comm]; exact abs_sub_abs_le_abs_sub _ _
    norm_num at he
    linarith

/-- **C203, proved part (2).** If the tilt found is the tilt of the detector and more than a tenth of a degree, the corrected points are those
that a detector without the tilt would have seen, and the whole calibration is exact: together with `C89`, the stored geometry is that of the
acquisition. -/
theorem C203_tilt_removed_partial (g : ConeBeam) (ht : g.theta = 0) (hs : 1 / 10 < |Spec.deg g.eta|) :
    (∀ P v u, IsProjection g P v u ↔
      IsProjection (Spec.untilted g) P (untiltPoint (Spec.deg g.eta) (v, u)).1 (untiltPoint (Spec.deg g.eta) (v, u)).2) ∧
    (1 / 10 ^ 8 < g.D → 1 / 10 ^ 8 < g.R → |g.phi| < π / 2 → ∀ r z1 z2 e : ℝ, 0 < r → r < g.R * cos g.phi → z1 < 0 →
      ((e = 1 ∧ 0 < z2 ∧ z2 ≠ -z1) ∨ (e = -1 ∧ z2 < 0 ∧ z2 ≠ z1)) → ∀ p q : EllPars,
      (∀ s v u, IsProjection g (circlePoint r z1 s) v u →
        p.Contains (untiltPoint (Spec.deg g.eta) (v, u)).1 (untiltPoint (Spec.deg g.eta) (v, u)).2) →
      (∀ s v u, IsProjection g (circlePoint r z2 s) v u →
        q.Contains (untiltPoint (Spec.deg g.eta) (v, u)).1 (untiltPoint (Spec.deg g.eta) (v, u)).2) →
      fitCone p q r e = some { D := g.D, v0 := g.v0, u0 := g.u0, phi := g.phi, R := g.R }) := by
  have h1 : ∀ P v u, IsProjection g P v u ↔
      IsProjection (Spec.untilted g) P (untiltPoint (Spec.deg g.eta) (v, u)).1 (untiltPoint (Spec.deg g.eta) (v, u)).2 := by
    intro P v u
    unfold Spec.deg at hs ⊢
    rw [untiltPoint_eq g.eta hs]
    exact projection_untilt g P v u
  refine ⟨h1, ?_⟩
  intro hD hR hphi r z1 z2 e hr hA hz1 h2 p q hp hq
  have hcs := sin_sq_add_cos_sq g.eta
  have back : ∀ (z : ℝ) (k : EllPars), (∀ s v u, IsProjection g (circlePoint r z s) v u →
        k.Contains (untiltPoint (Spec.deg g.eta) (v, u)).1 (untiltPoint (Spec.deg g.eta) (v, u)).2) →
      k.IsTrajectory (Spec.untilted g) r z := by
    intro z k hk s v u h
    have e1 : untiltPoint (Spec.deg g.eta) (cos g.eta * v - sin g.eta * u, sin g.eta * v + cos g.eta * u) = (v, u) := by
      unfold Spec.deg at hs ⊢
      rw [untiltPoint_eq g.eta hs]
      ext
      · simp only; linear_combination v * hcs
      · simp only; linear_combination u * hcs
    have := hk s (cos g.eta * v - sin g.eta * u) (sin g.eta * v + cos g.eta * u) (by rw [h1, e1]; exact h)
    rwa [e1] at this
  exact C89_calibration_exact (Spec.untilted g) ht rfl hD hR hphi r z1 z2 e hr hA hz1 h2 p q (back z1 p hp) (back z2 q hq)

example : (1 : ℝ) / 10 < |Spec.deg (π / 6)| := by
  have : Spec.deg (π / 6) = 30 := by unfold Spec.deg; field_simp; norm_num
  rw [this]; norm_num

private theorem polar_core (x y ε : ℝ) (hε0 : 0 < ε) (hε1 : ε < 1) (hxy : x ^ 2 + y ^ 2 ≤ ε ^ 2) :
    ∃ N δ : ℝ, 0 < N ∧ |δ| ≤ arcsin ε ∧ N * cos δ = 1 + x ∧ N * sin δ = y := by
  have hx1 : 0 < 1 + x := by nlinarith [sq_nonneg y, sq_nonneg (x + ε), sq_nonneg (x - 1)]
  have hN : 0 < (1 + x) ^ 2 + y ^ 2 := by positivity
  obtain ⟨N, hN0, hN2⟩ : ∃ N : ℝ, 0 < N ∧ N ^ 2 = (1 + x) ^ 2 + y ^ 2 := ⟨√((1 + x) ^ 2 + y ^ 2), sqrt_pos.2 hN, sq_sqrt hN.le⟩
  have hyN : |y / N| ≤ ε := by
    rw [abs_div, abs_of_pos hN0, div_le_iff₀ hN0]
    apply abs_le_of_sq_le_sq _ (by positivity)
    rw [mul_pow, hN2]
    have h1 : y ^ 2 ≤ (x ^ 2 + y ^ 2) * ((1 + x) ^ 2 + y ^ 2) := by
      nlinarith [sq_nonneg (x * (1 + x) + y ^ 2)]
    exact h1.trans (mul_le_mul_of_nonneg_right hxy hN.le)
  refine ⟨N, arcsin (y / N), hN0, ?_, ?_, ?_⟩
  · rw [abs_le] at hyN ⊢
    rw [← arcsin_neg]
    exact ⟨monotone_arcsin hyN.1, monotone_arcsin hyN.2⟩
  · have e : 1 - (y / N) ^ 2 = ((1 + x) / N) ^ 2 := by
      rw [div_pow, div_pow, eq_div_iff (by positivity), sub_mul, div_mul_cancel₀ _ (by positivity), hN2]
      ring
    rw [cos_arcsin, e, sqrt_sq (by positivity)]
    field_simp
  · rw [sin_arcsin (by linarith [(abs_le.1 hyN).1]) (by linarith [(abs_le.1 hyN).2])]
    field_simp

private theorem polar_perturb (L η ev eu ε : ℝ) (hL : 0 < L) (hε0 : 0 < ε) (hε1 : ε < 1) (h : ev ^ 2 + eu ^ 2 ≤ (ε * L) ^ 2) :
    ∃ L' δ : ℝ, 0 < L' ∧ |δ| ≤ arcsin ε ∧ ev + -(L * cos η) = -(L' * cos (η + δ)) ∧ eu + -(L * sin η) = -(L' * sin (η + δ)) := by
  have hcs := sin_sq_add_cos_sq η
  obtain ⟨x, hx⟩ : ∃ x, x * L = -(ev * cos η + eu * sin η) := ⟨_, div_mul_cancel₀ _ hL.ne'⟩
  obtain ⟨y, hy⟩ : ∃ y, y * L = -(-ev * sin η + eu * cos η) := ⟨_, div_mul_cancel₀ _ hL.ne'⟩
  have hxy : x ^ 2 + y ^ 2 ≤ ε ^ 2 := by
    have e1 : (x ^ 2 + y ^ 2) * L ^ 2 = ev ^ 2 + eu ^ 2 := by
      have e2 : (x ^ 2 + y ^ 2) * L ^ 2 = (x * L) ^ 2 + (y * L) ^ 2 := by ring
      rw [e2, hx, hy]
      linear_combination (ev ^ 2 + eu ^ 2) * hcs
    have hL2 : 0 < L ^ 2 := by positivity
    rw [← e1, mul_pow] at h
    exact le_of_mul_le_mul_right h hL2
  obtain ⟨N, δ, hN, hδ, h1, h2⟩ := polar_core x y ε hε0 hε1 hxy
  refine ⟨L * N, δ, mul_pos hL hN, hδ, ?_, ?_⟩
  · rw [cos_add]
    linear_combination (cos η) * hx - (sin η) * hy + (L * cos η) * h1 - (L * sin η) * h2 - ev * hcs
  · rw [sin_add]
    linear_combination (sin η) * hx + (cos η) * hy + (L * sin η) * h1 + (L * cos η) * h2 - eu * hcs

/-- **C203, proved part (3).** With the centres rounded to hundredths of a pixel, as those that are fitted, the angle is off by at most the
angle under which the rounding is seen. -/
theorem C203_rounded_centres_partial (c1 c2 : ℝ × ℝ) (L η : ℝ) (hv : c1.1 - c2.1 = -(L * cos η)) (hu : c1.2 - c2.2 = -(L * sin η))
    (hL : √2 / 100 < L) (hη : |η| ≤ π / 2) :
    |rotAxisAngle (roundCentre c1) (roundCentre c2) - Spec.deg η| ≤ Spec.deg (arcsin (√2 / 100 / L)) := by
  have hs2 : (0 : ℝ) < √2 := by positivity
  have hL0 : 0 < L := lt_trans (by positivity) hL
  have hpi := pi_pos
  have hb : ∀ a b : ℝ, (around 2 a - around 2 b - (a - b)) ^ 2 ≤ (1 / 100) ^ 2 := by
    intro a b
    have h1 := around_error 2 a
    have h2 := around_error 2 b
    rw [abs_le] at h1 h2
    apply sq_le_sq'
    · norm_num at h1 h2 ⊢; linarith [h1.1, h1.2, h2.1, h2.2]
    · norm_num at h1 h2 ⊢; linarith [h1.1, h1.2, h2.1, h2.2]
  have hε0 : 0 < √2 / 100 / L := by positivity
  have hε1 : √2 / 100 / L < 1 := by rw [div_lt_one hL0]; exact hL
  have hsum : ((roundCentre c1).1 - (roundCentre c2).1 - (c1.1 - c2.1)) ^ 2 + ((roundCentre c1).2 - (roundCentre c2).2 - (c1.2 - c2.2)) ^ 2 ≤
      (√2 / 100 / L * L) ^ 2 := by
    rw [div_mul_cancel₀ _ hL0.ne', div_pow, sq_sqrt (by norm_num)]
    have h1 := hb c1.1 c2.1
    have h2 := hb c1.2 c2.2
    unfold roundCentre
    linarith
  obtain ⟨L', δ, hL', hδ, h1, h2⟩ := polar_perturb L η _ _ _ hL0 hε0 hε1 hsum
  have harc : arcsin (√2 / 100 / L) < π / 2 := arcsin_lt_pi_div_two.2 hε1
  rw [abs_le] at hη
  have hδ' := abs_le.1 hδ
  have hp := rotAxisAngle_polar L' (η + δ) hL' (by linarith [hη.1, hδ'.1]) (by linarith [hη.2, hδ'.2])
    (roundCentre c1) (roundCentre c2) (by rw [← h1, hv]; ring) (by rw [← h2, hu]; ring)
  rw [hp]
  unfold Spec.deg
  rw [← sub_mul, add_sub_cancel_left, abs_mul, abs_of_pos (by positivity : (0 : ℝ) < 180 / π)]
  exact mul_le_mul_of_nonneg_right hδ (by positivity)

example : √2 / 100 < (300 : ℝ) ∧ |π / 6| ≤ π / 2 := by
  have := pi_pos
  refine ⟨?_, by rw [abs_of_pos (by positivity)]; linarith⟩
  have : √2 ≤ 2 := by rw [sqrt_le_left (by norm_num)]; norm_num
  linarith


/-- **C39 (tilted detectors).** `fit_ellipse_center` finds the projection of the centre of the circle on tilted detectors too, from pairs of
opposite points. -/
theorem C39_projected_centre_tilted {n : ℕ} (rescale : Bool) (g : ConeBeam) (ht : g.theta = 0) (hD : g.D ≠ 0)
    (r z : ℝ) (s : Fin n → ℝ) (v1 u1 v2 u2 : Fin n → ℝ) (h1 : ∀ i, IsProjection g (circlePoint r z (s i)) (v1 i) (u1 i))
    (h2 : ∀ i, IsProjection g (circlePoint r z (s i + π)) (v2 i) (u2 i))
    (hpar : ∃ i j, (u2 i - u1 i) * (v2 j - v1 j) ≠ (u2 j - u1 j) * (v2 i - v1 i))
    (fv fu cv cu : ℝ) (hf : FitCenter rescale v1 u1 v2 u2 fv fu) (hc : IsProjection g ⟨0, 0, z⟩ cv cu) : fv = cv ∧ fu = cu := by
  refine fitCenter_common rescale v1 u1 v2 u2 cv cu fv fu (fun i => ?_) hpar hf
  have hcs := sin_sq_add_cos_sq g.eta
  have k1 := (projection_untilt g _ _ _).1 (h1 i)
  have k2 := (projection_untilt g _ _ _).1 (h2 i)
  have k0 := (projection_untilt g _ _ _).1 hc
  have key := opposite_collinear (Spec.untilted g) ht rfl hD r z (s i) _ _ _ _ _ _ k1 k2 k0
  linear_combination key + ((v1 i * u2 i - u1 i * v2 i) - ((u2 i - u1 i) * cv + -(v2 i - v1 i) * cu)) * hcs

/-- **C203 (violated).** It is false that the rotation axis is vertical in the points that are fitted: tilts of less than a tenth of a degree
are left in them (but still stored in the geometry). -/
theorem C203_small_tilt_violated :
    ¬ ∀ (g : ConeBeam) (z1 z2 : ℝ) (c1 c2 : ℝ × ℝ) (eta : ℝ), g.theta = 0 → 0 < g.D → 0 < g.R * cos g.phi → z1 < z2 →
      IsProjection g ⟨0, 0, z1⟩ c1.1 c1.2 → IsProjection g ⟨0, 0, z2⟩ c2.1 c2.2 → initEta c1 c2 = some eta →
      (untiltPoint eta c1).2 = (untiltPoint eta c2).2 := by
  intro h
  have hpi := pi_pos
  let η : ℝ := π / 3600
  let g : ConeBeam := ⟨0, 0, η, 1000, 100, 0, 0, 64, 64⟩
  have hcs := sin_sq_add_cos_sq η
  have hproj : ∀ z, IsProjection g ⟨0, 0, z⟩ (10 * z * cos η) (10 * z * sin η) := by
    intro z
    have hcirc : (⟨0, 0, z⟩ : V3) = circlePoint 0 z 0 := by unfold circlePoint; simp
    rw [projection_untilt, hcirc, projection_iff (Spec.untilted g) rfl rfl]
    refine ⟨10, ?_, ?_, ?_⟩
    · simp [Spec.untilted, g]; norm_num
    · simp only [Spec.untilted, g]; linear_combination (10 * z) * hcs
    · simp [Spec.untilted, g]; ring
  obtain ⟨ha, hr, hi, _⟩ := C203_tilt_found_partial g rfl (by norm_num) (by simp [g]) (by simp only [g, η]; linarith)
    (by simp only [g, η]; linarith) (-10) 10 (by norm_num) (10 * (-10) * cos η, 10 * (-10) * sin η) (10 * 10 * cos η, 10 * 10 * sin η)
    (hproj _) (hproj _)
  have hdeg : Spec.deg g.eta = 1 / 20 := by simp only [Spec.deg, g, η]; field_simp; norm_num
  rw [hdeg] at hr hi
  have := h g (-10) 10 _ _ _ rfl (by norm_num) (by simp [g]) (by norm_num) (hproj _) (hproj _) (hi (by norm_num))
  have hsmall : ¬ (1 / 10 < |rotAxisAngleDeg (10 * (-10) * cos η, 10 * (-10) * sin η) (10 * 10 * cos η, 10 * 10 * sin η)|) := by
    rw [abs_le] at hr
    rw [not_lt, abs_le]
    constructor <;> linarith [hr.1, hr.2]
  unfold untiltPoint at this
  rw [if_neg hsmall, if_neg hsmall] at this
  have hs : 0 < sin η := sin_pos_of_pos_of_lt_pi (by simp only [η]; positivity) (by simp only [η]; linarith)
  simp only at this
  linarith

/-! ## C204: repeated fits -/

theorem fitOrigin_eq (g : ConeBeam) (ht : g.theta = 0) (he : g.eta = 0) (hD : 0 < g.D) (hR : 0 < g.R) (r z1 z2 e : ℝ)
    (hr : 0 < r) (hA : r < g.R * cos g.phi) (h1 : z1 < 0) (h2 : z2 ≠ 0) (p q : EllPars) (hp : p.IsTrajectory g r z1)
    (hq : q.IsTrajectory g r z2) (c1 c2 : ℝ × ℝ) :
    fitOrigin p q r e g.D c1 c2 =
      ((-(e * |z2|) * c1.1 + z1 * c2.1) / (z1 - e * |z2|), (-(e * |z2|) * c1.2 + z1 * c2.2) / (z1 - e * |z2|)) := by
  rw [isTrajectory_iff g ht he hD r z1 hr hA h1.ne] at hp
  rw [isTrajectory_iff g ht he hD r z2 hr hA h2] at hq
  have hRsq : g.R ^ 2 = (g.R * cos g.phi) ^ 2 + (g.R * sin g.phi) ^ 2 := by
    linear_combination (-g.R ^ 2) * sin_sq_add_cos_sq g.phi
  obtain ⟨-, p2, p3, -⟩ := ell_formulas (g.R * cos g.phi) (g.R * sin g.phi) g.D g.v0 g.u0 r g.R hRsq hR hD hr hA z1 h1.ne
  obtain ⟨-, q2, q3, -⟩ := ell_formulas (g.R * cos g.phi) (g.R * sin g.phi) g.D g.v0 g.u0 r g.R hRsq hR hD hr hA z2 h2
  rw [← hp] at p2 p3
  rw [← hq] at q2 q3
  unfold fitOrigin
  simp only [p2, p3, q2, q3]
  have e1 : r / (r / g.R) * (-1 * |z1| / g.R) = z1 := by rw [abs_of_neg h1]; field_simp
  have e2 : r / (r / g.R) * (-1 * -e * |z2| / g.R) = e * |z2| := by field_simp
  rw [e1, e2]

/-- **C204, proved part (1).** With the exact projections of the two centres, the first successful fit finds the projection of the origin
(the point of the rotation axis at the height of the source). -/
theorem C204_origin_partial (g : ConeBeam) (ht : g.theta = 0) (he : g.eta = 0) (hD : 0 < g.D) (hR : 0 < g.R) (r z1 z2 e : ℝ)
    (hr : 0 < r) (hA : r < g.R * cos g.phi) (h1 : z1 < 0) (h2 : (e = 1 ∧ 0 < z2) ∨ (e = -1 ∧ z2 < 0 ∧ z2 ≠ z1))
    (p q : EllPars) (hp : p.IsTrajectory g r z1) (hq : q.IsTrajectory g r z2) (c1 c2 : ℝ × ℝ)
    (hc1 : IsProjection g ⟨0, 0, z1⟩ c1.1 c1.2) (hc2 : IsProjection g ⟨0, 0, z2⟩ c2.1 c2.2) :
    IsProjection g ⟨0, 0, 0⟩ (fitOrigin p q r e g.D c1 c2).1 (fitOrigin p q r e g.D c1 c2).2 := by
  have hz2 : z2 ≠ 0 := by rcases h2 with ⟨_, h⟩ | ⟨_, h, _⟩; exacts [h.ne', h.ne]
  have hs2 : e * |z2| = z2 := by
    rcases h2 with ⟨rfl, h⟩ | ⟨rfl, h, _⟩
    · rw [abs_of_pos h]; ring
    · rw [abs_of_neg h]; ring
  have hz12 : z1 - z2 ≠ 0 := by
    rcases h2 with ⟨_, h⟩ | ⟨_, h, h'⟩
    · exact (by linarith : z1 - z2 < 0).ne
    · intro h0; exact h' (by linarith)
  rw [fitOrigin_eq g ht he hD hR r z1 z2 e hr hA h1 hz2 p q hp hq, hs2]
  have hcirc : ∀ z, (⟨0, 0, z⟩ : V3) = circlePoint 0 z 0 := by intro z; unfold circlePoint; simp
  rw [hcirc, projection_iff g ht he] at hc1 hc2 ⊢
  obtain ⟨t1, a1, b1, d1⟩ := hc1
  obtain ⟨t2, a2, b2, d2⟩ := hc2
  have hA0 : g.R * cos g.phi ≠ 0 := (lt_trans hr hA).ne'
  simp only [zero_mul, sub_zero] at a1 a2 b1 b2 d1 d2 ⊢
  have ht12 : t2 = t1 := mul_right_cancel₀ hA0 (a2.trans a1.symm)
  subst ht12
  refine ⟨t2, a1, ?_, ?_⟩
  · rw [mul_zero, sub_eq_zero, div_eq_iff hz12]
    linear_combination -z2 * b1 + z1 * b2
  · rw [sub_eq_iff_eq_add, div_eq_iff hz12]
    linear_combination -z2 * d1 + z1 * d2

/-- The geometry that an earlier call of `fit` returned, read now: the object is the one of the state. -/
def Spec.readReturned (s : ConeFitState) : Option FitResult := s.acq

theorem trajectory_scale (g : ConeBeam) (ht : g.theta = 0) (he : g.eta = 0) (r z k : ℝ) (hk : k ≠ 0) (p : EllPars)
    (hp : p.IsTrajectory g r z) : p.IsTrajectory { g with R := k * g.R } (k * r) (k * z) := by
  intro s v u h
  obtain ⟨t, a, b, c⟩ := (projection_iff { g with R := k * g.R } ht he _ _ _ _ _).1 h
  apply hp s v u
  rw [projection_iff g ht he]
  refine ⟨t * k, ?_, ?_, ?_⟩
  · simp only at a; linear_combination a
  · simp only at b; linear_combination b
  · simp only at c; linear_combination c

/-- **C204 (violated).** It is false that the geometry returned by a fit stays what it was when the object is used for another fit: all the
calls return the same object, and the later one overwrites it. -/
theorem C204_returned_geometry_violated :
    ¬ ∀ (s : ConeFitState) (p q : EllPars) (c1 c2 : ℝ × ℝ) (r r' e D : ℝ),
      (fitConeFrom p q r e D).isSome → (fitConeFrom p q r' e D).isSome →
      Spec.readReturned ((s.fitMeasured p q c1 c2 r e D).fitMeasured p q c1 c2 r' e D) = Spec.readReturned (s.fitMeasured p q c1 c2 r e D) := by
  intro h
  let g : ConeBeam := ⟨0, 0, 0, 1000, 100, 0, 0, 64, 64⟩
  have hp := (isTrajectory_iff g rfl rfl (by norm_num) 10 (-20) (by norm_num) (by simp [g]; norm_num) (by norm_num) _).2 rfl
  have hq := (isTrajectory_iff g rfl rfl (by norm_num) 10 10 (by norm_num) (by simp [g]; norm_num) (by norm_num) _).2 rfl
  have hp' := trajectory_scale g rfl rfl 10 (-20) 2 (by norm_num) _ hp
  have hq' := trajectory_scale g rfl rfl 10 10 2 (by norm_num) _ hq
  have f1 := fitConeFrom_exact g rfl rfl (by norm_num) (by norm_num) (by simp [g]; exact pi_pos) 10 (-20) 10 1 (by norm_num)
    (by simp [g]; norm_num) (by norm_num) (Or.inl ⟨rfl, by norm_num⟩) _ _ hp hq
  have f2 := fitConeFrom_exact { g with R := 2 * g.R } rfl rfl (by norm_num) (by norm_num) (by simp [g]; exact pi_pos) (2 * 10) (2 * -20)
    (2 * 10) 1 (by norm_num) (by simp [g]; norm_num) (by norm_num) (Or.inl ⟨rfl, by norm_num⟩) _ _ hp' hq'
  simp only at f2
  have := h ⟨none, none⟩ _ _ (0, 0) (0, 0) 10 (2 * 10) 1 g.D (by rw [f1]; rfl) (by rw [f2]; rfl)
  unfold ConeFitState.fitMeasured at this
  rw [f1, f2] at this
  simp only [Spec.readReturned, ConeFitState.store, Option.some.injEq, FitResult.mk.injEq, g] at this
  norm_num at this

/-- **C204, proved part (2).** The values are those of the last successful fit, whatever was fitted before: except for the origin, which is
that of the first one. -/
theorem C204_last_fit_partial (s : ConeFitState) (p q : EllPars) (c1 c2 : ℝ × ℝ) (r e D : ℝ) (res : FitResult)
    (h : fitConeFrom p q r e D = some res) :
    (s.fitMeasured p q c1 c2 r e D).acq = some res ∧
    (s.origin = none → (s.fitMeasured p q c1 c2 r e D).origin = some (fitOrigin p q r e D c1 c2)) ∧
    (∀ o, s.origin = some o → (s.fitMeasured p q c1 c2 r e D).origin = some o) := by
  unfold ConeFitState.fitMeasured
  rw [h]
  refine ⟨rfl, fun h0 => ?_, fun o h0 => ?_⟩
  · simp [ConeFitState.store, h0]
  · simp [ConeFitState.store, h0]

/-- **C204 (violated).** It is false that after a successful fit with the right side of the source the origin is the projection of the origin:
a successful fit before it, with the wrong side, leaves its own. -/
theorem C204_stale_origin_violated :
    ¬ ∀ (g : ConeBeam) (r z1 z2 : ℝ) (p q : EllPars) (c1 c2 : ℝ × ℝ), g.theta = 0 → g.eta = 0 → 0 < g.D → 0 < g.R → 0 < r →
      r < g.R * cos g.phi → z1 < 0 → 0 < z2 → p.IsTrajectory g r z1 → q.IsTrajectory g r z2 → IsProjection g ⟨0, 0, z1⟩ c1.1 c1.2 →
      IsProjection g ⟨0, 0, z2⟩ c2.1 c2.2 → ∀ o, (((⟨none, none⟩ : ConeFitState).fitMeasured p q c1 c2 r (-1) g.D).fitMeasured p q c1 c2 r 1 g.D).origin =
        some o → IsProjection g ⟨0, 0, 0⟩ o.1 o.2 := by
  intro h
  let g : ConeBeam := ⟨0, 0, 0, 1000, 100, 0, 0, 64, 64⟩
  have hRsq : g.R ^ 2 = (g.R * cos g.phi) ^ 2 + (g.R * sin g.phi) ^ 2 := by
    linear_combination (-g.R ^ 2) * sin_sq_add_cos_sq g.phi
  have hp := (isTrajectory_iff g rfl rfl (by norm_num) 10 (-20) (by norm_num) (by simp [g]; norm_num) (by norm_num) _).2 rfl
  have hq := (isTrajectory_iff g rfl rfl (by norm_num) 10 10 (by norm_num) (by simp [g]; norm_num) (by norm_num) _).2 rfl
  have hproj : ∀ z, IsProjection g ⟨0, 0, z⟩ (10 * z) 0 := by
    intro z
    have hcirc : (⟨0, 0, z⟩ : V3) = circlePoint 0 z 0 := by unfold circlePoint; simp
    rw [hcirc, projection_iff g rfl rfl]
    refine ⟨10, ?_, ?_, ?_⟩ <;> simp [g]
    norm_num
  -- the fit with the wrong side succeeds
  have hw : ∃ res, fitConeFrom (trueEll (g.R * cos g.phi) (g.R * sin g.phi) g.D g.v0 g.u0 10 (-20))
      (trueEll (g.R * cos g.phi) (g.R * sin g.phi) g.D g.v0 g.u0 10 10) 10 (-1) g.D = some res := by
    obtain ⟨p1, p2, p3, p4⟩ := ell_formulas (g.R * cos g.phi) (g.R * sin g.phi) g.D g.v0 g.u0 10 g.R hRsq (by norm_num) (by norm_num)
      (by norm_num) (by simp [g]; norm_num) (-20) (by norm_num)
    obtain ⟨q1, q2, q3, q4⟩ := ell_formulas (g.R * cos g.phi) (g.R * sin g.phi) g.D g.v0 g.u0 10 g.R hRsq (by norm_num) (by norm_num)
      (by norm_num) (by simp [g]; norm_num) 10 (by norm_num)
    unfold fitConeFrom
    simp only [p2, q2, p3, q3]
    simp only [mul_div_assoc, p1, q1]
    rw [if_neg, if_neg]
    · exact ⟨_, rfl⟩
    · rw [show (20 : ℝ) = 20 from rfl]
      simp [g, isClose0]
      norm_num [abs_of_pos, abs_of_neg]
    · simp [g, trueEll]
      norm_num [abs_of_pos, abs_of_neg]
  obtain ⟨res, hw⟩ := hw
  have f1 := C204_last_fit_partial ⟨none, none⟩ _ _ (10 * -20, 0) (10 * 10, 0) 10 (-1) g.D res hw
  have f2 := fitConeFrom_exact g rfl rfl (by norm_num) (by norm_num) (by simp [g]; exact pi_pos) 10 (-20) 10 1 (by norm_num)
    (by simp [g]; norm_num) (by norm_num) (Or.inl ⟨rfl, by norm_num⟩) _ _ hp hq
  have f3 := C204_last_fit_partial ((⟨none, none⟩ : ConeFitState).fitMeasured
    (trueEll (g.R * cos g.phi) (g.R * sin g.phi) g.D g.v0 g.u0 10 (-20)) (trueEll (g.R * cos g.phi) (g.R * sin g.phi) g.D g.v0 g.u0 10 10)
    (10 * -20, 0) (10 * 10, 0) 10 (-1) g.D) _ _ (10 * -20, 0) (10 * 10, 0) 10 1 g.D _ f2
  have := h g 10 (-20) 10 _ _ (10 * -20, 0) (10 * 10, 0) rfl rfl (by norm_num) (by norm_num) (by norm_num) (by simp [g]; norm_num)
    (by norm_num) (by norm_num) hp hq (hproj _) (hproj _) _ (f3.2.2 _ (f1.2.1 rfl))
  rw [fitOrigin_eq g rfl rfl (by norm_num) (by norm_num) 10 (-20) 10 (-1) (by norm_num) (by simp [g]; norm_num) (by norm_num) (by norm_num)
    _ _ hp hq] at this
  have hcirc : (⟨0, 0, 0⟩ : V3) = circlePoint 0 0 0 := by unfold circlePoint; simp
  rw [hcirc, projection_iff g rfl rfl] at this
  obtain ⟨t, -, b, -⟩ := this
  simp [g] at b
  norm_num at b

end Verif
