import Verif.Props.PencilBeam
import Verif.Props.Physics
import Verif.Props.Geometry

/-! # Absolute values: units, beam shapes, cross-sections, phase shifts, magnifications (C36, C53, C83, C85, C117, C118) -/

namespace Verif

/-- **C53 (the units themselves).** The factors between neighbouring units; with the composition rule they give all factors. -/
theorem C53_known_factors :
    convertUnit metricOrder "km" "m" = some 1000 ∧ convertUnit metricOrder "m" "cm" = some 100 ∧
    convertUnit metricOrder "cm" "mm" = some 10 ∧ convertUnit metricOrder "mm" "um" = some 1000 ∧
    convertUnit metricOrder "um" "nm" = some 1000 ∧ convertUnit metricOrder "nm" "a" = some 10 ∧
    convertUnit energyOrder "GeV" "MeV" = some 1000 ∧ convertUnit energyOrder "MeV" "keV" = some 1000 ∧
    convertUnit energyOrder "keV" "eV" = some 1000 ∧ convertUnit energyOrder "eV" "meV" = some 1000 ∧
    convertUnit energyOrder "meV" "ueV" = some 1000 := by
  simp only [convertUnit, metricOrder, energyOrder, Option.bind_eq_bind, Option.bind_some]
  norm_num

/-- **C117 (the beam shapes).** Each shape has its maximum, 1, at the centre, decreases strictly with the distance from it, and has half
its maximum at half of the given full width. -/
theorem C117_beam_shapes (s : BeamShape) (fwhm : ℝ) (h : 0 < fwhm) :
    beamIntensity s fwhm 0 = 1 ∧ beamIntensity s fwhm (fwhm / 2) = 1 / 2 ∧ beamIntensity s fwhm (-(fwhm / 2)) = 1 / 2 ∧
    ∀ x y, |x| < |y| → beamIntensity s fwhm y < beamIntensity s fwhm x := by
  have hhalf : beamIntensity s fwhm (fwhm / 2) = 1 / 2 := by
    cases s
    · simp only [beamIntensity]
      have : -4 * Real.log 2 * (fwhm / 2) ^ 2 / fwhm ^ 2 = -Real.log 2 := by field_simp; ring
      rw [this, Real.exp_neg, Real.exp_log (by norm_num)]
      norm_num
    · simp only [beamIntensity]
      field_simp
      norm_num
    · simp only [beamIntensity]
      have h2 : (1 : ℝ) ≤ Real.sqrt 2 := by
        rw [Real.le_sqrt (by norm_num) (by norm_num)]; norm_num
      have hpos : 0 < Real.arcosh (Real.sqrt 2) := Real.arcosh_pos (by
        rw [Real.lt_sqrt (by norm_num)]; norm_num)
      have : fwhm / 2 / (fwhm / (2 * Real.arcosh (Real.sqrt 2))) = Real.arcosh (Real.sqrt 2) := by field_simp
      rw [this, Real.cosh_arcosh h2, Real.sq_sqrt (by norm_num)]
  refine ⟨beamIntensity_zero s fwhm h, hhalf, by rw [beamIntensity_even, hhalf], fun x y hxy => ?_⟩
  have hsq : x ^ 2 < y ^ 2 := sq_lt_sq.2 hxy
  cases s
  · simp only [beamIntensity]
    refine Real.exp_lt_exp.2 ?_
    have hl : 0 < Real.log 2 := Real.log_pos (by norm_num)
    refine div_lt_div_of_pos_right ?_ (by positivity)
    nlinarith
  · simp only [beamIntensity]
    exact div_lt_div_of_pos_left (by positivity) (by positivity) (by linarith)
  · simp only [beamIntensity]
    have hpos : 0 < Real.arcosh (Real.sqrt 2) := Real.arcosh_pos (by
      rw [Real.lt_sqrt (by norm_num)]; norm_num)
    have hd : 0 < fwhm / (2 * Real.arcosh (Real.sqrt 2)) := by positivity
    have hc : Real.cosh (x / (fwhm / (2 * Real.arcosh (Real.sqrt 2)))) < Real.cosh (y / (fwhm / (2 * Real.arcosh (Real.sqrt 2)))) := by
      rw [Real.cosh_lt_cosh, abs_div x, abs_div y]
      exact div_lt_div_of_pos_right hxy (abs_pos.2 hd.ne')
    exact div_lt_div_of_pos_left one_pos (by positivity) (pow_lt_pow_left₀ hc (Real.cosh_pos _).le two_ne_zero)

/-- **C118 (cross-sections).** A compound known to the tables has the tabulated cross-section; any other one the average of its elements:
that of its element if there is only one, and between any bounds of them if mass fractions are non-negative and sum to 1. -/
theorem C118_cross_section (t : XrayTables) (c : Compound) (energy : ℝ) :
    (∀ v, t.csCompound c.name energy = some v → crossSection t c energy = v) ∧
    (t.csCompound c.name energy = none →
      (∀ el, c.elements = [el] → c.massFractions = [1] → crossSection t c energy = t.csElement el energy) ∧
      (∀ lo hi, c.elements.length = c.massFractions.length → (∀ w ∈ c.massFractions, 0 ≤ w) → c.massFractions.sum = 1 →
        (∀ el ∈ c.elements, lo ≤ t.csElement el energy ∧ t.csElement el energy ≤ hi) →
        lo ≤ crossSection t c energy ∧ crossSection t c energy ≤ hi)) := by
  refine ⟨fun v hv => by unfold crossSection; rw [hv]; rfl, fun hn => ⟨fun el h1 h2 => ?_, fun lo hi hlen hw hs hb => ?_⟩⟩
  · unfold crossSection
    rw [hn, h1, h2]
    simp
  · unfold crossSection
    rw [hn, Option.getD_none]
    have key : ∀ (els : List ℕ) (ws : List ℝ), els.length = ws.length → (∀ w ∈ ws, 0 ≤ w) →
        (∀ el ∈ els, lo ≤ t.csElement el energy ∧ t.csElement el energy ≤ hi) →
        lo * ws.sum ≤ (List.zipWith (fun el w => t.csElement el energy * w) els ws).sum ∧
          (List.zipWith (fun el w => t.csElement el energy * w) els ws).sum ≤ hi * ws.sum := by
      intro els
      induction els with
      | nil => intro ws h _ _; have : ws = [] := List.length_eq_zero_iff.1 h.symm; subst this; simp
      | cons el els ih =>
        intro ws h hw hb
        cases ws with
        | nil => simp at h
        | cons w ws =>
          obtain ⟨i1, i2⟩ := ih ws (by simpa using h) (fun w hm => hw w (by simp [hm])) (fun e hm => hb e (by simp [hm]))
          obtain ⟨b1, b2⟩ := hb el (by simp)
          have w0 := hw w (by simp)
          simp only [List.zipWith_cons_cons, List.sum_cons]
          constructor <;> nlinarith
    have := key c.elements c.massFractions hlen hw hb
    rw [hs, mul_one, mul_one] at this
    exact this

/-- **C118 (phase shift).** A voxel holding the fraction `f` of one material shifts the phase by `2π/λ · d · f · (n - 1)`, `d` its
thickness and `n` the refractive index. -/
theorem C118_phase_shift {V : Type} (t : XrayTables) (voxel energy wl : ℝ) (f : V → ℝ) (c : Compound) (j : V) :
    getPhaseShift t [(f, c)] voxel energy wl j =
      2 * Real.pi / wl * voxel * (f j * (t.refractive c.name energy c.density - 1)) := by
  simp only [getPhaseShift, List.map_cons, List.map_nil, List.sum_cons, List.sum_nil]
  ring

/-- **C118 (linear attenuation).** `get_linear_attenuation_coefficient` with a pixel in microns is the attenuation of a volume filled
with that compound whose voxels have that size, in centimetres. -/
theorem C118_linear_attenuation {V : Type} (t : XrayTables) (c : Compound) (energy um : ℝ) (j : V) :
    ∃ f, convertUnit metricOrder "um" "cm" = some f ∧
      (linearAttenuation t c energy um none).1 = getAttenuation t [(fun _ => 1, c)] (um * f) energy j ∧
      ∀ d, (linearAttenuation t c energy um (some d)).1 = getAttenuation t [(fun _ => 1, { c with density := d })] (um * f) energy j := by
  refine ⟨100 / 10 ^ 6, by simp only [convertUnit, metricOrder, Option.bind_eq_bind, Option.bind_some]; norm_num, ?_, fun d => ?_⟩
  · simp only [linearAttenuation, getAttenuation, List.map_cons, List.map_nil, List.sum_cons, List.sum_nil]
    ring
  · simp only [linearAttenuation, getAttenuation, List.map_cons, List.map_nil, List.sum_cons, List.sum_nil]
    ring

/-! ## Geometry -/

/-- **C35 (2D or 3D).** The geometry of a volume is three-dimensional exactly if the volume has three axes and more than one slice. -/
theorem C35_is_3d (shape xyz : List ℕ) (h : volGeomFromVolume shape = some xyz) :
    is3D xyz = true ↔ ∃ z y x, shape = [z, y, x] ∧ 1 < z := by
  match shape, h with
  | [], h => simp [volGeomFromVolume] at h
  | [_], h => simp [volGeomFromVolume] at h
  | [y, x], h =>
    simp [volGeomFromVolume] at h; subst h; simp [is3D]
  | [z, y, x], h =>
    simp [volGeomFromVolume] at h; subst h; simp [is3D]
  | a :: b :: c :: d :: l, h =>
    have hl : xyz.length = l.length + 4 := by
      unfold volGeomFromVolume at h
      rw [if_neg (by simp)] at h
      have := congrArg (Option.map List.length) h
      simp only [Option.map_some, Option.some.injEq, List.length_append, List.length_reverse, List.length_take,
        List.length_cons] at this
      rw [← this, List.getElem?_eq_getElem (by simp), List.getElem?_eq_getElem (by simp)]
      simp
      omega
    simp [is3D, hl]

open V3 in
/-- **C83 is violated for axes as well.** With one angle and several axes the axes after the first one are dropped silently. -/
theorem C83_axes_dropped_violated :
    ¬ ∀ (g : PrjGeom) (angle : ℝ) (axes : List V3) (g' : PrjGeom), setDetectorTilt g [angle] axes 2 false = .ok g' →
      g'.detU = g.detU.map fun u => axes.foldl (fun u a => rotVec (smul angle a) u) u := by
  intro h
  have := h ⟨.parallel3d, [⟨0, -1, 0⟩], [0], [⟨1, 0, 0⟩], [⟨0, 0, 1⟩], ⟨0, 0, 1⟩, 1, none⟩ Real.pi [⟨0, 0, 0⟩, ⟨0, 0, 1⟩] _
    (by unfold setDetectorTilt; rw [if_neg (by simp)])
  simp only [List.zip_cons_cons, List.zip_nil_left, List.foldl_cons, List.foldl_nil, List.map_cons, List.map_nil,
    List.cons.injEq, and_true] at this
  have e0 : smul Real.pi (⟨0, 0, 0⟩ : V3) = 0 := by ext <;> simp
  have e1 : smul Real.pi (⟨0, 0, 1⟩ : V3) = ⟨0, 0, Real.pi⟩ := by ext <;> simp
  rw [e0, e1, rotVec_zero, rotVec_z] at this
  have := congrArg V3.x this
  simp at this
  norm_num at this

open V3 in
/-- **C83 (one tilt).** A single angle is never refused: it is applied around the first axis. -/
theorem C83_single_angle_partial (g : PrjGeom) (angle : ℝ) (axis : V3) (more : List V3) (nd : ℕ) (ts : Bool) :
    ∃ g', setDetectorTilt g [angle] (axis :: more) nd ts = .ok g' ∧ g'.detU = g.detU.map (rotVec (smul angle axis)) ∧
      g'.detV = g.detV.map (rotVec (smul angle axis)) ∧ g'.detPos = g.detPos.map (rotVec (smul angle axis)) ∧
      g'.srcPos = if ts then g.srcPos.map (rotVec (smul angle axis)) else g.srcPos := by
  refine ⟨_, by unfold setDetectorTilt; rw [if_neg (by simp)], ?_⟩
  simp

open V3 in
/-- **C85 (cone beam).** In the standard cone-beam geometry at angle `x`, the ray from the source through a point `P` of the volume meets
the detector, which passes through the rotation axis, at the coordinates `u = m U`, `v = m P.z`: `U` is the coordinate of the parallel
projection, `W` the depth of the point behind the axis and `m = D / (D + W)`, `D` the distance of the source from the axis. -/
theorem C85_cone_projection (D : ℝ) (cw : Bool) (angles : List ℝ) (i : ℕ) (hi : i < angles.length) (P : V3) :
    let U := if cw then P.x * Real.cos angles[i] - P.y * Real.sin angles[i] else P.x * Real.cos angles[i] + P.y * Real.sin angles[i]
    let W := if cw then P.y * Real.cos angles[i] + P.x * Real.sin angles[i] else P.y * Real.cos angles[i] - P.x * Real.sin angles[i]
    D + W ≠ 0 → ∃ s d u v, ((prjGeomCone D cw).rotate angles).srcPos[i]? = some s ∧ ((prjGeomCone D cw).rotate angles).detPos[i]? = some d ∧
      ((prjGeomCone D cw).rotate angles).detU[i]? = some u ∧ ((prjGeomCone D cw).rotate angles).detV[i]? = some v ∧
      ∃ k, s + smul k (P - s) = d + smul (D / (D + W) * U) u + smul (D / (D + W) * P.z) v := by
  intro U W hW
  obtain ⟨h1, h2, h3, h4⟩ := rotate_row (prjGeomCone D cw) _ _ _ _ rfl rfl rfl rfl angles i hi
  refine ⟨_, _, _, _, h1, h2, h3, h4, D / (D + W), ?_⟩
  have : (prjGeomCone D cw).rotDir = rotAxisDir cw := rfl
  rw [this, smul_rotAxisDir, rotVec_z, rotVec_z, rotVec_z, rotVec_z]
  have hsc := Real.sin_sq_add_cos_sq angles[i]
  have hm : D / (D + W) * (D + W) = D := div_mul_cancel₀ _ hW
  set m := D / (D + W)
  have hmD : D - m * D = m * W := by linarith
  cases cw
  · simp only [Bool.false_eq_true, if_false, U, W] at *
    ext <;> simp
    · linear_combination (Real.sin angles[i]) * hmD - m * P.x * hsc
    · linear_combination (-Real.cos angles[i]) * hmD - m * P.y * hsc
  · simp only [if_true, U, W] at *
    ext <;> simp
    · linear_combination (-Real.sin angles[i]) * hmD - m * P.x * hsc
    · linear_combination (-Real.cos angles[i]) * hmD - m * P.y * hsc

open V3 in
/-- **C36 (magnification).** The ratio of pixel to voxel size of a cone-beam geometry is the distance of the source from the rotation
axis over its distance from the detector along the ray through the axis: that ray, `s - t e_x`, meets the detector plane at `t` with
`|t| · ratio = R`. -/
theorem C36_pixel_ratio (g : ConeBeam) (translate : Bool) (hD : 0 < g.D) (t : ℝ) :
    ∀ s d, (g.prjGeom translate).srcPos = [s] → (g.prjGeom translate).detPos = [d] →
      dot (s - smul t ⟨1, 0, 0⟩ - d) g.normal = 0 → |t| * (g.prjGeom translate).pix2vox = g.R := by
  intro s d hs hd ht
  obtain ⟨s', d', u, v, h1, h2, -, -, -, -, -, -, -, -, h3, -⟩ := C36_rigid_frame g translate
  rw [h1] at hs; rw [h2] at hd
  simp only [List.cons.injEq, and_true] at hs hd
  subst hs; subst hd
  have e : dot (s' - smul t ⟨1, 0, 0⟩ - d') g.normal = dot (s' - d') g.normal - t * dot g.normal ⟨1, 0, 0⟩ := by
    unfold dot; simp; ring
  rw [e, h3] at ht
  have hp : (g.prjGeom translate).pix2vox = g.R / g.D * |dot g.normal ⟨1, 0, 0⟩| := rfl
  have ht' : |t| * |dot g.normal ⟨1, 0, 0⟩| = g.D := by
    rw [← abs_mul, show t * dot g.normal ⟨1, 0, 0⟩ = g.D by linarith, abs_of_pos hD]
  rw [hp]
  calc |t| * (g.R / g.D * |dot g.normal ⟨1, 0, 0⟩|) = g.R / g.D * (|t| * |dot g.normal ⟨1, 0, 0⟩|) := by ring
    _ = g.R := by rw [ht']; field_simp

end Verif
