import Verif.Model.Geometry

/-!
# Geometries (C35, C36, C37 and the related violated claims)
-/

namespace Verif

open V3 Real

namespace V3

@[simp] theorem add_x (a b : V3) : (a + b).x = a.x + b.x := rfl
@[simp] theorem add_y (a b : V3) : (a + b).y = a.y + b.y := rfl
@[simp] theorem add_z (a b : V3) : (a + b).z = a.z + b.z := rfl
@[simp] theorem sub_x (a b : V3) : (a - b).x = a.x - b.x := rfl
@[simp] theorem sub_y (a b : V3) : (a - b).y = a.y - b.y := rfl
@[simp] theorem sub_z (a b : V3) : (a - b).z = a.z - b.z := rfl
@[simp] theorem neg_x (a : V3) : (-a).x = -a.x := rfl
@[simp] theorem neg_y (a : V3) : (-a).y = -a.y := rfl
@[simp] theorem neg_z (a : V3) : (-a).z = -a.z := rfl
@[simp] theorem zero_x : (0 : V3).x = 0 := rfl
@[simp] theorem zero_y : (0 : V3).y = 0 := rfl
@[simp] theorem zero_z : (0 : V3).z = 0 := rfl
@[simp] theorem smul_x (k : ℝ) (a : V3) : (smul k a).x = k * a.x := rfl
@[simp] theorem smul_y (k : ℝ) (a : V3) : (smul k a).y = k * a.y := rfl
@[simp] theorem smul_z (k : ℝ) (a : V3) : (smul k a).z = k * a.z := rfl
@[simp] theorem cross_x (a b : V3) : (cross a b).x = a.y * b.z - a.z * b.y := rfl
@[simp] theorem cross_y (a b : V3) : (cross a b).y = a.z * b.x - a.x * b.z := rfl
@[simp] theorem cross_z (a b : V3) : (cross a b).z = a.x * b.y - a.y * b.x := rfl

theorem dot_self_nonneg (a : V3) : 0 ≤ dot a a := by unfold dot; nlinarith [sq_nonneg a.x, sq_nonneg a.y, sq_nonneg a.z]

theorem norm_sq (a : V3) : norm a ^ 2 = dot a a := sq_sqrt (dot_self_nonneg a)

theorem norm_nonneg (a : V3) : 0 ≤ norm a := sqrt_nonneg _

theorem eq_zero_of_norm (a : V3) (h : norm a = 0) : a = 0 := by
  have := norm_sq a
  rw [h] at this
  unfold dot at this
  ext <;> simp <;> nlinarith [sq_nonneg a.x, sq_nonneg a.y, sq_nonneg a.z]

theorem norm_smul (k : ℝ) (a : V3) : norm (smul k a) = |k| * norm a := by
  unfold norm
  rw [show dot (smul k a) (smul k a) = k ^ 2 * dot a a by unfold dot; simp; ring, sqrt_mul (sq_nonneg k), sqrt_sq_eq_abs]

theorem norm_neg (a : V3) : norm (-a) = norm a := by unfold norm dot; simp

end V3

/-- Rotations preserve inner products. -/
theorem dot_rotVec (w a b : V3) : dot (rotVec w a) (rotVec w b) = dot a b := by
  unfold rotVec
  by_cases h : norm w = 0
  · simp [h]
  simp only [h, if_false]
  have hn : norm w ^ 2 = w.x * w.x + w.y * w.y + w.z * w.z := norm_sq w
  have hcs := Real.sin_sq_add_cos_sq (norm w)
  generalize hc : Real.cos (norm w) = c at *
  generalize hs : Real.sin (norm w) = s at *
  generalize ht : norm w = t at *
  have hS : (s / t) * t = s := div_mul_cancel₀ s h
  have hK : ((1 - c) / t ^ 2) * t ^ 2 = 1 - c := div_mul_cancel₀ _ (pow_ne_zero 2 h)
  generalize s / t = S at *
  generalize (1 - c) / t ^ 2 = K at *
  have h1 : c ^ 2 + S ^ 2 * (w.x * w.x + w.y * w.y + w.z * w.z) = 1 := by rw [← hn]; linear_combination (S * t + s) * hS + hcs
  have h2 : K * (w.x * w.x + w.y * w.y + w.z * w.z) = 1 - c := by rw [← hn]; exact hK
  have h3 : K ^ 2 * (w.x * w.x + w.y * w.y + w.z * w.z) + 2 * c * K = S ^ 2 := by
    have e1 : K ^ 2 * t ^ 2 * t ^ 2 + 2 * c * K * t ^ 2 = S ^ 2 * t ^ 2 := by
      have : K ^ 2 * t ^ 2 * t ^ 2 = (1 - c) ^ 2 := by rw [← hK]; ring
      rw [this]
      have : 2 * c * K * t ^ 2 = 2 * c * (1 - c) := by rw [← hK]; ring
      rw [this]
      have : S ^ 2 * t ^ 2 = s ^ 2 := by rw [← hS]; ring
      rw [this]; nlinarith
    rw [← hn]
    have : (K ^ 2 * t ^ 2 + 2 * c * K - S ^ 2) * t ^ 2 = 0 := by linear_combination e1
    rcases mul_eq_zero.1 this with h' | h'
    · linarith
    · exact absurd h' (pow_ne_zero 2 h)
  unfold dot
  simp only [add_x, add_y, add_z, smul_x, smul_y, smul_z, cross_x, cross_y, cross_z]
  linear_combination (a.x * b.x + a.y * b.y + a.z * b.z) * h1 +
    (w.x * a.x + w.y * a.y + w.z * a.z) * (w.x * b.x + w.y * b.y + w.z * b.z) * h3

/-- A vector is determined by its inner products with the images of a rotation; here: rotating back. -/
theorem rotVec_neg_rotVec (w a : V3) : rotVec (-w) (rotVec w a) = a := by
  unfold rotVec
  rw [norm_neg]
  by_cases h : norm w = 0
  · simp [h]
  simp only [h, if_false]
  have hn : norm w ^ 2 = w.x * w.x + w.y * w.y + w.z * w.z := norm_sq w
  have hcs := Real.sin_sq_add_cos_sq (norm w)
  generalize hc : Real.cos (norm w) = c at *
  generalize hs : Real.sin (norm w) = s at *
  generalize ht : norm w = t at *
  have hS : (s / t) * t = s := div_mul_cancel₀ s h
  have hK : ((1 - c) / t ^ 2) * t ^ 2 = 1 - c := div_mul_cancel₀ _ (pow_ne_zero 2 h)
  generalize s / t = S at *
  generalize (1 - c) / t ^ 2 = K at *
  have h1 : c ^ 2 + S ^ 2 * (w.x * w.x + w.y * w.y + w.z * w.z) = 1 := by rw [← hn]; linear_combination (S * t + s) * hS + hcs
  have h3 : K ^ 2 * (w.x * w.x + w.y * w.y + w.z * w.z) + 2 * c * K = S ^ 2 := by
    have e1 : K ^ 2 * t ^ 2 * t ^ 2 + 2 * c * K * t ^ 2 = S ^ 2 * t ^ 2 := by
      have : K ^ 2 * t ^ 2 * t ^ 2 = (1 - c) ^ 2 := by rw [← hK]; ring
      rw [this]
      have : 2 * c * K * t ^ 2 = 2 * c * (1 - c) := by rw [← hK]; ring
      rw [this]
      have : S ^ 2 * t ^ 2 = s ^ 2 := by rw [← hS]; ring
      rw [this]; nlinarith
    rw [← hn]
    have : (K ^ 2 * t ^ 2 + 2 * c * K - S ^ 2) * t ^ 2 = 0 := by linear_combination e1
    rcases mul_eq_zero.1 this with h' | h'
    · linarith
    · exact absurd h' (pow_ne_zero 2 h)
  unfold dot
  ext
  · simp only [add_x, add_y, add_z, smul_x, smul_y, smul_z, cross_x, cross_y, cross_z, neg_x, neg_y, neg_z]
    linear_combination a.x * h1 + w.x * (w.x * a.x + w.y * a.y + w.z * a.z) * h3
  · simp only [add_x, add_y, add_z, smul_x, smul_y, smul_z, cross_x, cross_y, cross_z, neg_x, neg_y, neg_z]
    linear_combination a.y * h1 + w.y * (w.x * a.x + w.y * a.y + w.z * a.z) * h3
  · simp only [add_x, add_y, add_z, smul_x, smul_y, smul_z, cross_x, cross_y, cross_z, neg_x, neg_y, neg_z]
    linear_combination a.z * h1 + w.z * (w.x * a.x + w.y * a.y + w.z * a.z) * h3

/-- Rotations are linear. -/
theorem rotVec_add (w a b : V3) : rotVec w (a + b) = rotVec w a + rotVec w b := by
  unfold rotVec dot
  dsimp only
  split_ifs
  · rfl
  · ext <;> simp <;> ring

theorem rotVec_sub (w a b : V3) : rotVec w (a - b) = rotVec w a - rotVec w b := by
  unfold rotVec dot
  dsimp only
  split_ifs
  · rfl
  · ext <;> simp <;> ring

theorem rotVec_smul (w : V3) (k : ℝ) (a : V3) : rotVec w (smul k a) = smul k (rotVec w a) := by
  unfold rotVec dot
  dsimp only
  split_ifs
  · rfl
  · ext <;> simp <;> ring

theorem norm_rotVec (w a : V3) : norm (rotVec w a) = norm a := by unfold V3.norm; rw [dot_rotVec]

/-- The axis is fixed. -/
theorem rotVec_axis (w : V3) (k : ℝ) : rotVec w (smul k w) = smul k w := by
  unfold rotVec
  by_cases h : norm w = 0
  · simp [h]
  simp only [h, if_false]
  have hn : norm w ^ 2 = w.x * w.x + w.y * w.y + w.z * w.z := norm_sq w
  have hK : ((1 - Real.cos (norm w)) / norm w ^ 2) * norm w ^ 2 = 1 - Real.cos (norm w) := div_mul_cancel₀ _ (pow_ne_zero 2 h)
  generalize (1 - Real.cos (norm w)) / norm w ^ 2 = K at *
  rw [hn] at hK
  unfold dot
  ext
  · simp; linear_combination k * w.x * hK
  · simp; linear_combination k * w.y * hK
  · simp; linear_combination k * w.z * hK

theorem rotVec_zero (a : V3) : rotVec 0 a = a := by
  unfold rotVec
  have : V3.norm (0 : V3) = 0 := by unfold V3.norm dot; simp
  simp [this]

/-! ## C37: rotating a geometry -/

/-- The `i`-th source, detector centre and axes seen by the projector at angle `i`: row `i`, or the only row. -/
def rowAt (vs : List V3) (i : ℕ) : Option V3 := if vs.length = 1 then vs[0]? else vs[i]?

/-- For a geometry with one row per array the rotated geometry has, at every angle, all vectors turned by that angle. -/
theorem rotate_row (g : PrjGeom) (s d u v : V3) (hs : g.srcPos = [s]) (hd : g.detPos = [d]) (hu : g.detU = [u])
    (hv : g.detV = [v]) (angles : List ℝ) (i : ℕ) (hi : i < angles.length) :
    (g.rotate angles).srcPos[i]? = some (rotVec (smul angles[i] g.rotDir) s) ∧
    (g.rotate angles).detPos[i]? = some (rotVec (smul angles[i] g.rotDir) d) ∧
    (g.rotate angles).detU[i]? = some (rotVec (smul angles[i] g.rotDir) u) ∧
    (g.rotate angles).detV[i]? = some (rotVec (smul angles[i] g.rotDir) v) := by
  simp [PrjGeom.rotate, hs, hd, hu, hv, applyRotations, hi]

/-- **C37.** Rotating a geometry by any angles around any axis is rigid: at every angle there is one linear map, preserving all
inner products (so lengths and angles) and fixing the rotation axis, that takes source, detector centre and detector axes to
those of the rotated geometry; the kind of geometry, the axis and the scale are unchanged. -/
theorem C37_rotation_is_rigid (g : PrjGeom) (s d u v : V3) (hs : g.srcPos = [s]) (hd : g.detPos = [d]) (hu : g.detU = [u])
    (hv : g.detV = [v]) (angles : List ℝ) (i : ℕ) (hi : i < angles.length) :
    ∃ Q : V3 → V3, (∀ a b, dot (Q a) (Q b) = dot a b) ∧ (∀ a b, Q (a + b) = Q a + Q b) ∧ (∀ k a, Q (smul k a) = smul k (Q a)) ∧
      Q g.rotDir = g.rotDir ∧
      (g.rotate angles).srcPos[i]? = some (Q s) ∧ (g.rotate angles).detPos[i]? = some (Q d) ∧
      (g.rotate angles).detU[i]? = some (Q u) ∧ (g.rotate angles).detV[i]? = some (Q v) ∧
      (g.rotate angles).geomType = g.geomType ∧ (g.rotate angles).rotDir = g.rotDir ∧ (g.rotate angles).pix2vox = g.pix2vox := by
  obtain ⟨h1, h2, h3, h4⟩ := rotate_row g s d u v hs hd hu hv angles i hi
  refine ⟨rotVec (smul angles[i] g.rotDir), dot_rotVec _, rotVec_add _, rotVec_smul _, ?_, h1, h2, h3, h4, rfl, rfl, rfl⟩
  by_cases ha : angles[i] = 0
  · have : smul angles[i] g.rotDir = 0 := by ext <;> simp [ha]
    rw [this, rotVec_zero]
  · have := rotVec_axis (smul angles[i] g.rotDir) (1 / angles[i])
    rw [show smul (1 / angles[i]) (smul angles[i] g.rotDir) = g.rotDir by ext <;> simp <;> field_simp] at this
    exact this

/-- **C37.** Rotating by the opposite angles restores every vector: for any number of angles, each of the rows is the original one. -/
theorem C37_rotating_back_restores (g : PrjGeom) (s d u v : V3) (hs : g.srcPos = [s]) (hd : g.detPos = [d]) (hu : g.detU = [u])
    (hv : g.detV = [v]) (angles : List ℝ) (hlen : 2 ≤ angles.length) :
    ((g.rotate angles).rotate (angles.map Neg.neg)).srcPos = List.replicate angles.length s ∧
    ((g.rotate angles).rotate (angles.map Neg.neg)).detPos = List.replicate angles.length d ∧
    ((g.rotate angles).rotate (angles.map Neg.neg)).detU = List.replicate angles.length u ∧
    ((g.rotate angles).rotate (angles.map Neg.neg)).detV = List.replicate angles.length v := by
  have key : ∀ a : V3, applyRotations ((angles.map Neg.neg).map fun x => smul x g.rotDir)
      (applyRotations (angles.map fun x => smul x g.rotDir) [a]) = List.replicate angles.length a := by
    intro a
    match angles, hlen with
    | x :: y :: l, _ =>
      simp only [applyRotations, List.map_cons]
      have h0 : ∀ x, rotVec (smul (-x) g.rotDir) (rotVec (smul x g.rotDir) a) = a := by
        intro x
        rw [show smul (-x) g.rotDir = -smul x g.rotDir by ext <;> simp]
        exact rotVec_neg_rotVec _ _
      have : ∀ l : List ℝ, List.zipWith rotVec (List.map (fun x => smul x g.rotDir) (List.map Neg.neg l))
          (List.map (fun w => rotVec w a) (List.map (fun x => smul x g.rotDir) l)) = List.replicate l.length a := by
        intro l
        induction l with
        | nil => rfl
        | cons b l ih => simp only [List.map_cons, List.zipWith_cons_cons, h0, ih, List.length_cons, List.replicate_succ]
      simpa using this (x :: y :: l)
  simp only [PrjGeom.rotate, hs, hd, hu, hv, key]
  exact ⟨trivial, trivial, trivial, trivial⟩

/-- **C37.** The same for a single angle. -/
theorem C37_rotating_back_restores_single (g : PrjGeom) (s d u v : V3) (hs : g.srcPos = [s]) (hd : g.detPos = [d])
    (hu : g.detU = [u]) (hv : g.detV = [v]) (x : ℝ) : (g.rotate [x]).rotate [-x] = g := by
  have h0 : ∀ a, rotVec (smul (-x) g.rotDir) (rotVec (smul x g.rotDir) a) = a := by
    intro a
    rw [show smul (-x) g.rotDir = -smul x g.rotDir by ext <;> simp]
    exact rotVec_neg_rotVec _ _
  cases g
  simp_all [PrjGeom.rotate, applyRotations]

/-- **C37.** With an axis of unit length (all the geometries of the package) the angle is the given one: a vector perpendicular
to the axis, turned by `x`, has inner product `cos x · |a|²` with itself before, and `sin x · |a|²` with `axis × a`. -/
theorem C37_rotation_angle (g : PrjGeom) (hax : dot g.rotDir g.rotDir = 1) (a : V3) (ha : dot g.rotDir a = 0) (x : ℝ) :
    dot a (rotVec (smul x g.rotDir) a) = Real.cos x * dot a a ∧
    dot (cross g.rotDir a) (rotVec (smul x g.rotDir) a) = Real.sin x * dot a a := by
  have hN : norm (smul x g.rotDir) = |x| := by
    rw [norm_smul, V3.norm, hax, Real.sqrt_one, mul_one]
  generalize g.rotDir = w at *
  unfold rotVec
  rw [hN]
  by_cases hx : |x| = 0
  · have hx' := abs_eq_zero.1 hx
    subst hx'
    simp only [abs_zero, if_true, Real.cos_zero, Real.sin_zero, one_mul, zero_mul, true_and]
    unfold dot; simp; ring
  · simp only [hx, if_false]
    have hx0 : x ≠ 0 := fun h => hx (by simp [h])
    have hsin : Real.sin |x| / |x| * x = Real.sin x := by
      rcases le_or_gt 0 x with h | h
      · rw [abs_of_nonneg h]; field_simp
      · rw [abs_of_neg h, Real.sin_neg]; field_simp
    rw [Real.cos_abs]
    have hz : dot (smul x w) a = 0 := by
      have : dot (smul x w) a = x * dot w a := by unfold dot; simp; ring
      rw [this, ha, mul_zero]
    rw [hz]
    constructor
    · unfold dot at *; simp; ring
    · rw [← hsin]
      generalize Real.sin |x| / |x| = S
      unfold dot at *
      simp
      linear_combination (S * x * (a.x * a.x + a.y * a.y + a.z * a.z)) * hax -
        S * x * (w.x * a.x + w.y * a.y + w.z * a.z) * ha

/-- Non-vacuity of C37: a cone-beam like geometry with a unit axis, turned by two angles. -/
example : ∃ g : PrjGeom, g.srcPos = [⟨5, 0, 1⟩] ∧ g.detPos = [⟨-7, 0, 0⟩] ∧ g.detU = [⟨0, 1, 0⟩] ∧ g.detV = [⟨0, 0, 1⟩] ∧
    dot g.rotDir g.rotDir = 1 ∧ dot g.rotDir ⟨1, 2, 0⟩ = 0 ∧ (2 : ℕ) ≤ ([0.3, -1.2] : List ℝ).length :=
  ⟨⟨.cone, [⟨5, 0, 1⟩], [⟨-7, 0, 0⟩], [⟨0, 1, 0⟩], [⟨0, 0, 1⟩], ⟨0, 0, 1⟩, 1, none⟩, rfl, rfl, rfl, rfl, by simp [dot],
    by simp [dot], by simp⟩

/-- **C81 (violated).** The rotation angle is the given one whatever the length of the rotation axis: with the axis `(0, 0, 2)`,
half a turn leaves every vector where it was. -/
theorem C81_axis_length_scales_angle_violated :
    ¬ ∀ (w a : V3), w ≠ 0 → dot w a = 0 → ∀ x : ℝ, dot a (rotVec (smul x w) a) = Real.cos x * dot a a := by
  intro h
  have := h ⟨0, 0, 2⟩ ⟨1, 0, 0⟩ (by intro h; have := congrArg V3.z h; simp at this) (by simp [dot]) π
  unfold rotVec at this
  have hn : norm (smul π ⟨0, 0, 2⟩) = 2 * π := by
    rw [norm_smul, abs_of_pos Real.pi_pos]
    have : V3.norm ⟨0, 0, 2⟩ = 2 := by
      unfold V3.norm dot
      simp only
      rw [show (0 : ℝ) * 0 + 0 * 0 + 2 * 2 = 2 ^ 2 by norm_num, Real.sqrt_sq (by norm_num)]
    rw [this]; ring
  rw [hn] at this
  have hpi : (2 * π) ≠ 0 := by positivity
  simp [hpi, dot, Real.cos_two_pi, Real.sin_two_pi, Real.cos_pi] at this
  norm_num at this

/-- **C81 (partial).** What is true: the angle is multiplied by the length of the axis. -/
theorem C81_angle_times_length_partial (w a : V3) (ha : dot w a = 0) (x : ℝ) :
    dot a (rotVec (smul x w) a) = Real.cos (x * norm w) * dot a a := by
  unfold rotVec
  have hz : dot (smul x w) a = 0 := by
    have : dot (smul x w) a = x * dot w a := by unfold dot; simp; ring
    rw [this, ha, mul_zero]
  have hc : Real.cos (norm (smul x w)) = Real.cos (x * norm w) := by
    rw [norm_smul, ← Real.cos_abs (x * norm w), abs_mul, abs_of_nonneg (norm_nonneg w)]
  by_cases h : norm (smul x w) = 0
  · rw [h, Real.cos_zero] at hc
    simp [h, ← hc]
  · simp only [h, if_false]
    rw [hz, hc]
    unfold dot; simp; ring

/-! ## C82: slicing a geometry -/

/-- **C82.** Slicing commutes with rotating: picking angle `i` of the geometry rotated by all the angles is the geometry rotated
by that angle only. -/
theorem C82_slice_of_rotated (g : PrjGeom) (s d u v : V3) (hs : g.srcPos = [s]) (hd : g.detPos = [d]) (hu : g.detU = [u])
    (hv : g.detV = [v]) (angles : List ℝ) (i : ℕ) (hi : i < angles.length) :
    (g.rotate angles).getItem i = g.rotate [angles[i]] := by
  have key : ∀ a, sliceRows (applyRotations (angles.map fun x => smul x g.rotDir) [a]) i =
      [rotVec (smul angles[i] g.rotDir) a] := by
    intro a
    simp only [applyRotations, sliceRows, List.length_map]
    split
    · simp [hi]
    · match angles, hi with
      | [x], hi =>
        have : i = 0 := by simpa using hi
        subst this
        simp
      | x :: y :: l, _ => simp_all
  simp only [PrjGeom.rotate, PrjGeom.getItem, hs, hd, hu, hv, key]
  simp [applyRotations]

/-- **C82.** The same for a detector moved at every angle (`set_detector_shifts_vu` with as many shifts as angles). -/
theorem C82_slice_of_rotated_shifted (g : PrjGeom) (s u v : V3) (ds : List V3) (hs : g.srcPos = [s]) (hd : g.detPos = ds)
    (hu : g.detU = [u]) (hv : g.detV = [v]) (angles : List ℝ) (i : ℕ) (hi : i < angles.length) (hl : ds.length = angles.length)
    (h2 : 2 ≤ angles.length) :
    (g.rotate angles).getItem i = (g.getItem i).rotate [angles[i]] := by
  have key : ∀ a, sliceRows (applyRotations (angles.map fun x => smul x g.rotDir) [a]) i =
      [rotVec (smul angles[i] g.rotDir) a] := by
    intro a
    simp only [applyRotations, sliceRows, List.length_map]
    split
    · simp [hi]
    · match angles, hi with
      | [x], hi =>
        have : i = 0 := by simpa using hi
        subst this
        simp
      | x :: y :: l, _ => simp_all
  have key2 : sliceRows (applyRotations (angles.map fun x => smul x g.rotDir) ds) i =
      applyRotations [smul angles[i] g.rotDir] (sliceRows ds i) := by
    match ds, angles, h2, hl, hi with
    | [], x :: y :: l, _, hl, _ => simp at hl
    | [_], x :: y :: l, _, hl, _ => simp at hl
    | d0 :: d1 :: ds', x :: y :: l, _, hl, hi =>
      have hi' : i < (d0 :: d1 :: ds').length := by rw [hl]; exact hi
      have e1 : applyRotations (List.map (fun x => smul x g.rotDir) (x :: y :: l)) (d0 :: d1 :: ds') =
          List.zipWith rotVec (List.map (fun x => smul x g.rotDir) (x :: y :: l)) (d0 :: d1 :: ds') := by
        simp only [applyRotations, List.map_cons]
      rw [e1]
      have hlen : (List.zipWith rotVec (List.map (fun x => smul x g.rotDir) (x :: y :: l)) (d0 :: d1 :: ds')).length =
          (x :: y :: l).length := by simp only [List.length_zipWith, List.length_map, hl, min_self]
      unfold sliceRows
      rw [if_pos (by rw [hlen]; simp), if_pos (by simp)]
      rw [List.getElem?_eq_getElem (by rw [hlen]; exact hi), List.getElem?_eq_getElem hi']
      rw [List.getElem_zipWith, List.getElem_map]
      simp only [Option.toList, applyRotations, List.map_cons, List.map_nil]
  simp only [PrjGeom.rotate, PrjGeom.getItem, hs, hd, hu, hv, key, key2]
  simp [sliceRows, applyRotations]

/-- Non-vacuity: two shifted detector positions and two angles. -/
example : (2 : ℕ) ≤ ([0.1, 0.2] : List ℝ).length ∧ ([⟨0, 1, 0⟩, ⟨0, 2, 0⟩] : List V3).length = ([0.1, 0.2] : List ℝ).length := by simp

/-! ## C83: detector tilts -/

/-- **C83 (violated).** Every tilt asked for is applied or an error raised: with one axis (the default) and two angles only the
first angle is used, without error. -/
theorem C83_tilts_dropped_violated :
    ¬ ∀ (g : PrjGeom) (angles : List ℝ) (axis : V3) (g' : PrjGeom), setDetectorTilt g angles [axis] 1 false = .ok g' →
      g'.detU = g.detU.map fun u => angles.foldl (fun u a => rotVec (smul a axis) u) u := by
  intro h
  have := h ⟨.parallel3d, [⟨0, -1, 0⟩], [0], [⟨1, 0, 0⟩], [⟨0, 0, 1⟩], ⟨0, 0, 1⟩, 1, none⟩ [0, π] ⟨0, 1, 0⟩ _
    (by unfold setDetectorTilt; rw [if_neg (by simp)])
  simp only [List.zip_cons_cons, List.zip_nil_right, List.foldl_cons, List.foldl_nil, List.map_cons, List.map_nil,
    List.cons.injEq, and_true] at this
  have e0 : smul 0 (⟨0, 1, 0⟩ : V3) = 0 := by ext <;> simp
  rw [e0, rotVec_zero] at this
  have := congrArg V3.x this
  unfold rotVec at this
  have hn : norm (smul π ⟨0, 1, 0⟩) = π := by
    rw [norm_smul, abs_of_pos Real.pi_pos]
    simp [V3.norm, dot]
  rw [hn] at this
  simp [Real.pi_ne_zero, dot] at this
  norm_num at this

/-- **C83 (partial).** What is true: with as many axes as angles all the tilts are applied, in order, as rotations that keep the
detector axes' inner products. -/
theorem C83_tilts_applied_partial (g : PrjGeom) (angles : List ℝ) (axes : List V3) (hl : axes.length = angles.length)
    (nd : ℕ) (ts : Bool) (u v : V3) (hu : g.detU = [u]) (hv : g.detV = [v]) :
    ∃ g', setDetectorTilt g angles axes nd ts = .ok g' ∧
      g'.detU = [(List.zipWith smul angles axes).foldl (fun u w => rotVec w u) u] ∧
      g'.detV = [(List.zipWith smul angles axes).foldl (fun u w => rotVec w u) v] ∧
      ∃ u' v', g'.detU = [u'] ∧ g'.detV = [v'] ∧ dot u' u' = dot u u ∧ dot v' v' = dot v v ∧ dot u' v' = dot u v := by
  have hfold : ∀ (l : List (ℝ × V3)) (g : PrjGeom) (u v : V3), g.detU = [u] → g.detV = [v] →
      let g' := l.foldl (fun g p =>
        let w := smul p.1 p.2
        { g with
          srcPos := if ts then g.srcPos.map (rotVec w) else g.srcPos
          detU := g.detU.map (rotVec w)
          detV := g.detV.map (rotVec w)
          detPos := g.detPos.map (rotVec w) }) g
      g'.detU = [l.foldl (fun u p => rotVec (smul p.1 p.2) u) u] ∧ g'.detV = [l.foldl (fun u p => rotVec (smul p.1 p.2) u) v] := by
    intro l
    induction l with
    | nil => intro g u v hu hv; exact ⟨hu, hv⟩
    | cons p l ih =>
      intro g u v hu hv
      exact ih _ (rotVec (smul p.1 p.2) u) (rotVec (smul p.1 p.2) v) (by simp [hu]) (by simp [hv])
  have hz : ∀ (as : List ℝ) (xs : List V3) (a : V3), (List.zip as xs).foldl (fun u p => rotVec (smul p.1 p.2) u) a =
      (List.zipWith smul as xs).foldl (fun u w => rotVec w u) a := by
    intro as
    induction as with
    | nil => intro xs a; rfl
    | cons x as ih => intro xs a; cases xs with
      | nil => rfl
      | cons y xs => exact ih xs _
  have hd : ∀ (l : List V3) (a b : V3), dot (l.foldl (fun u w => rotVec w u) a) (l.foldl (fun u w => rotVec w u) b) = dot a b := by
    intro l
    induction l with
    | nil => intro a b; rfl
    | cons w l ih => intro a b; simp only [List.foldl_cons]; rw [ih, dot_rotVec]
  obtain ⟨h1, h2⟩ := hfold (List.zip angles axes) g u v hu hv
  rw [hz] at h1 h2
  refine ⟨_, ?_, h1, h2, _, _, h1, h2, hd _ _ _, hd _ _ _, hd _ _ _⟩
  unfold setDetectorTilt
  rw [if_neg (by simp [hl])]

/-! ## C35: volume geometries -/

/-- Shapes as lists: two trailing axes (X, Y) after the others. -/
theorem split_last_two (s : List ℕ) (h : 2 ≤ s.length) : ∃ (l : List ℕ) (x y : ℕ), s = l ++ [x, y] := by
  refine ⟨s.take (s.length - 2), s[s.length - 2], s[s.length - 1], ?_⟩
  have h1 : s.drop (s.length - 2) = [s[s.length - 2], s[s.length - 1]] := by
    apply List.ext_getElem
    · simp; omega
    · intro n h1 h2
      simp only [List.length_cons, List.length_nil] at h2
      rw [List.getElem_drop]
      match n with
      | 0 => simp
      | 1 => simp; congr 1; omega
      | n + 2 => omega
  rw [← h1, List.take_append_drop]

theorem volGeomFromVolume_append (l : List ℕ) (x y : ℕ) : volGeomFromVolume (l ++ [x, y]) = some (x :: y :: l.reverse) := by
  unfold volGeomFromVolume
  have h1 : (l ++ [x, y]).length = l.length + 2 := by simp
  rw [if_neg (by rw [h1]; omega), h1, show l.length + 2 - 2 = l.length by omega, show l.length + 2 - 1 = l.length + 1 by omega]
  simp

theorem shapeZxy_cons (l : List ℕ) (x y : ℕ) : shapeZxy (x :: y :: l.reverse) = l ++ [x, y] := by
  unfold shapeZxy
  simp

/-- **C35.** The geometry derived from a volume's shape (any number of axes from two) gives that shape back. -/
theorem C35_volume_shape_round_trip (s : List ℕ) (h : 2 ≤ s.length) : (volGeomFromVolume s).map shapeZxy = some s := by
  obtain ⟨l, x, y, rfl⟩ := split_last_two s h
  rw [volGeomFromVolume_append, Option.map_some, shapeZxy_cons]

/-- **C35.** Every XYZ shape is the one derived from its ZXY shape. -/
theorem C35_xyz_round_trip (xyz : List ℕ) (h : 2 ≤ xyz.length) : volGeomFromVolume (shapeZxy xyz) = some xyz := by
  match xyz, h with
  | x :: y :: l, _ =>
    have := shapeZxy_cons l.reverse x y
    rw [List.reverse_reverse] at this
    rw [this, volGeomFromVolume_append, List.reverse_reverse]

/-- **C35.** Shapes with fewer than two axes are rejected. -/
theorem C35_short_rejected (s : List ℕ) (h : s.length < 2) : volGeomFromVolume s = none := by
  unfold volGeomFromVolume; rw [if_pos h]

/-- **C35.** The 3D form of a 2D volume has one slice in front and the same X and Y; a 3D one is unchanged; the result has three
axes. -/
theorem C35_get_3d_keeps_shape (s : List ℕ) (xyz : List ℕ) (hs : volGeomFromVolume s = some xyz) :
    (s.length = 2 → shapeZxy (volGet3d xyz) = 1 :: s) ∧ (s.length = 3 → shapeZxy (volGet3d xyz) = s) := by
  have h2 : 2 ≤ s.length := by
    by_contra h
    rw [C35_short_rejected s (by omega)] at hs
    cases hs
  obtain ⟨l, x, y, rfl⟩ := split_last_two s h2
  rw [volGeomFromVolume_append] at hs
  have hs' := (Option.some.inj hs).symm
  subst hs'
  constructor
  · intro h
    have : l = [] := by simpa using h
    subst this
    rfl
  · intro h
    match l, h with
    | [z], _ => rfl
    | [], h => simp at h
    | a :: b :: l, h => simp at h

/-- **C35.** The volume derived from projection data, at any super-sampling, projects to the shape of the data: a projector made
from it has the number of slices (if any) and of detector columns of the data, less the padding on either side. -/
theorem C35_volume_from_data_projects_to_data (v : Option ℕ) (u padding ss nAngles : ℕ) (hss : 0 < ss) :
    prjShape (volGeomFromData v u padding ss) (1 / ss) nAngles = v.toList ++ [nAngles, u - 2 * padding] := by
  have hfl : ∀ n : ℕ, ⌊((n * ss : ℕ) : ℝ) * (1 / ss)⌋₊ = n := by
    intro n
    have : ((n * ss : ℕ) : ℝ) * (1 / ss) = n := by
      have : (ss : ℝ) ≠ 0 := by positivity
      push_cast; field_simp
    rw [this, Nat.floor_natCast]
  cases v with
  | none =>
    unfold prjShape
    have : shapeZxy (volGeomFromData none u padding ss) = [(u - padding * 2) * ss, (u - padding * 2) * ss] := rfl
    rw [this]
    simp only [List.map_cons, List.map_nil]
    rw [hfl]
    simp [Nat.mul_comm 2]
  | some n =>
    unfold prjShape
    have : shapeZxy (volGeomFromData (some n) u padding ss) = [n * ss, (u - padding * 2) * ss, (u - padding * 2) * ss] := rfl
    rw [this]
    simp only [List.map_cons, List.map_nil]
    rw [hfl, hfl]
    simp [Nat.mul_comm 2]

/-- Non-vacuity of C35: a 3D and a 2D shape. -/
example : volGeomFromVolume [7, 5, 6] = some [5, 6, 7] ∧ shapeZxy [5, 6, 7] = [7, 5, 6] ∧ volGeomFromVolume [5, 6] = some [5, 6] ∧
    volGeomFromData (some 4) 100 10 3 = [240, 240, 12] := by decide

/-! ## C36: cone-beam geometries -/

namespace ConeBeam

variable (g : ConeBeam)

theorem dot_alpha_alpha : dot g.alpha g.alpha = 1 := by
  unfold dot alpha; simp only
  nlinarith [Real.sin_sq_add_cos_sq g.phi]

theorem dot_beta_beta : dot g.beta g.beta = 1 := by
  unfold dot beta; simp only
  linear_combination (Real.sin g.theta ^ 2) * Real.sin_sq_add_cos_sq g.phi + Real.sin_sq_add_cos_sq g.theta

theorem dot_normal_normal : dot g.normal g.normal = 1 := by
  unfold dot normal; simp only
  linear_combination (Real.cos g.theta ^ 2) * Real.sin_sq_add_cos_sq g.phi + Real.sin_sq_add_cos_sq g.theta

theorem dot_alpha_beta : dot g.alpha g.beta = 0 := by unfold dot alpha beta; simp only; ring

theorem dot_alpha_normal : dot g.alpha g.normal = 0 := by unfold dot alpha normal; simp only; ring

theorem dot_beta_normal : dot g.beta g.normal = 0 := by
  unfold dot beta normal; simp only
  linear_combination (-(Real.sin g.theta * Real.cos g.theta)) * Real.sin_sq_add_cos_sq g.phi

theorem rot_normal (x : ℝ) : rotVec (smul x g.normal) g.normal = g.normal := by
  by_cases hx : x = 0
  · have : smul x g.normal = 0 := by ext <;> simp [hx]
    rw [this, rotVec_zero]
  · have := rotVec_axis (smul x g.normal) (1 / x)
    rw [show smul (1 / x) (smul x g.normal) = g.normal by ext <;> simp <;> field_simp] at this
    exact this

end ConeBeam

/-- **C36.** The geometry of every cone-beam setup is a rigid frame: detector axes and normal are orthonormal, and the source is
`D` from the detector plane along the normal, above the point `(v0, u0)` of the detector when there is no in-plane rotation;
with or without centring in Z. -/
theorem C36_rigid_frame (g : ConeBeam) (translate : Bool) :
    ∃ s d u v, (g.prjGeom translate).srcPos = [s] ∧ (g.prjGeom translate).detPos = [d] ∧
      (g.prjGeom translate).detU = [u] ∧ (g.prjGeom translate).detV = [v] ∧
      dot u u = 1 ∧ dot v v = 1 ∧ dot u v = 0 ∧ dot u g.normal = 0 ∧ dot v g.normal = 0 ∧ dot g.normal g.normal = 1 ∧
      dot (s - d) g.normal = g.D ∧ (g.eta = 0 → dot (s - d) u = g.u0 ∧ dot (s - d) v = g.v0) := by
  have hsd : ∀ t : V3, (smul g.R ⟨1, 0, 0⟩ + t) - (-(smul g.D g.normal) + smul g.R ⟨1, 0, 0⟩ - smul g.u0 g.alpha -
      smul g.v0 g.beta + t) = smul g.D g.normal + smul g.u0 g.alpha + smul g.v0 g.beta := by
    intro t; ext <;> simp <;> ring
  have hdot : ∀ b : V3, dot (smul g.D g.normal + smul g.u0 g.alpha + smul g.v0 g.beta) b =
      g.D * dot g.normal b + g.u0 * dot g.alpha b + g.v0 * dot g.beta b := by
    intro b; unfold dot; simp; ring
  have hc : ∀ a b : V3, dot a b = dot b a := by intro a b; unfold dot; ring
  refine ⟨_, _, _, _, rfl, rfl, rfl, rfl, ?_, ?_, ?_, ?_, ?_, g.dot_normal_normal, ?_, ?_⟩
  · rw [dot_rotVec, g.dot_alpha_alpha]
  · rw [dot_rotVec, g.dot_beta_beta]
  · rw [dot_rotVec, g.dot_alpha_beta]
  · have := dot_rotVec (smul (-g.eta) g.normal) g.alpha g.normal
    rw [g.rot_normal] at this
    rw [this, g.dot_alpha_normal]
  · have := dot_rotVec (smul (-g.eta) g.normal) g.beta g.normal
    rw [g.rot_normal] at this
    rw [this, g.dot_beta_normal]
  · rw [hsd, hdot, g.dot_normal_normal, g.dot_alpha_normal, g.dot_beta_normal]; ring
  · intro he
    have h0 : smul (-g.eta) g.normal = 0 := by ext <;> simp [he]
    rw [h0, rotVec_zero, rotVec_zero, hsd, hdot, hdot, hc g.normal g.alpha, hc g.normal g.beta, hc g.beta g.alpha,
      g.dot_alpha_normal, g.dot_beta_normal, g.dot_alpha_beta, g.dot_alpha_alpha, g.dot_beta_beta]
    constructor <;> ring

/-- **C36.** Centring moves source and detector together along Z, and puts the rotation axis' crossing with the central ray at
height zero: the line from the source to the centre of the detector crosses the plane through the rotation axis (`x = 0`) at
`z = 0`, when the detector's centre is on the other side of the axis as it should be (`c.x > 0` for the vector `c` from the
detector's centre to the source). -/
theorem C36_centring (g : ConeBeam) :
    ∃ s d s' d' : V3, (g.prjGeom true).srcPos = [s] ∧ (g.prjGeom true).detPos = [d] ∧
      (g.prjGeom false).srcPos = [s'] ∧ (g.prjGeom false).detPos = [d'] ∧
      s - s' = ⟨0, 0, g.translationZ⟩ ∧ d - d' = ⟨0, 0, g.translationZ⟩ ∧
      (0 < (s - d).x → ∀ t : ℝ, (s + smul t (d - s)).x = 0 → (s + smul t (d - s)).z = 0) := by
  refine ⟨_, _, _, _, rfl, rfl, rfl, rfl, ?_, ?_, ?_⟩
  · ext <;> simp
  · ext <;> simp
  · intro hpos t ht
    simp only [if_true, add_x, sub_x, neg_x, smul_x, add_z, sub_z, neg_z, smul_z] at hpos ht ⊢
    have hcx : (smul g.D g.normal + smul g.u0 g.alpha + smul g.v0 g.beta).x =
        g.D * g.normal.x + g.u0 * g.alpha.x + g.v0 * g.beta.x := by simp
    unfold ConeBeam.translationZ
    simp only [add_x, add_z, smul_x, smul_z]
    have hc : 0 < g.D * g.normal.x + g.u0 * g.alpha.x + g.v0 * g.beta.x := by linarith
    rw [abs_of_pos hc]
    have htc : t * (g.D * g.normal.x + g.u0 * g.alpha.x + g.v0 * g.beta.x) = g.R := by linear_combination -ht
    have hR : ∀ cz c : ℝ, 0 < c → t * c = g.R → cz / c * g.R = t * cz := by
      intro cz c hc h; rw [← h]; field_simp
    rw [hR _ _ hc htc]
    ring

/-- Non-vacuity of C36: the detector's centre can be on the far side of the axis. -/
example : ∃ g : ConeBeam, ∃ s d, (g.prjGeom true).srcPos = [s] ∧ (g.prjGeom true).detPos = [d] ∧ 0 < (s - d).x ∧ g.D = 1000 :=
  ⟨⟨0, 0, 0, 1000, 100, 3, 4, 64, 64⟩, _, _, rfl, rfl, by simp [ConeBeam.normal, ConeBeam.alpha, ConeBeam.beta], rfl⟩

/-- **C84 (violated).** Centring moves the source as much as the detector: not if the distance from source to rotation axis is
given as an integer, where the source's shift is truncated. -/
theorem C84_integer_distance_violated :
    ¬ ∀ (g : ConeBeam) (s d s' d' : V3), (∃ n : ℤ, g.R = n) → (g.prjGeomInt true).srcPos = [s] → (g.prjGeomInt true).detPos = [d] →
      (g.prjGeomInt false).srcPos = [s'] → (g.prjGeomInt false).detPos = [d'] → s - s' = d - d' := by
  intro h
  have := h ⟨0, 0, 0, 2, 1, 1, 0, 8, 8⟩ _ _ _ _ ⟨1, by simp⟩ rfl rfl rfl rfl
  have := congrArg V3.z this
  simp [ConeBeam.translationZ, ConeBeam.trunc, ConeBeam.normal, ConeBeam.alpha, ConeBeam.beta] at this
  norm_num at this

/-- **C84 (partial).** What is true: with an integer distance the error is less than one pixel, and it is none if the shift is an
integer. -/
theorem C84_integer_distance_partial (g : ConeBeam) (s s' : V3) (hs : (g.prjGeomInt true).srcPos = [s])
    (hs' : (g.prjGeomInt false).srcPos = [s']) :
    |(s - s').z - g.translationZ| < 1 ∧ ((∃ n : ℤ, g.translationZ = n) → s - s' = ⟨0, 0, g.translationZ⟩) := by
  have h1 : s = smul g.R ⟨1, 0, 0⟩ + ⟨0, 0, ConeBeam.trunc g.translationZ⟩ := by
    have := List.cons.inj hs
    simpa using this.1.symm
  have h2 : s' = smul g.R ⟨1, 0, 0⟩ + 0 := by
    have := List.cons.inj hs'
    simpa using this.1.symm
  subst h1 h2
  constructor
  · simp only [sub_z, add_z, smul_z, zero_z, mul_zero, zero_add, sub_zero]
    unfold ConeBeam.trunc
    split
    · rw [abs_lt]; constructor <;> linarith [Int.floor_le g.translationZ, Int.lt_floor_add_one g.translationZ]
    · rw [abs_lt]; constructor <;> linarith [Int.le_ceil g.translationZ, Int.ceil_lt_add_one g.translationZ]
  · rintro ⟨n, hn⟩
    have : ConeBeam.trunc g.translationZ = g.translationZ := by
      rw [hn]; unfold ConeBeam.trunc; simp
    rw [this]
    ext <;> simp

/-! ## C85: the standard geometries -/

theorem rotVec_z (x : ℝ) (a : V3) :
    rotVec ⟨0, 0, x⟩ a = ⟨Real.cos x * a.x - Real.sin x * a.y, Real.sin x * a.x + Real.cos x * a.y, a.z⟩ := by
  have hn : V3.norm ⟨0, 0, x⟩ = |x| := by
    unfold V3.norm dot; simp only
    rw [show (0 : ℝ) * 0 + 0 * 0 + x * x = x ^ 2 by ring, Real.sqrt_sq_eq_abs]
  unfold rotVec
  rw [hn]
  by_cases hx : |x| = 0
  · have := abs_eq_zero.1 hx; subst this
    ext <;> simp
  · simp only [hx, if_false]
    have hx0 : x ≠ 0 := fun h => hx (by simp [h])
    have hsin : Real.sin |x| / |x| * x = Real.sin x := by
      rcases le_or_gt 0 x with h | h
      · rw [abs_of_nonneg h]; field_simp
      · rw [abs_of_neg h, Real.sin_neg]; field_simp
    have hk : ∀ c : ℝ, c / |x| ^ 2 * x ^ 2 = c := by intro c; rw [sq_abs]; field_simp
    rw [Real.cos_abs]
    ext
    · simp [dot]; linear_combination (-a.y) * hsin
    · simp [dot]; linear_combination (a.x) * hsin
    · simp [dot, -sq_abs]; linear_combination (a.z) * hk (1 - Real.cos x)

theorem smul_rotAxisDir (x : ℝ) (cw : Bool) : smul x (rotAxisDir cw) = ⟨0, 0, if cw then -x else x⟩ := by
  cases cw <;> (ext <;> simp [rotAxisDir])

/-- **C85.** In the standard parallel geometry, at angle `x`, a point `P` of the volume falls on the detector at
`u = P.x cos x - P.y sin x` for clockwise rotation (`+` for counter-clockwise), `v = P.z`. -/
theorem C85_parallel_projection (cw : Bool) (angles : List ℝ) (i : ℕ) (hi : i < angles.length) (P : V3) :
    ∃ u v, ((prjGeomParallel cw).rotate angles).detU[i]? = some u ∧ ((prjGeomParallel cw).rotate angles).detV[i]? = some v ∧
      projectDisplacement u v P =
        (P.z, if cw then P.x * Real.cos angles[i] - P.y * Real.sin angles[i]
          else P.x * Real.cos angles[i] + P.y * Real.sin angles[i]) := by
  obtain ⟨_, _, h3, h4⟩ := rotate_row (prjGeomParallel cw) _ _ _ _ rfl rfl rfl rfl angles i hi
  refine ⟨_, _, h3, h4, ?_⟩
  have : (prjGeomParallel cw).rotDir = rotAxisDir cw := rfl
  rw [this, smul_rotAxisDir, rotVec_z, rotVec_z]
  cases cw <;> simp [projectDisplacement, dot] <;> ring

/-- **C85.** In the standard geometries the source is, at every angle, at right angles to both axes of the detector, on the side from where
the detector's axes are seen right-handed: at `u × v` for a parallel beam, and `dist` times that for a cone beam. -/
theorem C85_source_side (cw : Bool) (angles : List ℝ) (dist : ℝ) (i : ℕ) (hi : i < angles.length) :
    (∃ u v, ((prjGeomParallel cw).rotate angles).detU[i]? = some u ∧ ((prjGeomParallel cw).rotate angles).detV[i]? = some v ∧
      ((prjGeomParallel cw).rotate angles).srcPos[i]? =
        some ⟨u.y * v.z - u.z * v.y, u.z * v.x - u.x * v.z, u.x * v.y - u.y * v.x⟩) ∧
    (∃ u v, ((prjGeomCone dist cw).rotate angles).detU[i]? = some u ∧ ((prjGeomCone dist cw).rotate angles).detV[i]? = some v ∧
      ((prjGeomCone dist cw).rotate angles).srcPos[i]? =
        some ⟨dist * (u.y * v.z - u.z * v.y), dist * (u.z * v.x - u.x * v.z), dist * (u.x * v.y - u.y * v.x)⟩) := by
  constructor
  · obtain ⟨h1, _, h3, h4⟩ := rotate_row (prjGeomParallel cw) _ _ _ _ rfl rfl rfl rfl angles i hi
    refine ⟨_, _, h3, h4, ?_⟩
    rw [h1]
    have : (prjGeomParallel cw).rotDir = rotAxisDir cw := rfl
    rw [this, smul_rotAxisDir, rotVec_z, rotVec_z, rotVec_z]
    simp
  · obtain ⟨h1, _, h3, h4⟩ := rotate_row (prjGeomCone dist cw) _ _ _ _ rfl rfl rfl rfl angles i hi
    refine ⟨_, _, h3, h4, ?_⟩
    rw [h1]
    have : (prjGeomCone dist cw).rotDir = rotAxisDir cw := rfl
    rw [this, smul_rotAxisDir, rotVec_z, rotVec_z, rotVec_z]
    simp [mul_comm]

/-- **C85.** Projections half a turn apart are mirror images: every point's `u` changes sign and its `v` is the same. -/
theorem C85_half_turn_mirrors (cw : Bool) (x : ℝ) (P : V3) :
    ∀ u v u' v', ((prjGeomParallel cw).rotate [x, x + π]).detU = [u, u'] → ((prjGeomParallel cw).rotate [x, x + π]).detV = [v, v'] →
      (projectDisplacement u' v' P).2 = -(projectDisplacement u v P).2 ∧
      (projectDisplacement u' v' P).1 = (projectDisplacement u v P).1 := by
  intro u v u' v' hu hv
  have hd : (prjGeomParallel cw).rotDir = rotAxisDir cw := rfl
  simp only [PrjGeom.rotate, prjGeomParallel, applyRotations, List.map_cons, List.map_nil, List.cons.injEq, and_true] at hu hv
  obtain ⟨rfl, rfl⟩ := hu
  obtain ⟨rfl, rfl⟩ := hv
  rw [smul_rotAxisDir, smul_rotAxisDir, rotVec_z, rotVec_z, rotVec_z, rotVec_z]
  cases cw
  · simp [projectDisplacement, dot, Real.cos_add_pi, Real.sin_add_pi]; ring
  · have : -(x + π) = -x - π := by ring
    simp [projectDisplacement, dot, this, Real.cos_sub_pi, Real.sin_sub_pi, -neg_add_rev]; ring

/-- **C85.** Clockwise rotation by some angles is counter-clockwise rotation by the opposite ones. -/
theorem C85_directions_opposite (angles : List ℝ) :
    ((prjGeomParallel true).rotate angles).srcPos = ((prjGeomParallel false).rotate (angles.map Neg.neg)).srcPos ∧
    ((prjGeomParallel true).rotate angles).detU = ((prjGeomParallel false).rotate (angles.map Neg.neg)).detU ∧
    ((prjGeomParallel true).rotate angles).detV = ((prjGeomParallel false).rotate (angles.map Neg.neg)).detV := by
  have h : (angles.map fun a => smul a (rotAxisDir true)) = (angles.map Neg.neg).map fun a => smul a (rotAxisDir false) := by
    rw [List.map_map]
    apply List.map_congr_left
    intro a _
    simp [smul_rotAxisDir]
  simp only [PrjGeom.rotate, prjGeomParallel, h]
  exact ⟨trivial, trivial, trivial⟩

/-- **C85.** In the standard geometries, the position of the detector set by `set_detector_shifts_vu`, measured along the
detector's axes (`project_displacement_to_detector`), is the given shift: `v` the vertical shift, `u` the horizontal shift plus
the centre of rotation, whatever the distance along Y; also after any rotation. -/
theorem C85_shifts_are_detector_displacements (cw : Bool) (sv su : ℕ → ℝ) (n : ℕ) (cor dist : ℝ) (i : ℕ) (hi : i < n) (w : V3) :
    ∃ d, (setDetectorShifts (prjGeomParallel cw) ⟨1, 0, 0⟩ ⟨0, 0, 1⟩ (some sv) su n cor dist).detPos[i]? = some d ∧
      projectDisplacement ⟨1, 0, 0⟩ ⟨0, 0, 1⟩ d = (sv i, su i + cor) ∧ d.y = dist ∧
      projectDisplacement (rotVec w ⟨1, 0, 0⟩) (rotVec w ⟨0, 0, 1⟩) (rotVec w d) = (sv i, su i + cor) := by
  refine ⟨⟨su i + cor, dist, sv i⟩, ?_, ?_, rfl, ?_⟩
  · simp [setDetectorShifts, hi, prjGeomParallel, GeomType.ndim]
  · simp [projectDisplacement, dot]
  · simp only [projectDisplacement, dot_rotVec]
    simp [dot]

/-! ## C86: cone-beam pre-weights -/

/-- **C86 (violated).** The pre-weight of a pixel is the distance from source to detector centre over that from source to pixel:
not if the detector is away from the origin, where the code adds the positions of source and detector instead of subtracting. -/
theorem C86_pre_weights_violated :
    ¬ ∀ (src det u v : V3) (pv pu : ℝ), dot u u = 1 → dot v v = 1 → dot u v = 0 → dot (det - src) u = 0 → dot (det - src) v = 0 →
      V3.norm (det - src) ≠ 0 → preWeight src det u v pv pu = V3.norm (det - src) / V3.norm (det + smul pu u + smul pv v - src) := by
  intro h
  have := h ⟨0, -1, 0⟩ ⟨0, 1, 0⟩ ⟨1, 0, 0⟩ ⟨0, 0, 1⟩ 0 1 (by simp [dot]) (by simp [dot]) (by simp [dot]) (by simp [dot])
    (by simp [dot]) (by
      intro h0
      have := eq_zero_of_norm _ h0
      have := congrArg V3.y this
      simp at this)
  have hz : V3.norm ((⟨0, 1, 0⟩ : V3) + ⟨0, -1, 0⟩) = 0 := by unfold V3.norm dot; simp
  unfold preWeight at this
  simp only [hz, zero_div] at this
  have h2 : 0 < V3.norm ((⟨0, 1, 0⟩ : V3) - ⟨0, -1, 0⟩) := by
    unfold V3.norm dot; simp
  have h3 : 0 < V3.norm ((⟨0, 1, 0⟩ : V3) + smul 1 ⟨1, 0, 0⟩ + smul 0 ⟨0, 0, 1⟩ - ⟨0, -1, 0⟩) := by
    unfold V3.norm dot; simp; positivity
  have := div_pos h2 h3
  linarith

/-- **C86 (partial).** What is true: with the detector at the origin, as in `get_prj_geom_cone`, and the source in front of it,
the weight is that ratio of distances; it is at most one, and one exactly at the centre. -/
theorem C86_pre_weights_partial (src u v : V3) (pv pu : ℝ) (huu : dot u u = 1) (hvv : dot v v = 1) (huv : dot u v = 0)
    (hu : dot src u = 0) (hv : dot src v = 0) (hs : src ≠ 0) :
    preWeight src 0 u v pv pu = V3.norm ((0 : V3) - src) / V3.norm ((0 : V3) + smul pu u + smul pv v - src) ∧
    0 < preWeight src 0 u v pv pu ∧ preWeight src 0 u v pv pu ≤ 1 ∧
    (preWeight src 0 u v pv pu = 1 ↔ pu = 0 ∧ pv = 0) := by
  have hpos : 0 < dot src src := by
    rcases (dot_self_nonneg src).lt_or_eq with h | h
    · exact h
    · exact absurd (eq_zero_of_norm src (by unfold V3.norm; rw [← h, Real.sqrt_zero])) hs
  have hd : dot (smul pu u + smul pv v + (0 + src)) (smul pu u + smul pv v + (0 + src)) = pu ^ 2 + pv ^ 2 + dot src src := by
    have : dot (smul pu u + smul pv v + (0 + src)) (smul pu u + smul pv v + (0 + src)) =
        pu ^ 2 * dot u u + pv ^ 2 * dot v v + 2 * pu * pv * dot u v + 2 * pu * dot src u + 2 * pv * dot src v + dot src src := by
      unfold dot; simp; ring
    rw [this, huu, hvv, huv, hu, hv]; ring
  have hd2 : dot ((0 : V3) + smul pu u + smul pv v - src) ((0 : V3) + smul pu u + smul pv v - src) =
      pu ^ 2 + pv ^ 2 + dot src src := by
    have : dot ((0 : V3) + smul pu u + smul pv v - src) ((0 : V3) + smul pu u + smul pv v - src) =
        pu ^ 2 * dot u u + pv ^ 2 * dot v v + 2 * pu * pv * dot u v - 2 * pu * dot src u - 2 * pv * dot src v + dot src src := by
      unfold dot; simp; ring
    rw [this, huu, hvv, huv, hu, hv]; ring
  have h0 : dot ((0 : V3) + src) ((0 : V3) + src) = dot src src := by unfold dot; simp
  have h0' : dot ((0 : V3) - src) ((0 : V3) - src) = dot src src := by unfold dot; simp
  have hne : Real.sqrt (pu ^ 2 + pv ^ 2 + dot src src) ≠ 0 := (Real.sqrt_pos.2 (by positivity)).ne'
  have hw : preWeight src 0 u v pv pu = Real.sqrt (dot src src) / Real.sqrt (pu ^ 2 + pv ^ 2 + dot src src) := by
    unfold preWeight V3.norm
    simp only [hd, h0, hne, if_false, add_zero]
  refine ⟨?_, ?_, ?_, ?_⟩
  · rw [hw]; unfold V3.norm; rw [hd2, h0']
  · rw [hw]; exact div_pos (Real.sqrt_pos.2 hpos) (Real.sqrt_pos.2 (by positivity))
  · rw [hw]
    exact div_le_one_of_le₀ (Real.sqrt_le_sqrt (by nlinarith [sq_nonneg pu, sq_nonneg pv])) (Real.sqrt_nonneg _)
  · rw [hw, div_eq_one_iff_eq hne, Real.sqrt_inj hpos.le (by positivity)]
    constructor
    · intro h
      constructor <;> nlinarith [sq_nonneg pu, sq_nonneg pv]
    · rintro ⟨rfl, rfl⟩; ring

/-- **C86 (partial).** The weights do not depend on the rotation of the geometry. -/
theorem C86_pre_weights_rotation_partial (w src det u v : V3) (pv pu : ℝ) :
    preWeight (rotVec w src) (rotVec w det) (rotVec w u) (rotVec w v) pv pu = preWeight src det u v pv pu := by
  unfold preWeight
  simp only [← rotVec_smul, ← rotVec_add, norm_rotVec]

/-- **C86 (partial).** The coordinates given to the pixels are one pixel too spread: they run from `-s/2` to `s/2` over `s` pixels,
whereas centres of pixels of unit size run from `-(s-1)/2` to `(s-1)/2`; they are symmetric. -/
theorem C86_pre_weight_coords_partial (s : ℕ) (hs : 2 ≤ s) :
    preWeightCoord s 0 = -(s : ℝ) / 2 ∧ preWeightCoord s (s - 1) = (s : ℝ) / 2 ∧
    ∀ i < s, preWeightCoord s (s - 1 - i) = -preWeightCoord s i ∧
      preWeightCoord s i = ((s : ℝ) / (s - 1)) * ((i : ℝ) - (s - 1) / 2) := by
  have hs1 : (s : ℝ) - 1 ≠ 0 := by
    have : (2 : ℝ) ≤ s := by exact_mod_cast hs
    linarith
  have hc : ((s - 1 : ℕ) : ℝ) = s - 1 := by push_cast [Nat.cast_sub (show 1 ≤ s by omega)]; ring
  refine ⟨?_, ?_, ?_⟩
  · simp [preWeightCoord]
  · unfold preWeightCoord; rw [hc]; field_simp; ring
  · intro i hi
    have hc2 : ((s - 1 - i : ℕ) : ℝ) = s - 1 - i := by
      rw [Nat.cast_sub (by omega), hc]
    unfold preWeightCoord; rw [hc2]
    constructor <;> field_simp <;> ring

/-- Non-vacuity: the standard cone-beam geometry. -/
example : dot (⟨0, -100, 0⟩ : V3) ⟨1, 0, 0⟩ = 0 ∧ dot (⟨0, -100, 0⟩ : V3) ⟨0, 0, 1⟩ = 0 ∧
    (prjGeomCone 100 true).srcPos = [⟨0, -100, 0⟩] ∧ (prjGeomCone 100 true).detPos = [0] := by
  simp [dot, prjGeomCone]

/-! ## C87: combining shifts -/

/-- **C87 (violated).** Vertical and horizontal shifts of equal number can be combined: not for a single projection. -/
theorem C87_combine_shifts_violated :
    ¬ ∀ v u : List ℝ, v.length = u.length → combineShifts v u = .ok [v, u] := by
  intro h
  have := h [1] [2] rfl
  simp [combineShifts] at this

/-- **C87 (partial).** What is true: it works for any other number of projections, with the vertical shifts first, and raises an
error on different numbers. -/
theorem C87_combine_shifts_partial (v u : List ℝ) :
    (v.length = u.length → v.length ≠ 1 → combineShifts v u = .ok [v, u]) ∧
    (v.length ≠ u.length → combineShifts v u = .error "ValueError") := by
  constructor
  · intro h h1; unfold combineShifts; simp [h, h ▸ h1]
  · intro h; unfold combineShifts; simp [h]

/-! ## C88: fan-beam geometries -/

/-- **C88 (violated).** The scaled vectors can be read for every kind of geometry: a `ValueError` for `fanflat`. -/
theorem C88_fanflat_scaled_violated : ¬ ∀ t : GeomType, fieldScaledDrops t ≠ none := by
  intro h; exact h .fanflat rfl

/-- **C88 (violated).** The 3D form of every geometry is three-dimensional: not for `fanflat`. -/
theorem C88_fanflat_3d_violated : ¬ ∀ t : GeomType, t.get3d.ndim = 3 := by
  intro h; have := h .fanflat; simp [GeomType.get3d, GeomType.ndim] at this

/-- **C88 (partial).** What is true: for the other kinds, the third coordinate is dropped exactly for 2D geometries, and the 3D
form is three-dimensional: parallel beams stay parallel, and what is three-dimensional stays as it is. -/
theorem C88_other_kinds_partial (t : GeomType) (h : t ≠ .fanflat) :
    fieldScaledDrops t = some (decide (t.ndim = 2)) ∧ t.get3d.ndim = 3 ∧ (t = .parallel2d → t.get3d = .parallel3d) ∧
      (t.ndim = 3 → t.get3d = t) := by
  cases t <;> simp_all [fieldScaledDrops, GeomType.get3d, GeomType.ndim]

end Verif
