import Verif.Props.Fits

/-!
# Centres of mass and re-centring (C101)
-/

namespace Verif

open V3

/-! ## Specification -/

/-- The position of a point of the volume on a detector with axes `u`, `v`, whose centre is moved by `shifts` along these axes: the
coordinates, in the directions `(v, u)`, of the point from the centre of the detector. -/
def seenAt (u v : V3) (shifts : ℝ × ℝ) (p : V3) : ℝ × ℝ := (dot v p - shifts.1, dot u p - shifts.2)

/-! ## C101 -/

/-- **C101.** A centre of mass is inside the volume. -/
theorem C101_com_inside {s : ℕ} (line : Fin s → ℝ) (h : ∀ i, 0 ≤ line i) (hpos : 0 < ∑ i, line i) :
    -(((s : ℝ) - 1) / 2) ≤ comLine line ∧ comLine line ≤ ((s : ℝ) - 1) / 2 := by
  unfold comLine
  constructor
  · rw [le_div_iff₀ hpos, Finset.mul_sum]
    refine Finset.sum_le_sum fun i _ => ?_
    have hi : (0 : ℝ) ≤ ((i : ℕ) : ℝ) := Nat.cast_nonneg _
    nlinarith [h i]
  · rw [div_le_iff₀ hpos, Finset.mul_sum]
    refine Finset.sum_le_sum fun i _ => ?_
    have hi : ((i : ℕ) : ℝ) + 1 ≤ s := by exact_mod_cast i.2
    nlinarith [h i]

/-- **C101.** The centre of mass of a volume, whatever the signs of its values: along each axis it is the mean position from the centre of the
volume, weighted by the absolute values; and it is inside the volume. -/
theorem C101_com_volume {a b c : ℕ} (vol : Fin a → Fin b → Fin c → ℝ) (hne : ∃ i j k, vol i j k ≠ 0) :
    (comVolume vol).z * (∑ i, ∑ j, ∑ k, |vol i j k|) = ∑ i, ∑ j, ∑ k, |vol i j k| * ((i : ℕ) - ((a : ℝ) - 1) / 2) ∧
    (comVolume vol).y * (∑ i, ∑ j, ∑ k, |vol i j k|) = ∑ i, ∑ j, ∑ k, |vol i j k| * ((j : ℕ) - ((b : ℝ) - 1) / 2) ∧
    (comVolume vol).x * (∑ i, ∑ j, ∑ k, |vol i j k|) = ∑ i, ∑ j, ∑ k, |vol i j k| * ((k : ℕ) - ((c : ℝ) - 1) / 2) ∧
    |(comVolume vol).z| ≤ ((a : ℝ) - 1) / 2 ∧ |(comVolume vol).y| ≤ ((b : ℝ) - 1) / 2 ∧ |(comVolume vol).x| ≤ ((c : ℝ) - 1) / 2 := by
  obtain ⟨i0, j0, k0, h0⟩ := hne
  have n3 : ∀ i j, 0 ≤ ∑ k, |vol i j k| := fun i j => Finset.sum_nonneg fun k _ => abs_nonneg _
  have hM : 0 < ∑ i, ∑ j, ∑ k, |vol i j k| := by
    refine lt_of_lt_of_le (abs_pos.2 h0) ?_
    refine le_trans ?_ (Finset.single_le_sum (f := fun i => ∑ j, ∑ k, |vol i j k|) (fun i _ => Finset.sum_nonneg fun j _ => n3 i j) (Finset.mem_univ i0))
    refine le_trans ?_ (Finset.single_le_sum (f := fun j => ∑ k, |vol i0 j k|) (fun j _ => n3 i0 j) (Finset.mem_univ j0))
    exact Finset.single_le_sum (f := fun k => |vol i0 j0 k|) (fun k _ => abs_nonneg _) (Finset.mem_univ k0)
  have ey : ∑ j, ∑ i, ∑ k, |vol i j k| = ∑ i, ∑ j, ∑ k, |vol i j k| := Finset.sum_comm
  have ex : ∑ k, ∑ i, ∑ j, |vol i j k| = ∑ i, ∑ j, ∑ k, |vol i j k| := by
    rw [Finset.sum_comm]
    exact Finset.sum_congr rfl fun i _ => Finset.sum_comm
  refine ⟨?_, ?_, ?_, ?_, ?_, ?_⟩
  · show comLine _ * _ = _
    unfold comLine
    rw [div_mul_cancel₀ _ hM.ne']
    simp only [Finset.sum_mul]
  · show comLine _ * _ = _
    unfold comLine
    rw [ey, div_mul_cancel₀ _ hM.ne', Finset.sum_comm]
    simp only [Finset.sum_mul]
  · show comLine _ * _ = _
    unfold comLine
    rw [ex, div_mul_cancel₀ _ hM.ne']
    simp only [Finset.sum_mul]
    rw [Finset.sum_comm]
    exact Finset.sum_congr rfl fun i _ => Finset.sum_comm
  · exact abs_le.2 (C101_com_inside _ (fun i => Finset.sum_nonneg fun j _ => n3 i j) hM)
  · exact abs_le.2 (C101_com_inside _ (fun j => Finset.sum_nonneg fun i _ => n3 i j) (by rw [ey]; exact hM))
  · exact abs_le.2 (C101_com_inside _ (fun k => Finset.sum_nonneg fun i _ => Finset.sum_nonneg fun j _ => abs_nonneg _) (by rw [ex]; exact hM))

/-- A volume of two voxels of opposite signs meets the hypothesis. -/
example : ∃ i j k, (fun (i : Fin 2) (_ _ : Fin 1) => if i = 0 then (1 : ℝ) else -1) i j k ≠ 0 := ⟨0, 0, 0, by simp⟩

/-- **C101.** The centre of mass of the mirrored line is on the other side. -/
theorem C101_com_mirror {s : ℕ} (line : Fin s → ℝ) : comLine (fun i => line (Fin.rev i)) = -comLine line := by
  unfold comLine
  have h1 : ∑ i, line (Fin.rev i) = ∑ i, line i := Equiv.sum_comp Fin.revPerm line
  have h2 : ∑ i : Fin s, line (Fin.rev i) * ((i : ℕ) - ((s : ℝ) - 1) / 2) = -∑ i : Fin s, line i * ((i : ℕ) - ((s : ℝ) - 1) / 2) := by
    rw [← Equiv.sum_comp Fin.revPerm, ← Finset.sum_neg_distrib]
    refine Finset.sum_congr rfl fun i _ => ?_
    simp only [Fin.revPerm_apply, Fin.rev_rev]
    have : ((Fin.rev i : Fin s) : ℕ) = s - (i + 1) := Fin.val_rev i
    have h3 : (((Fin.rev i : Fin s) : ℕ) : ℝ) = s - (i + 1) := by
      rw [this, Nat.cast_sub (by omega)]; push_cast; ring
    rw [h3]; ring
  rw [h1, h2, neg_div]

/-- **C101.** If the object moves by `t` pixels inside the volume, so does the centre of mass. -/
theorem C101_com_moves {s : ℕ} (f g : ℤ → ℝ) (hf : ∀ k, f k ≠ 0 → 0 ≤ k ∧ k < s) (hg : ∀ k, g k ≠ 0 → 0 ≤ k ∧ k < s) (t : ℤ)
    (h : ∀ k, g k = f (k - t)) (hne : (∑ i : Fin s, f (i : ℕ)) ≠ 0) :
    comLine (fun i : Fin s => g (i : ℕ)) = comLine (fun i : Fin s => f (i : ℕ)) + t := by
  -- sums over the line are sums over a large interval of integers
  have big : ∀ F : ℤ → ℝ, (∀ k, F k ≠ 0 → 0 ≤ k ∧ k < s) → ∑ i : Fin s, F (i : ℕ) = ∑ᶠ k : ℤ, F k := by
    intro F hF
    have e1 : ∑ i : Fin s, F (i : ℕ) = ∑ i ∈ Finset.range s, F (i : ℕ) := (Finset.sum_range fun i => F (i : ℕ)).symm
    rw [e1, finsum_eq_sum_of_support_subset (s := (Finset.range s).map ⟨fun i : ℕ => (i : ℤ), Nat.cast_injective⟩)]
    · rw [Finset.sum_map]; rfl
    · intro k hk
      obtain ⟨h1, h2⟩ := hF k hk
      simp only [Finset.coe_map, Function.Embedding.coeFn_mk, Set.mem_image, Finset.mem_coe, Finset.mem_range]
      exact ⟨k.toNat, by omega, by omega⟩
  have shift : ∀ F : ℤ → ℝ, ∑ᶠ k : ℤ, F (k - t) = ∑ᶠ k : ℤ, F k := fun F => finsum_comp_equiv (Equiv.subRight t)
  have m0 : ∑ i : Fin s, g (i : ℕ) = ∑ i : Fin s, f (i : ℕ) := by
    rw [big g hg, big f hf, ← shift f]
    exact finsum_congr h
  have m1 : ∑ i : Fin s, g (i : ℕ) * (((i : ℕ) : ℤ) : ℝ) = ∑ i : Fin s, f (i : ℕ) * ((((i : ℕ) : ℤ) : ℝ) + t) := by
    rw [big (fun k => g k * (k : ℝ)) (fun k hk => hg k (left_ne_zero_of_mul hk)),
      big (fun k => f k * ((k : ℝ) + t)) (fun k hk => hf k (left_ne_zero_of_mul hk)), ← shift (fun k => f k * ((k : ℝ) + t))]
    refine finsum_congr fun k => ?_
    rw [h]; push_cast; ring
  unfold comLine
  rw [m0, eq_comm, div_add' _ _ _ hne, div_left_inj' hne]
  have e : ∀ F : Fin s → ℝ, ∑ i, F i * ((i : ℕ) - ((s : ℝ) - 1) / 2) = ∑ i, F i * (((i : ℕ) : ℤ) : ℝ) - (((s : ℝ) - 1) / 2) * ∑ i, F i := by
    intro F
    rw [Finset.mul_sum, ← Finset.sum_sub_distrib]
    refine Finset.sum_congr rfl fun i _ => ?_
    push_cast; ring
  rw [e, e, m0, m1]
  simp only [mul_add, Finset.sum_add_distrib, ← Finset.sum_mul]
  ring

/-- **C101.** The shifts that `RecenterVolume.to_com` returns (before the rounding to the precision) make every point `p` of the object
look as it did, when it is moved by the difference of the reference and the centre of mass; so the centre of mass is seen where the
reference was. The rounding changes each shift by half of a unit at most. -/
theorem C101_recentre {a b c : ℕ} (u v : V3) (shifts : ℝ × ℝ) (vol : Fin a → Fin b → Fin c → ℝ) (ref : V3) (d : ℕ) (p : V3) :
    |(seenAt u v (recentreToCom u v shifts vol ref d) (p + (ref - comVolume vol))).1 - (seenAt u v shifts p).1| ≤ 1 / (2 * 10 ^ d) ∧
    |(seenAt u v (recentreToCom u v shifts vol ref d) (p + (ref - comVolume vol))).2 - (seenAt u v shifts p).2| ≤ 1 / (2 * 10 ^ d) := by
  unfold recentreToCom seenAt
  simp only
  generalize ref - comVolume vol = D
  have h1 := around_error d (shifts.1 + (projectDisplacement u v D).1)
  have h2 := around_error d (shifts.2 + (projectDisplacement u v D).2)
  have e1 : dot v (p + D) = dot v p + (projectDisplacement u v D).1 := by
    simp [projectDisplacement, dot]; ring
  have e2 : dot u (p + D) = dot u p + (projectDisplacement u v D).2 := by
    simp [projectDisplacement, dot]; ring
  rw [e1, e2]
  constructor
  · rw [abs_sub_comm]
    refine le_trans (le_of_eq ?_) h1
    congr 1; ring
  · rw [abs_sub_comm]
    refine le_trans (le_of_eq ?_) h2
    congr 1; ring

/-- **C101.** The centre of mass moves to the reference. -/
theorem C101_recentre_com {a b c : ℕ} (u v : V3) (shifts : ℝ × ℝ) (vol : Fin a → Fin b → Fin c → ℝ) (ref : V3) (d : ℕ) :
    |(seenAt u v (recentreToCom u v shifts vol ref d) ref).1 - (seenAt u v shifts (comVolume vol)).1| ≤ 1 / (2 * 10 ^ d) ∧
    |(seenAt u v (recentreToCom u v shifts vol ref d) ref).2 - (seenAt u v shifts (comVolume vol)).2| ≤ 1 / (2 * 10 ^ d) := by
  have h := C101_recentre u v shifts vol ref d (comVolume vol)
  have e : comVolume vol + (ref - comVolume vol) = ref := by ext <;> simp
  rwa [e] at h

/-- Non-vacuity: a volume with one bright voxel off the centre. -/
example : (comVolume (a := 1) (b := 1) (c := 3) fun _ _ k => if k = 2 then 7 else 0).x = 1 := by
  simp [comVolume, comLine, Fin.sum_univ_three]
  norm_num

end Verif
