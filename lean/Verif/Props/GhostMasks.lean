import Verif.Model.GhostMasks
import Verif.Props.Spectra
import Verif.Props.Azimuthal
import Verif.Props.Analysis

/-!
# C196: the resolution of masks
-/

namespace Verif
open Finset

/-- The weight of linear interpolation of a value at the distance `r` in the bin `k`. -/
noncomputable def Spec.hat (r : ℝ) (k : ℕ) : ℝ := max 0 (1 - |r - k|)

/-- The radial profile of the normalised auto-correlation of an image: the weighted average over all the displacements whose length is
within one pixel of `k`. -/
noncomputable def Spec.lagProfile (m n : ℕ) (x : ℕ → ℕ → ℝ) (k : ℕ) : ℝ :=
  (∑ u ∈ Icc (-((m : ℤ) - 1)) (m - 1), ∑ v ∈ Icc (-((n : ℤ) - 1)) (n - 1),
    Spec.hat (Real.sqrt ((u : ℝ) ^ 2 + (v : ℝ) ^ 2)) k * (Spec.lagCorr m n x x u v / Spec.lagCorr m n x x 0 0)) /
  ∑ u ∈ Icc (-((m : ℤ) - 1)) (m - 1), ∑ v ∈ Icc (-((n : ℤ) - 1)) (n - 1), Spec.hat (Real.sqrt ((u : ℝ) ^ 2 + (v : ℝ) ^ 2)) k

/-- An image minus its mean. -/
noncomputable def Spec.centred (m n : ℕ) (x : ℕ → ℕ → ℝ) : ℕ → ℕ → ℝ := fun a b =>
  x a b - (∑ a ∈ range m, ∑ b ∈ range n, x a b) / (m * n : ℕ)

private theorem azWeight_hat {d : ℕ} {dims : Fin d → ℕ} (fourier : Bool) (p : Pixel dims) (k : ℕ) :
    azWeight fourier p k = Spec.hat (azRadius fourier p) k := by
  have h1 := Nat.floor_le (azRadius_nonneg fourier p)
  have h2 := Nat.lt_floor_add_one (azRadius fourier p)
  unfold azWeight Spec.hat
  generalize azRadius fourier p = r at *
  by_cases ha : ⌊r⌋₊ = k
  · rw [if_pos ha, if_neg (by omega)]
    rw [ha] at h1 h2 ⊢
    rw [abs_of_nonneg (by linarith), max_eq_right (by linarith)]
    ring
  · rw [if_neg ha]
    by_cases hb : ⌊r⌋₊ + 1 = k
    · rw [if_pos hb]
      subst hb
      push_cast
      rw [abs_of_nonpos (by linarith), max_eq_right (by linarith)]
      ring
    · rw [if_neg hb, max_eq_left]
      · ring
      · rcases lt_or_gt_of_ne ha with h | h
        · have h3 : (⌊r⌋₊ : ℝ) + 2 ≤ k := by exact_mod_cast (by omega : ⌊r⌋₊ + 2 ≤ k)
          rw [abs_of_nonpos (by linarith)]; linarith
        · have h3 : (k : ℝ) + 1 ≤ ⌊r⌋₊ := by exact_mod_cast (by omega : k + 1 ≤ ⌊r⌋₊)
          rw [abs_of_nonneg (by linarith)]; linarith

private theorem sum_fftfreq (m : ℕ) (hm : 0 < m) (g : ℤ → ℝ) :
    ∑ i : Fin (2 * m - 1), g (fftfreq (2 * m - 1) i) = ∑ u ∈ Icc (-((m : ℤ) - 1)) (m - 1), g u := by
  refine Finset.sum_nbij (fun i : Fin (2 * m - 1) => fftfreq (2 * m - 1) i) ?_ ?_ ?_ ?_
  · intro i _
    rw [mem_Icc]
    have := i.2
    unfold fftfreq
    split_ifs <;> omega
  · intro i _ j _ h
    have hi := i.2
    have hj := j.2
    apply Fin.ext
    simp only [fftfreq] at h
    split_ifs at h <;> omega
  · intro u hu
    simp only [coe_Icc, Set.mem_Icc] at hu
    rcases le_or_gt 0 u with h | h
    · refine ⟨⟨u.toNat, by omega⟩, by simp, ?_⟩
      simp only [fftfreq]
      rw [if_pos (by omega)]; omega
    · refine ⟨⟨(u + (2 * m - 1 : ℕ)).toNat, by omega⟩, by simp, ?_⟩
      simp only [fftfreq]
      rw [if_neg (by omega)]; omega
  · intro i _; rfl

private theorem sum_pixels (m n : ℕ) (hm : 0 < m) (hn : 0 < n) (g : ℤ → ℤ → ℝ) :
    ∑ p : Pixel ![2 * m - 1, 2 * n - 1], g (fftfreq (2 * m - 1) (p 0)) (fftfreq (2 * n - 1) (p 1)) =
      ∑ u ∈ Icc (-((m : ℤ) - 1)) (m - 1), ∑ v ∈ Icc (-((n : ℤ) - 1)) (n - 1), g u v := by
  have e := Equiv.sum_comp (piFinTwoEquiv fun a => Fin (![2 * m - 1, 2 * n - 1] a))
    (fun q : Fin (2 * m - 1) × Fin (2 * n - 1) => g (fftfreq (2 * m - 1) q.1) (fftfreq (2 * n - 1) q.2))
  have e2 : ∑ p : Pixel ![2 * m - 1, 2 * n - 1], g (fftfreq (2 * m - 1) (p 0)) (fftfreq (2 * n - 1) (p 1)) =
      ∑ q : Fin (2 * m - 1) × Fin (2 * n - 1), g (fftfreq (2 * m - 1) q.1) (fftfreq (2 * n - 1) q.2) := e
  rw [e2, Fintype.sum_prod_type]
  rw [← sum_fftfreq m hm fun u => ∑ v ∈ Icc (-((n : ℤ) - 1)) (n - 1), g u v]
  exact sum_congr rfl fun i _ => sum_fftfreq n hn fun v => g (fftfreq (2 * m - 1) i) v

private theorem azRadius_two (m n : ℕ) (p : Pixel ![2 * m - 1, 2 * n - 1]) :
    azRadius true p = Real.sqrt ((fftfreq (2 * m - 1) (p 0) : ℝ) ^ 2 + (fftfreq (2 * n - 1) (p 1) : ℝ) ^ 2) := by
  unfold azRadius azCoord
  rw [Fin.sum_univ_two]
  rfl

private theorem imgNorm_sq (m n : ℕ) (x : ℕ → ℕ → ℝ) : Spec.lagCorr m n x x 0 0 = Spec.imgNorm m n x * Spec.imgNorm m n x := by
  unfold Spec.imgNorm
  rw [Real.mul_self_sqrt (sum_nonneg fun a _ => sum_nonneg fun b _ => sq_nonneg _)]
  unfold Spec.lagCorr
  refine sum_congr rfl fun a ha => sum_congr rfl fun b hb => ?_
  rw [mem_range] at ha hb
  rw [if_pos (by omega)]
  simp [sq]

private theorem corrProfile_eq (m n : ℕ) (hm : 0 < m) (hn : 0 < n) (x : ℕ → ℕ → ℝ) (hx : Spec.imgNorm m n x ≠ 0) :
    corrProfile m n x = some ((List.range (min m n)).map (Spec.lagProfile m n x)) := by
  have hs : stackNorm 1 m n (fun _ => x) = Spec.imgNorm m n x := by
    unfold stackNorm Spec.imgNorm; rw [Finset.sum_range_one]
  unfold corrProfile
  simp only [hs]
  rw [if_neg hx]
  congr 1
  refine List.map_congr_left fun k _ => ?_
  have hcc : ∀ p : Pixel ![2 * m - 1, 2 * n - 1],
      (normCrossCorr 1 m n (fun _ => x) (fun _ => x) true 0 (p 0) (p 1)).getD 0 =
        Spec.lagCorr m n x x (fftfreq (2 * m - 1) (p 0)) (fftfreq (2 * n - 1) (p 1)) / Spec.lagCorr m n x x 0 0 := by
    intro p
    obtain ⟨c, h1, h2, -⟩ := (C174_cross_correlation_partial m n hm hn x x true hx hx).1 (p 0) (p 1)
      (by have := (p 0).2; exact this) (by have := (p 1).2; exact this)
    rw [h1, imgNorm_sq, h2]; rfl
  unfold Spec.lagProfile
  rw [azimuthal_eq, azimuthal_eq]
  congr 1
  · rw [← sum_pixels m n hm hn fun u v => Spec.hat (Real.sqrt ((u : ℝ) ^ 2 + (v : ℝ) ^ 2)) k *
      (Spec.lagCorr m n x x u v / Spec.lagCorr m n x x 0 0)]
    refine sum_congr rfl fun p _ => ?_
    rw [azWeight_hat, azRadius_two, hcc]
  · rw [← sum_pixels m n hm hn fun u v => Spec.hat (Real.sqrt ((u : ℝ) ^ 2 + (v : ℝ) ^ 2)) k]
    refine sum_congr rfl fun p _ => ?_
    rw [azWeight_hat, azRadius_two, mul_one]

private theorem hat_zero (u v : ℤ) : Spec.hat (Real.sqrt ((u : ℝ) ^ 2 + (v : ℝ) ^ 2)) 0 = if u = 0 ∧ v = 0 then 1 else 0 := by
  unfold Spec.hat
  split_ifs with h
  · rw [h.1, h.2]; simp
  · have h1 : (1 : ℝ) ≤ (u : ℝ) ^ 2 + (v : ℝ) ^ 2 := by
      have : (1 : ℤ) ≤ u ^ 2 + v ^ 2 := by
        by_contra hc
        push Not at hc
        have hu := sq_nonneg u
        have hv := sq_nonneg v
        have hu0 : u ^ 2 = 0 := by omega
        have hv0 : v ^ 2 = 0 := by omega
        exact h ⟨pow_eq_zero_iff two_ne_zero |>.1 hu0, pow_eq_zero_iff two_ne_zero |>.1 hv0⟩
      exact_mod_cast this
    have h2 : 1 ≤ Real.sqrt ((u : ℝ) ^ 2 + (v : ℝ) ^ 2) := Real.one_le_sqrt.2 h1
    rw [Nat.cast_zero, sub_zero, abs_of_nonneg (by linarith), max_eq_left (by linarith)]

private theorem lagProfile_zero (m n : ℕ) (hm : 0 < m) (hn : 0 < n) (x : ℕ → ℕ → ℝ) (hx : Spec.imgNorm m n x ≠ 0) :
    Spec.lagProfile m n x 0 = 1 := by
  have hz : ∀ f : ℤ → ℤ → ℝ, ∑ u ∈ Icc (-((m : ℤ) - 1)) (m - 1), ∑ v ∈ Icc (-((n : ℤ) - 1)) (n - 1),
      Spec.hat (Real.sqrt ((u : ℝ) ^ 2 + (v : ℝ) ^ 2)) 0 * f u v = f 0 0 := by
    intro f
    rw [Finset.sum_eq_single 0]
    · rw [Finset.sum_eq_single 0]
      · rw [hat_zero, if_pos ⟨rfl, rfl⟩, one_mul]
      · intro v _ hv
        rw [hat_zero, if_neg (by tauto), zero_mul]
      · intro h; exact absurd (mem_Icc.2 (by omega)) h
    · intro u _ hu
      refine sum_eq_zero fun v _ => ?_
      rw [hat_zero, if_neg (by tauto), zero_mul]
    · intro h; exact absurd (mem_Icc.2 (by omega)) h
  unfold Spec.lagProfile
  rw [hz]
  have h2 := hz fun _ _ => 1
  simp only [mul_one] at h2
  rw [h2, div_self, div_one]
  rw [imgNorm_sq]
  exact mul_ne_zero hx hx

/-- Specification: `w` is the half width at half maximum of the sequence `f` on `0 … N - 1`, that begins above one half: up to `k` the values
are at least one half, the next is below, and the straight line between them has the value one half at `w`. -/
def IsHalfWidth (f : ℕ → ℝ) (N : ℕ) (w : ℝ) : Prop :=
  ∃ k, k + 1 < N ∧ (∀ j ≤ k, 1 / 2 ≤ f j) ∧ f (k + 1) < 1 / 2 ∧ (k : ℝ) ≤ w ∧ w ≤ k + 1 ∧
    f k + (w - k) * (f (k + 1) - f k) = 1 / 2

/-- **C196, proved part.** For a mask that is not constant, the entry is the half width at half maximum of the radial profile of the
auto-correlation of the mask minus its mean, or 0 if the profile does not fall below one half within the size of the mask. Missing: masks
without such a half width should not be reported as the sharpest. -/
theorem C196_half_width_partial (m n : ℕ) (hm : 0 < m) (hn : 0 < n) (mask : ℕ → ℕ → ℝ)
    (hx : Spec.imgNorm m n (Spec.centred m n mask) ≠ 0) :
    let f := Spec.lagProfile m n (Spec.centred m n mask)
    f 0 = 1 ∧
    ((∀ k < min m n, 1 / 2 ≤ f k) → maskResolution m n mask = 0) ∧
    ((∃ k < min m n, f k < 1 / 2) → IsHalfWidth f (min m n) (maskResolution m n mask)) := by
  intro f
  have f0 : f 0 = 1 := lagProfile_zero m n hm hn _ hx
  refine ⟨f0, ?_⟩
  have hprof : corrProfile m n (fun a b => mask a b - (∑ a ∈ range m, ∑ b ∈ range n, mask a b) / (m * n : ℕ)) =
      some ((List.range (min m n)).map f) := corrProfile_eq m n hm hn _ hx
  set l := (List.range (min m n)).map f with hl
  have hlen : l.length = min m n := by simp [hl]
  have hres : maskResolution m n mask = match linesIntersection l [1 / 2] .first none with | .point x _ => x | _ => 0 := by
    unfold maskResolution
    simp only
    rw [hprof]
    rfl
  obtain ⟨c1, c2, c3⟩ := C47_intersection l [1 / 2] (Or.inl rfl) .first none (by simp)
  have hs1 : ∀ k < min m n, Spec.sample l k = f k := by
    intro k hk
    have h1 : lineAt l k = Spec.sample l k := lineAt_eq l k
    rw [← h1]
    unfold lineAt
    split_ifs with h
    · rw [hlen] at h
      obtain rfl : k = 0 := by omega
      simp [hl, List.getD_eq_getElem?_getD, hk]
    · simp [hl, List.getD_eq_getElem?_getD, hk]
  have hs2 : ∀ k, Spec.sample [(1 / 2 : ℝ)] k = 1 / 2 := by
    intro k
    have h1 : lineAt [(1 / 2 : ℝ)] k = Spec.sample [1 / 2] k := lineAt_eq _ k
    rw [← h1]; simp [lineAt]
  have hcross : ∀ k, IsCrossing l [1 / 2] none k ↔ k + 1 < min m n ∧ ¬ (f k < 1 / 2 ↔ f (k + 1) < 1 / 2) := by
    intro k
    unfold IsCrossing
    rw [hlen]
    constructor
    · rintro ⟨h1, -, h3⟩
      rw [hs1 k (by omega), hs1 (k + 1) h1, hs2, hs2] at h3
      exact ⟨h1, h3⟩
    · rintro ⟨h1, h3⟩
      refine ⟨h1, by simp, ?_⟩
      rw [hs1 k (by omega), hs1 (k + 1) h1, hs2, hs2]
      exact h3
  constructor
  · intro hall
    have : linesIntersection l [1 / 2] .first none = .notFound := by
      rw [c1]
      intro k hk
      obtain ⟨h1, h3⟩ := (hcross k).1 hk
      apply h3
      have a1 := hall k (by omega)
      have a2 := hall (k + 1) h1
      constructor <;> intro h <;> linarith
    rw [hres, this]
  · intro hex
    cases hL : linesIntersection l [1 / 2] .first none with
    | valueError => exact absurd (c3.1 hL).1 (by simp)
    | notFound =>
      exfalso
      have hno := c1.1 hL
      obtain ⟨k, hk, hfk⟩ := hex
      have key : ∀ j < min m n, 1 / 2 ≤ f j := by
        intro j
        induction j with
        | zero => intro _; rw [f0]; norm_num
        | succ j ih =>
          intro hj
          by_contra hc
          push Not at hc
          refine hno j ((hcross j).2 ⟨hj, ?_⟩)
          have := ih (by omega)
          intro h
          have := h.2 hc
          linarith
      linarith [key k hk]
    | point x y =>
      rw [hres, hL]
      obtain ⟨k, hk, hx1, hx2, hy1, hy2, hfirst, -⟩ := c2 x y hL
      obtain ⟨h1, h3⟩ := (hcross k).1 hk
      have key : ∀ j ≤ k, 1 / 2 ≤ f j := by
        intro j
        induction j with
        | zero => intro _; rw [f0]; norm_num
        | succ j ih =>
          intro hj
          by_contra hc
          push Not at hc
          have := hfirst rfl j ((hcross j).2 ⟨by omega, by
            have := ih (by omega)
            intro h
            have := h.2 hc
            linarith⟩)
          omega
      have hk1 : f (k + 1) < 1 / 2 := by
        by_contra hc
        apply h3
        have := key k le_rfl
        constructor
        · intro h; linarith
        · intro h; exact absurd h hc
      refine ⟨k, h1, key, hk1, hx1, hx2, ?_⟩
      unfold onSegment at hy1 hy2
      rw [hs1 k (by omega), hs1 (k + 1) h1] at hy1
      rw [hs2, hs2] at hy2
      linarith

/-- **C196, violated.** Not every entry is a half width: a mask without structure, and any mask with a single row, whose auto-correlation has
no profile, are reported with the width 0; so a collection with such a mask has the smallest width 0. -/
theorem C196_no_width_violated :
    (¬ ∀ (m n : ℕ) (mask : ℕ → ℕ → ℝ), 0 < m → 0 < n → 0 < maskResolution m n mask) ∧
    (∀ (m n : ℕ) (c : ℝ), maskResolution m n (fun _ _ => c) = 0) ∧
    (∀ (n : ℕ) (mask : ℕ → ℕ → ℝ), 0 < n → maskResolution 1 n mask = 0) := by
  have hconst : ∀ (m n : ℕ) (c : ℝ), maskResolution m n (fun _ _ => c) = 0 := by
    intro m n c
    have hz : stackNorm 1 m n (fun _ => fun _ _ => c - (∑ a ∈ range m, ∑ b ∈ range n, c) / (m * n : ℕ)) = 0 := by
      unfold stackNorm
      rw [Real.sqrt_eq_zero (sum_nonneg fun s _ => sum_nonneg fun a _ => sum_nonneg fun b _ => sq_nonneg _)]
      refine sum_eq_zero fun s _ => sum_eq_zero fun a ha => sum_eq_zero fun b hb => ?_
      have hm : (m : ℝ) ≠ 0 := Nat.cast_ne_zero.2 (by have := mem_range.1 ha; omega)
      have hn : (n : ℝ) ≠ 0 := Nat.cast_ne_zero.2 (by have := mem_range.1 hb; omega)
      have : c - (∑ a ∈ range m, ∑ b ∈ range n, c) / (m * n : ℕ) = 0 := by
        simp only [sum_const, card_range, nsmul_eq_mul]
        push_cast
        field_simp
        ring
      rw [this]; norm_num
    unfold maskResolution corrProfile
    simp only
    rw [if_pos hz]
  refine ⟨fun h => ?_, hconst, ?_⟩
  · have := h 1 1 (fun _ _ => 0) one_pos one_pos
    rw [hconst] at this
    exact lt_irrefl _ this
  · intro n mask hn
    by_cases hx : Spec.imgNorm 1 n (Spec.centred 1 n mask) = 0
    · have hz : stackNorm 1 1 n (fun _ => fun a b => mask a b - (∑ a ∈ range 1, ∑ b ∈ range n, mask a b) / (1 * n : ℕ)) = 0 := by
        rw [← hx]
        unfold stackNorm Spec.imgNorm
        rw [Finset.sum_range_one]
        rfl
      unfold maskResolution corrProfile
      simp only
      rw [if_pos hz]
    · obtain ⟨h0, h1, -⟩ := C196_half_width_partial 1 n one_pos hn mask hx
      apply h1
      intro k hk
      obtain rfl : k = 0 := by omega
      rw [h0]; norm_num

/-- **C196, the width does not depend on the brightness and contrast of the mask**: with another transmittance and background (factor `a`,
which may be negative, and offset `b`) it is the same. -/
theorem C196_contrast (m n : ℕ) (hm : 0 < m) (hn : 0 < n) (mask : ℕ → ℕ → ℝ) (a b : ℝ) (ha : a ≠ 0) :
    maskResolution m n (fun i j => a * mask i j + b) = maskResolution m n mask := by
  have hm' : (m : ℝ) ≠ 0 := Nat.cast_ne_zero.2 hm.ne'
  have hn' : (n : ℝ) ≠ 0 := Nat.cast_ne_zero.2 hn.ne'
  have hc : ∀ i j, (fun i j => a * mask i j + b) i j - (∑ i ∈ range m, ∑ j ∈ range n, (fun i j => a * mask i j + b) i j) / (m * n : ℕ) =
      a * Spec.centred m n mask i j := by
    intro i j
    unfold Spec.centred
    simp only [sum_add_distrib, ← mul_sum, sum_const, card_range, nsmul_eq_mul]
    push_cast
    field_simp
    ring
  have hc' : (fun i j => a * mask i j + b - (∑ i ∈ range m, ∑ j ∈ range n, (a * mask i j + b)) / (m * n : ℕ)) =
      fun i j => a * Spec.centred m n mask i j := by
    funext i j; exact hc i j
  have hlag : ∀ u v, Spec.lagCorr m n (fun i j => a * Spec.centred m n mask i j) (fun i j => a * Spec.centred m n mask i j) u v =
      a ^ 2 * Spec.lagCorr m n (Spec.centred m n mask) (Spec.centred m n mask) u v := by
    intro u v
    unfold Spec.lagCorr
    rw [mul_sum]
    refine sum_congr rfl fun i _ => ?_
    rw [mul_sum]
    refine sum_congr rfl fun j _ => ?_
    split_ifs <;> ring
  have hnorm : Spec.imgNorm m n (fun i j => a * Spec.centred m n mask i j) = 0 ↔ Spec.imgNorm m n (Spec.centred m n mask) = 0 := by
    have h1 := hlag 0 0
    rw [imgNorm_sq, imgNorm_sq] at h1
    constructor
    · intro h
      rw [h, zero_mul] at h1
      have := (mul_eq_zero.1 h1.symm).resolve_left (pow_ne_zero 2 ha)
      exact mul_self_eq_zero.1 this
    · intro h
      rw [h, zero_mul, mul_zero] at h1
      exact mul_self_eq_zero.1 h1
  have hs : ∀ x, stackNorm 1 m n (fun _ => x) = Spec.imgNorm m n x := by
    intro x; unfold stackNorm Spec.imgNorm; rw [Finset.sum_range_one]
  have hp : corrProfile m n (fun i j => a * Spec.centred m n mask i j) = corrProfile m n (Spec.centred m n mask) := by
    by_cases hx : Spec.imgNorm m n (Spec.centred m n mask) = 0
    · unfold corrProfile
      simp only [hs]
      rw [if_pos hx, if_pos (hnorm.2 hx)]
    · rw [corrProfile_eq m n hm hn _ hx, corrProfile_eq m n hm hn _ (fun h => hx (hnorm.1 h))]
      congr 1
      refine List.map_congr_left fun k _ => ?_
      unfold Spec.lagProfile
      simp only [hlag]
      congr 1
      refine sum_congr rfl fun u _ => sum_congr rfl fun v _ => ?_
      rw [mul_div_mul_left _ _ (pow_ne_zero 2 ha)]
  unfold maskResolution
  simp only
  rw [hc', hp]
  rfl

/-- **C196, the summary**: the results are the mean and the minimum of the widths of the masks. -/
theorem C196_mean_and_min (m n : ℕ) (masks : List (ℕ → ℕ → ℝ)) (h : masks ≠ []) :
    ∃ mean low, masksResolution m n masks = some (mean, low) ∧
      mean * masks.length = (masks.map (maskResolution m n)).sum ∧
      (∃ k ∈ masks, low = maskResolution m n k) ∧ ∀ k ∈ masks, low ≤ maskResolution m n k := by
  have hmin : ∀ (l : List ℝ) (r : ℝ), (l.foldl min r = r ∨ l.foldl min r ∈ l) ∧ l.foldl min r ≤ r ∧ ∀ x ∈ l, l.foldl min r ≤ x := by
    intro l
    induction l with
    | nil => intro r; simp
    | cons y l ih =>
      intro r
      obtain ⟨h1, h2, h3⟩ := ih (min r y)
      simp only [List.foldl_cons, List.mem_cons]
      refine ⟨?_, h2.trans (min_le_left _ _), ?_⟩
      · rcases h1 with h1 | h1
        · rcases min_choice r y with h | h
          · left; rw [h1, h]
          · right; left; rw [h1, h]
        · right; right; exact h1
      · rintro x (rfl | hx)
        · exact h2.trans (min_le_right _ _)
        · exact h3 x hx
  match masks, h with
  | k :: ks, _ =>
    obtain ⟨h1, h2, h3⟩ := hmin (ks.map (maskResolution m n)) (maskResolution m n k)
    refine ⟨_, _, rfl, ?_, ?_, ?_⟩
    · simp only [List.map_cons, List.length_cons, List.length_map]
      rw [div_mul_cancel₀]
      exact Nat.cast_ne_zero.2 (Nat.succ_ne_zero _)
    · rcases h1 with h1 | h1
      · exact ⟨k, by simp, h1⟩
      · obtain ⟨k', hk', e⟩ := List.mem_map.1 h1
        exact ⟨k', by simp [hk'], e.symm⟩
    · intro k' hk'
      rcases List.mem_cons.1 hk' with rfl | hk'
      · exact h2
      · exact h3 _ (List.mem_map_of_mem hk')

/-- A mask with two rows and two columns, one of them open: it is not constant. -/
example : Spec.imgNorm 2 2 (Spec.centred 2 2 fun _ b => if b = 0 then 1 else 0) ≠ 0 := by
  have : ∑ a ∈ range 2, ∑ b ∈ range 2, (Spec.centred 2 2 (fun _ b => if b = 0 then 1 else 0) a b) ^ 2 = 1 := by
    simp [Spec.centred, Finset.sum_range_succ]; norm_num
  unfold Spec.imgNorm
  rw [this]; norm_num

end Verif
