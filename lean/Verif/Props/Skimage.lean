import Verif.Model.Skimage
import Verif.Spec.Operators
import Mathlib.Analysis.Real.Pi.Bounds

/-! # C230-C232: the scikit-image projector backend -/

namespace Verif
open Classical Finset

variable {n na : ℕ}

/-! ## Interpolation at grid points -/

theorem hat_int (a b : ℤ) : hat ((a : ℝ) - b) = if a = b then 1 else 0 := by
  unfold hat
  by_cases h : a = b
  · subst h; simp
  · rw [if_neg h]
    have h1 : (1 : ℝ) ≤ |(a : ℝ) - b| := by
      rw [← Int.cast_sub, ← Int.cast_abs]
      exact_mod_cast Int.one_le_abs (sub_ne_zero.2 h)
    exact max_eq_left (by linarith)

/-- Interpolation at grid points reads the pixel, or zero outside. -/
theorem bilinear_int (x : Arr (Fin n × Fin n)) {r c : ℝ} (a b : ℤ) (hr : r = a) (hc : c = b) :
    bilinear x r c = ∑ q : Fin n × Fin n, if a = ((q.1 : ℕ) : ℤ) ∧ b = ((q.2 : ℕ) : ℤ) then x q else 0 := by
  subst hr hc
  unfold bilinear
  rw [Fintype.sum_prod_type]
  refine sum_congr rfl fun i _ => sum_congr rfl fun j _ => ?_
  have h1 := hat_int a ((i : ℕ) : ℤ)
  have h2 := hat_int b ((j : ℕ) : ℤ)
  rw [Int.cast_natCast] at h1 h2
  rw [h1, h2]
  by_cases ha : a = ((i : ℕ) : ℤ) <;> by_cases hb : b = ((j : ℕ) : ℤ) <;> simp [ha, hb]

theorem skInterp_int (p : Arr (Fin n)) {t : ℝ} (a : ℤ) (ht : t = a) :
    skInterp p t = ∑ k : Fin n, if a + ((n / 2 : ℕ) : ℤ) = ((k : ℕ) : ℤ) then p k else 0 := by
  subst ht
  unfold skInterp
  have hk : ∀ k : Fin n, hat ((a : ℝ) - (((k : ℕ) : ℝ) - ((n / 2 : ℕ) : ℝ))) * p k = if a + ((n / 2 : ℕ) : ℤ) = ((k : ℕ) : ℤ) then p k else 0 := by
    intro k
    have h1 := hat_int (a + ((n / 2 : ℕ) : ℤ)) ((k : ℕ) : ℤ)
    rw [Int.cast_add, Int.cast_natCast, Int.cast_natCast] at h1
    rw [show (a : ℝ) - (((k : ℕ) : ℝ) - ((n / 2 : ℕ) : ℝ)) = (a : ℝ) + ((n / 2 : ℕ) : ℝ) - ((k : ℕ) : ℝ) by ring, h1]
    split_ifs <;> simp
  dsimp only
  generalize n / 2 = H at *
  split_ifs with h
  · exact sum_congr rfl fun k _ => hk k
  · refine (sum_eq_zero fun k _ => if_neg fun e => h ?_).symm
    have hlt := k.isLt
    constructor
    · have : -((H : ℤ)) ≤ a := by omega
      have h2 : ((-(H : ℤ) : ℤ) : ℝ) ≤ (a : ℝ) := by exact_mod_cast this
      simpa using h2
    · have : a ≤ (n : ℤ) - 1 - (H : ℤ) := by omega
      have h2 : (a : ℝ) ≤ (((n : ℤ) - 1 - (H : ℤ) : ℤ) : ℝ) := by exact_mod_cast this
      push_cast at h2
      simpa using h2

/-! ## Right angles -/

/-- A multiple of a right angle. -/
def RightAngle (θ : ℝ) : Prop := Real.cos θ = 0 ∨ Real.sin θ = 0

theorem right_cases {θ : ℝ} (h : RightAngle θ) : (Real.cos θ = 1 ∧ Real.sin θ = 0) ∨ (Real.cos θ = 0 ∧ Real.sin θ = 1) ∨ (Real.cos θ = -1 ∧ Real.sin θ = 0) ∨
    (Real.cos θ = 0 ∧ Real.sin θ = -1) := by
  have h1 := Real.sin_sq_add_cos_sq θ
  rcases h with h | h
  · rw [h] at h1
    have : Real.sin θ ^ 2 = 1 := by linarith
    rcases mul_self_eq_one_iff.1 ((sq _).symm.trans this) with h2 | h2
    · exact Or.inr (Or.inl ⟨h, h2⟩)
    · exact Or.inr (Or.inr (Or.inr ⟨h, h2⟩))
  · rw [h] at h1
    have : Real.cos θ ^ 2 = 1 := by linarith
    rcases mul_self_eq_one_iff.1 ((sq _).symm.trans this) with h2 | h2
    · exact Or.inl ⟨h2, h⟩
    · exact Or.inr (Or.inr (Or.inl ⟨h2, h⟩))

theorem sum_hit (z : ℤ) (Q : Prop) [Decidable Q] (v : ℝ) (hz : Q → 0 ≤ z ∧ z < n) : (∑ r : Fin n, if ((r : ℕ) : ℤ) = z ∧ Q then v else 0) = if Q then v else 0 := by
  by_cases hQ : Q
  · obtain ⟨h0, h1⟩ := hz hQ
    rw [if_pos hQ, sum_eq_single ⟨z.toNat, by omega⟩]
    · rw [if_pos ⟨by simp [h0], hQ⟩]
    · intro r _ hr
      refine if_neg fun h => hr (Fin.ext ?_)
      simp only
      omega
    · simp
  · rw [if_neg hQ]
    exact sum_eq_zero fun r _ => if_neg fun h => hQ h.2

/-- The detector pixel that a voxel is projected onto, at right angles. -/
noncomputable def hitPixel (n : ℕ) (θ : ℝ) (q : Fin n × Fin n) : ℤ :=
  if Real.cos θ = 1 then ((q.2 : ℕ) : ℤ) else if Real.sin θ = 1 then 2 * ((n / 2 : ℕ) : ℤ) - ((q.1 : ℕ) : ℤ)
  else if Real.cos θ = -1 then 2 * ((n / 2 : ℕ) : ℤ) - ((q.2 : ℕ) : ℤ) else ((q.1 : ℕ) : ℤ)

theorem m1 : ((-1 : ℝ) = 1) = False := eq_false (by norm_num)
theorem m2 : ((0 : ℝ) = 1) = False := eq_false (by norm_num)
theorem m3 : ((0 : ℝ) = -1) = False := eq_false (by norm_num)

theorem radon_right (x : Arr (Fin n × Fin n)) {θ : ℝ} (h : RightAngle θ) (hn : Odd n ∨ 0 < Real.cos θ + Real.sin θ) (c : Fin n) :
    skRadon x θ c = ∑ q, if hitPixel n θ q = ((c : ℕ) : ℤ) then x q else 0 := by
  have hh : Odd n → 2 * ((n / 2 : ℕ) : ℤ) = (n : ℤ) - 1 := by rintro ⟨k, rfl⟩; omega
  have hc := c.isLt
  simp only [skRadon, hitPixel]
  rcases right_cases h with ⟨e1, e2⟩ | ⟨e1, e2⟩ | ⟨e1, e2⟩ | ⟨e1, e2⟩
  · simp only [e1, e2, if_true]
    have : ∀ r : Fin n, bilinear x (-0 * ((c : ℕ) : ℝ) + 1 * ((r : ℕ) : ℝ) - ((n / 2 : ℕ) : ℝ) * (1 - 0 - 1))
        (1 * ((c : ℕ) : ℝ) + 0 * ((r : ℕ) : ℝ) - ((n / 2 : ℕ) : ℝ) * (1 + 0 - 1)) = _ :=
      fun r => bilinear_int x ((r : ℕ) : ℤ) ((c : ℕ) : ℤ) (by simp only [Int.cast_sub, Int.cast_mul, Int.cast_natCast, Int.cast_ofNat]; ring) (by simp only [Int.cast_sub, Int.cast_mul, Int.cast_natCast, Int.cast_ofNat]; ring)
    simp only [this]
    rw [sum_comm]
    refine sum_congr rfl fun q _ => ?_
    have hq1 := q.1.isLt
    refine Eq.trans ?_ (sum_hit (n := n) ((q.1 : ℕ) : ℤ) (((q.2 : ℕ) : ℤ) = ((c : ℕ) : ℤ)) (x q) (fun _ => by omega))
    exact sum_congr rfl fun r _ => if_congr (by rw [eq_comm (a := ((c : ℕ) : ℤ))]) rfl rfl
  · simp only [e1, e2, if_true, if_false, zero_ne_one]
    have : ∀ r : Fin n, bilinear x (-1 * ((c : ℕ) : ℝ) + 0 * ((r : ℕ) : ℝ) - ((n / 2 : ℕ) : ℝ) * (0 - 1 - 1))
        (0 * ((c : ℕ) : ℝ) + 1 * ((r : ℕ) : ℝ) - ((n / 2 : ℕ) : ℝ) * (0 + 1 - 1)) = _ :=
      fun r => bilinear_int x (2 * ((n / 2 : ℕ) : ℤ) - ((c : ℕ) : ℤ)) ((r : ℕ) : ℤ) (by simp only [Int.cast_sub, Int.cast_mul, Int.cast_natCast, Int.cast_ofNat]; ring) (by simp only [Int.cast_sub, Int.cast_mul, Int.cast_natCast, Int.cast_ofNat]; ring)
    simp only [this]
    rw [sum_comm]
    refine sum_congr rfl fun q _ => ?_
    have hq1 := q.2.isLt
    refine Eq.trans ?_ (sum_hit (n := n) ((q.2 : ℕ) : ℤ) (2 * ((n / 2 : ℕ) : ℤ) - ((q.1 : ℕ) : ℤ) = ((c : ℕ) : ℤ)) (x q) (fun _ => by omega))
    refine sum_congr rfl fun r _ => if_congr ?_ rfl rfl
    constructor
    · rintro ⟨h1, h2⟩; exact ⟨h2, by omega⟩
    · rintro ⟨h1, h2⟩; exact ⟨by omega, h1⟩
  · have hodd := hh (hn.resolve_right (by rw [e1, e2]; norm_num))
    simp only [e1, e2, if_true]
    simp only [m1, m2, m3, if_true, if_false]
    have : ∀ r : Fin n, bilinear x (-0 * ((c : ℕ) : ℝ) + -1 * ((r : ℕ) : ℝ) - ((n / 2 : ℕ) : ℝ) * (-1 - 0 - 1))
        (-1 * ((c : ℕ) : ℝ) + 0 * ((r : ℕ) : ℝ) - ((n / 2 : ℕ) : ℝ) * (-1 + 0 - 1)) = _ :=
      fun r => bilinear_int x (2 * ((n / 2 : ℕ) : ℤ) - ((r : ℕ) : ℤ)) (2 * ((n / 2 : ℕ) : ℤ) - ((c : ℕ) : ℤ)) (by simp only [Int.cast_sub, Int.cast_mul, Int.cast_natCast, Int.cast_ofNat]; ring) (by simp only [Int.cast_sub, Int.cast_mul, Int.cast_natCast, Int.cast_ofNat]; ring)
    simp only [this]
    rw [sum_comm]
    refine sum_congr rfl fun q _ => ?_
    have hq1 := q.1.isLt
    refine Eq.trans ?_ (sum_hit (n := n) (2 * ((n / 2 : ℕ) : ℤ) - ((q.1 : ℕ) : ℤ)) (2 * ((n / 2 : ℕ) : ℤ) - ((q.2 : ℕ) : ℤ) = ((c : ℕ) : ℤ)) (x q) (fun _ => by omega))
    refine sum_congr rfl fun r _ => if_congr ?_ rfl rfl
    constructor
    · rintro ⟨h1, h2⟩; exact ⟨by omega, by omega⟩
    · rintro ⟨h1, h2⟩; exact ⟨by omega, by omega⟩
  · have hodd := hh (hn.resolve_right (by rw [e1, e2]; norm_num))
    simp only [e1, e2]
    simp only [m1, m2, m3, if_true, if_false]
    have : ∀ r : Fin n, bilinear x (- -1 * ((c : ℕ) : ℝ) + 0 * ((r : ℕ) : ℝ) - ((n / 2 : ℕ) : ℝ) * (0 - -1 - 1))
        (0 * ((c : ℕ) : ℝ) + -1 * ((r : ℕ) : ℝ) - ((n / 2 : ℕ) : ℝ) * (0 + -1 - 1)) = _ :=
      fun r => bilinear_int x ((c : ℕ) : ℤ) (2 * ((n / 2 : ℕ) : ℤ) - ((r : ℕ) : ℤ)) (by simp only [Int.cast_sub, Int.cast_mul, Int.cast_natCast, Int.cast_ofNat]; ring) (by simp only [Int.cast_sub, Int.cast_mul, Int.cast_natCast, Int.cast_ofNat]; ring)
    simp only [this]
    rw [sum_comm]
    refine sum_congr rfl fun q _ => ?_
    have hq1 := q.2.isLt
    refine Eq.trans ?_ (sum_hit (n := n) (2 * ((n / 2 : ℕ) : ℤ) - ((q.2 : ℕ) : ℤ)) (((q.1 : ℕ) : ℤ) = ((c : ℕ) : ℤ)) (x q) (fun _ => by omega))
    refine sum_congr rfl fun r _ => if_congr ?_ rfl rfl
    constructor
    · rintro ⟨h1, h2⟩; exact ⟨by omega, by omega⟩
    · rintro ⟨h1, h2⟩; exact ⟨by omega, by omega⟩

theorem iradon_right (p : Arr (Fin n)) {θ : ℝ} (h : RightAngle θ) (q : Fin n × Fin n) :
    skIradon p θ q * 2 / Real.pi = ∑ k : Fin n, if hitPixel n θ q = ((k : ℕ) : ℤ) then p k else 0 := by
  have hpi := Real.pi_pos.ne'
  have key : ∀ a : ℤ, a + ((n / 2 : ℕ) : ℤ) = hitPixel n θ q →
      (((q.2 : ℕ) : ℝ) - ((n / 2 : ℕ) : ℝ)) * Real.cos θ - (((q.1 : ℕ) : ℝ) - ((n / 2 : ℕ) : ℝ)) * Real.sin θ = a →
      skIradon p θ q * 2 / Real.pi = ∑ k : Fin n, if hitPixel n θ q = ((k : ℕ) : ℤ) then p k else 0 := by
    intro a ha ht
    simp only [skIradon]
    rw [skInterp_int p a ht, ha]
    field_simp
  simp only [hitPixel] at key ⊢
  rcases right_cases h with ⟨e1, e2⟩ | ⟨e1, e2⟩ | ⟨e1, e2⟩ | ⟨e1, e2⟩
  · refine key (((q.2 : ℕ) : ℤ) - ((n / 2 : ℕ) : ℤ)) ?_ (by rw [e1, e2]; simp only [Int.cast_sub, Int.cast_mul, Int.cast_natCast, Int.cast_ofNat]; ring)
    simp only [e1, if_true]; ring
  · refine key (((n / 2 : ℕ) : ℤ) - ((q.1 : ℕ) : ℤ)) ?_ (by rw [e1, e2]; simp only [Int.cast_sub, Int.cast_mul, Int.cast_natCast, Int.cast_ofNat]; ring)
    simp only [e1, e2, if_true, zero_ne_one, if_false]; ring
  · refine key (((n / 2 : ℕ) : ℤ) - ((q.2 : ℕ) : ℤ)) ?_ (by rw [e1, e2]; simp only [Int.cast_sub, Int.cast_mul, Int.cast_natCast, Int.cast_ofNat]; ring)
    simp only [e1, e2]
    simp only [m1, m2, m3, if_true, if_false]; ring
  · refine key (((q.1 : ℕ) : ℤ) - ((n / 2 : ℕ) : ℤ)) ?_ (by rw [e1, e2]; simp only [Int.cast_sub, Int.cast_mul, Int.cast_natCast, Int.cast_ofNat]; ring)
    simp only [e1, e2]
    simp only [m1, m2, m3, if_true, if_false]; ring

/-- C230, partial: at right angles the back-projection is the adjoint of the forward projection, if the number of pixels is odd or the angles are 0 or 90 degrees.
(Missing: all other angles, and even numbers of pixels at 180 and 270 degrees, where it is not.) -/
theorem C230_right_angles_partial (angles : Fin na → ℝ) (h : ∀ k, RightAngle (angles k))
    (hn : Odd n ∨ ∀ k, 0 < Real.cos (angles k) + Real.sin (angles k)) : IsAdjoint (skFp (n := n) angles) (skBp angles) := by
  intro x p
  have hb : ∀ q, skBp angles p q = ∑ k, ∑ u : Fin n, if hitPixel n (angles k) q = ((u : ℕ) : ℤ) then p (k, u) else 0 := by
    intro q
    simp only [skBp]
    rw [mul_div_assoc, sum_mul]
    refine sum_congr rfl fun k _ => ?_
    rw [← mul_div_assoc]
    exact iradon_right _ (h k) q
  unfold dot
  simp only [hb, skFp]
  rw [Fintype.sum_prod_type]
  have e : ∀ k : Fin na, ∀ u : Fin n, skRadon x (angles k) u * p (k, u) =
      ∑ q, x q * if hitPixel n (angles k) q = ((u : ℕ) : ℤ) then p (k, u) else 0 := by
    intro k u
    rw [radon_right x (h k) (hn.imp id fun hk => hk k), sum_mul]
    refine sum_congr rfl fun q _ => ?_
    split_ifs <;> simp
  simp only [e, mul_sum]
  rw [sum_comm' (s := univ) (t := fun _ => univ) (t' := univ) (s' := fun _ => univ) (by simp)]
  have : ∀ u : Fin n, ∑ k : Fin na, ∑ q, (x q * if hitPixel n (angles k) q = ((u : ℕ) : ℤ) then p (k, u) else 0) =
      ∑ q, ∑ k : Fin na, (x q * if hitPixel n (angles k) q = ((u : ℕ) : ℤ) then p (k, u) else 0) := fun u => sum_comm
  simp only [this]
  rw [sum_comm]
  exact sum_congr rfl fun q _ => sum_comm

/-- Non-vacuity: four right angles, five by five pixels. -/
example : IsAdjoint (skFp (n := 5) fun k : Fin 4 => (k : ℕ) * (Real.pi / 2)) (skBp fun k : Fin 4 => (k : ℕ) * (Real.pi / 2)) := by
  refine C230_right_angles_partial _ (fun k => ?_) (Or.inl ⟨2, rfl⟩)
  fin_cases k
  · right; simp
  · left; simp
  · right
    show Real.sin (((2 : ℕ) : ℝ) * (Real.pi / 2)) = 0
    rw [show ((2 : ℕ) : ℝ) * (Real.pi / 2) = Real.pi by push_cast; ring, Real.sin_pi]
  · left
    show Real.cos (((3 : ℕ) : ℝ) * (Real.pi / 2)) = 0
    rw [show ((3 : ℕ) : ℝ) * (Real.pi / 2) = Real.pi / 2 + Real.pi by push_cast; ring, Real.cos_add_pi, Real.cos_pi_div_two, neg_zero]

/-! ## Other angles -/

theorem quarter : Real.cos (Real.pi / 4) = Real.sqrt 2 / 2 ∧ Real.sin (Real.pi / 4) = Real.sqrt 2 / 2 ∧ (0 : ℝ) < Real.sqrt 2 / 2 ∧ Real.sqrt 2 / 2 < 1 ∧
    (Real.sqrt 2 / 2) * (Real.sqrt 2 / 2) = 1 / 2 := by
  have h := Real.mul_self_sqrt (show (0 : ℝ) ≤ 2 by norm_num)
  have h0 := Real.sqrt_pos.2 (show (0 : ℝ) < 2 by norm_num)
  refine ⟨Real.cos_pi_div_four, Real.sin_pi_div_four, by positivity, by nlinarith, by linarith⟩

theorem hat_in {t : ℝ} (h : |t| ≤ 1) : hat t = 1 - |t| := max_eq_right (by linarith)
theorem hat_out {t : ℝ} (h : 1 ≤ |t|) : hat t = 0 := max_eq_left (by linarith)

/-- C230 fails at 45 degrees, also for odd numbers of pixels. -/
theorem C230_oblique_violated : ¬ ∀ (n na : ℕ) (angles : Fin na → ℝ), Odd n → IsAdjoint (skFp (n := n) angles) (skBp angles) := by
  intro H
  have h := H 3 1 (fun _ => Real.pi / 4) ⟨1, rfl⟩ (fun q => if q = (0, 0) then 1 else 0) (fun q => if q = (0, 1) then 1 else 0)
  obtain ⟨hc, hs, h0, h1, h2⟩ := quarter
  have hbil : ∀ r c : ℝ, bilinear (fun q : Fin 3 × Fin 3 => if q = (0, 0) then (1 : ℝ) else 0) r c = hat r * hat c := by
    intro r c
    unfold bilinear
    rw [← Fintype.sum_prod_type (f := fun q : Fin 3 × Fin 3 => hat (r - ((q.1 : ℕ) : ℝ)) * hat (c - ((q.2 : ℕ) : ℝ)) * if (q.1, q.2) = (0, 0) then (1 : ℝ) else 0),
      Fintype.sum_eq_single ((0, 0) : Fin 3 × Fin 3) (fun q hq => by rw [if_neg hq, mul_zero])]
    simp
  have hfp : skFp (fun _ : Fin 1 => Real.pi / 4) (fun q : Fin 3 × Fin 3 => if q = (0, 0) then (1 : ℝ) else 0) (0, 1) = 1 / 2 := by
    simp only [skFp, skRadon, hbil, hc, hs]
    generalize Real.sqrt 2 / 2 = s at *
    rw [Fin.sum_univ_three]
    have v0 : ((0 : Fin 3) : ℕ) = 0 := rfl
    have v1 : ((1 : Fin 3) : ℕ) = 1 := rfl
    have v2 : ((2 : Fin 3) : ℕ) = 2 := rfl
    rw [v0, v1, v2]
    norm_num
    rw [show -s + 1 = 1 - s by ring, show s - (s + s - 1) = 1 - s by ring, hat_in (t := 1 - s) (by rw [abs_of_nonneg] <;> linarith),
      abs_of_nonneg (by linarith : 0 ≤ 1 - s), hat_out (t := 1) (by simp), hat_out (t := -s + s * 2 + 1) (by rw [abs_of_nonneg] <;> linarith)]
    linarith
  have hbp : skBp (fun _ : Fin 1 => Real.pi / 4) (fun q : Fin 1 × Fin 3 => if q = (0, 1) then (1 : ℝ) else 0) (0, 0) = 1 := by
    have hpi := Real.pi_pos.ne'
    simp only [skBp, skIradon, hc, hs, univ_unique, sum_singleton]
    rw [skInterp_int _ 0 (by simp)]
    rw [Fin.sum_univ_three]
    have v0 : ((0 : Fin 3) : ℕ) = 0 := rfl
    have v1 : ((1 : Fin 3) : ℕ) = 1 := rfl
    have v2 : ((2 : Fin 3) : ℕ) = 2 := rfl
    rw [v0, v1, v2]
    norm_num
  unfold dot at h
  rw [Fintype.sum_eq_single ((0, 1) : Fin 1 × Fin 3) (fun q hq => by dsimp only; rw [if_neg hq, mul_zero]),
    Fintype.sum_eq_single ((0, 0) : Fin 3 × Fin 3) (fun q hq => by dsimp only; rw [if_neg hq, zero_mul]), hfp, hbp] at h
  norm_num at h

/-- C230 fails at 180 degrees for even numbers of pixels: the first row is never projected. -/
theorem C230_even_violated : ¬ ∀ (n na : ℕ) (angles : Fin na → ℝ), (∀ k, RightAngle (angles k)) → IsAdjoint (skFp (n := n) angles) (skBp angles) := by
  intro H
  have h := H 2 1 (fun _ => Real.pi) (fun _ => Or.inr Real.sin_pi) (fun q => if q = (0, 1) then 1 else 0) (fun q => 1)
  have hfp : ∀ q, skFp (fun _ : Fin 1 => Real.pi) (fun q : Fin 2 × Fin 2 => if q = (0, 1) then (1 : ℝ) else 0) q = 0 := by
    rintro ⟨k, c⟩
    simp only [skFp, skRadon, Real.cos_pi, Real.sin_pi]
    refine sum_eq_zero fun r _ => ?_
    rw [bilinear_int _ (2 - ((r : ℕ) : ℤ)) (2 - ((c : ℕ) : ℤ)) (by norm_num; ring) (by norm_num; ring)]
    refine sum_eq_zero fun q _ => ?_
    by_cases hq : q = (0, 1)
    · subst hq
      refine if_neg fun hh => ?_
      have := r.isLt
      have h1 := hh.1
      simp only [Fin.val_zero] at h1
      omega
    · simp [hq]
  have hbp : skBp (fun _ : Fin 1 => Real.pi) (fun _ : Fin 1 × Fin 2 => (1 : ℝ)) ((0, 1) : Fin 2 × Fin 2) = 1 := by
    have hpi := Real.pi_pos.ne'
    simp only [skBp, skIradon, Real.cos_pi, Real.sin_pi, univ_unique, sum_singleton]
    rw [skInterp_int _ 0 (by simp)]
    rw [Fin.sum_univ_two]
    norm_num
  unfold dot at h
  simp only [hfp, zero_mul, sum_const_zero] at h
  rw [Fintype.sum_eq_single ((0, 1) : Fin 2 × Fin 2) (fun q hq => by rw [if_neg hq, zero_mul]), if_pos rfl, hbp] at h
  norm_num at h

/-! ## C231: totals -/

/-- C231, partial: at right angles, with an odd number of pixels, the total of the projection is that of the volume. (Missing: other angles and even numbers of pixels,
where it is not.) -/
theorem C231_right_angles_partial (hn : Odd n) (x : Arr (Fin n × Fin n)) {θ : ℝ} (h : RightAngle θ) : ∑ c, skRadon x θ c = ∑ q, x q := by
  simp only [radon_right x h (Or.inl hn)]
  rw [sum_comm]
  refine sum_congr rfl fun q _ => ?_
  have hz : 0 ≤ hitPixel n θ q ∧ hitPixel n θ q < n := by
    have h1 := q.1.isLt
    have h2 := q.2.isLt
    obtain ⟨k, rfl⟩ := hn
    unfold hitPixel
    split_ifs <;> omega
  have := sum_hit (n := n) (hitPixel n θ q) True (x q) (fun _ => hz)
  simp only [and_true, if_true] at this
  refine Eq.trans ?_ this
  exact sum_congr rfl fun c _ => if_congr eq_comm rfl rfl

/-- C231 fails at 45 degrees: a volume of one voxel with the value 1, in the centre, is projected to a total of `7 - 4 * sqrt 2`, which is above 1.34. -/
theorem C231_oblique_violated : ¬ ∀ (n : ℕ) (x : Arr (Fin n × Fin n)) (θ : ℝ), Odd n → (∀ q, x q ≠ 0 → q = (⟨n / 2, by
    have := q.1.isLt; omega⟩, ⟨n / 2, by have := q.1.isLt; omega⟩)) → ∑ c, skRadon x θ c = ∑ q, x q := by
  intro H
  have h := H 3 (fun q => if q = (1, 1) then 1 else 0) (Real.pi / 4) ⟨1, rfl⟩ (fun q hq => by
    by_contra hne
    exact hq (if_neg hne))
  obtain ⟨hc, hs, h0, h1, h2⟩ := quarter
  have hbil : ∀ r c : ℝ, bilinear (fun q : Fin 3 × Fin 3 => if q = (1, 1) then (1 : ℝ) else 0) r c = hat (r - 1) * hat (c - 1) := by
    intro r c
    unfold bilinear
    rw [← Fintype.sum_prod_type (f := fun q : Fin 3 × Fin 3 => hat (r - ((q.1 : ℕ) : ℝ)) * hat (c - ((q.2 : ℕ) : ℝ)) * if (q.1, q.2) = (1, 1) then (1 : ℝ) else 0),
      Fintype.sum_eq_single ((1, 1) : Fin 3 × Fin 3) (fun q hq => by rw [if_neg hq, mul_zero])]
    simp
  have hnn : ∀ t, 0 ≤ hat t := fun t => le_max_left _ _
  simp only [skRadon, hbil, hc, hs] at h
  rw [Fintype.sum_eq_single ((1, 1) : Fin 3 × Fin 3) (fun q hq => if_neg hq), if_pos rfl] at h
  generalize Real.sqrt 2 / 2 = s at *
  have v0 : ((0 : Fin 3) : ℕ) = 0 := rfl
  have v1 : ((1 : Fin 3) : ℕ) = 1 := rfl
  have v2 : ((2 : Fin 3) : ℕ) = 2 := rfl
  have p0 : hat 0 = 1 := by simp [hat]
  have ps : hat s = 1 - s := by rw [hat_in (by rw [abs_of_nonneg] <;> linarith), abs_of_nonneg h0.le]
  have ns : hat (-s) = 1 - s := by rw [hat_in (by rw [abs_neg, abs_of_nonneg] <;> linarith), abs_neg, abs_of_nonneg h0.le]
  have e : ∀ c r : ℝ, hat (-s * c + s * r - ((3 / 2 : ℕ) : ℝ) * (s - s - 1) - 1) * hat (s * c + s * r - ((3 / 2 : ℕ) : ℝ) * (s + s - 1) - 1) =
      hat (s * (r - c)) * hat (s * (c + r - 2)) := by
    intro c r
    have : ((3 / 2 : ℕ) : ℝ) = 1 := by norm_num
    rw [this]
    congr 2 <;> ring
  simp only [e, Fin.sum_univ_three, v0, v1, v2, Nat.cast_zero, Nat.cast_one, Nat.cast_ofNat] at h
  have a1 : s * (0 - 0 : ℝ) = 0 := by ring
  have a2 : s * (1 - 1 : ℝ) = 0 := by ring
  have a3 : s * (2 - 2 : ℝ) = 0 := by ring
  have a4 : s * (1 - 0 : ℝ) = s := by ring
  have a5 : s * (2 - 1 : ℝ) = s := by ring
  have a6 : s * (0 - 1 : ℝ) = -s := by ring
  have a7 : s * (1 - 2 : ℝ) = -s := by ring
  have b1 : s * (0 + 1 - 2 : ℝ) = -s := by ring
  have b2 : s * (1 + 0 - 2 : ℝ) = -s := by ring
  have b3 : s * (1 + 1 - 2 : ℝ) = 0 := by ring
  have b4 : s * (1 + 2 - 2 : ℝ) = s := by ring
  have b5 : s * (2 + 1 - 2 : ℝ) = s := by ring
  rw [a1, a2, a3, a4, a5, a6, a7, b1, b2, b3, b4, b5, p0, ps, ns] at h
  have q : 0 < (1 - s) * (1 - s) := mul_pos (by linarith) (by linarith)
  have r1 := hnn (s * (0 + 0 - 2))
  have r2 := mul_nonneg (hnn (s * (2 - 0))) (hnn (s * (0 + 2 - 2)))
  have r3 := mul_nonneg (hnn (s * (0 - 2))) (hnn (s * (2 + 0 - 2)))
  have r4 := hnn (s * (2 + 2 - 2))
  linarith

/-! ## C232: shapes -/

/-- C232, partial: square volumes with voxels of size one are projected and back-projected. (Missing: rectangular volumes and other voxels, where the calls raise.) -/
theorem C232_square_partial (n : ℕ) : skFpRuns n n 1 ∧ skBpRuns n n := by
  refine ⟨Or.inl ?_, Or.inl rfl⟩
  simp [skDetPixels]

/-- C232, exactly: with unit voxels both calls succeed for square volumes and for those with a single column, and for no others. -/
theorem C232_exactly_partial (nx ny : ℕ) (hx : 0 < nx) (hy : 0 < ny) : skFpRuns nx ny 1 ∧ skBpRuns nx ny ↔ nx = ny ∨ ny = 1 := by
  have e : skDetPixels ny 1 = ny := by simp [skDetPixels]
  unfold skFpRuns skBpRuns fits
  rw [e]
  omega

/-- C232 fails for rectangular volumes, and for voxels of another size. -/
theorem C232_shapes_violated : (¬ ∀ nx ny : ℕ, skFpRuns nx ny 1) ∧ (¬ ∀ nx ny : ℕ, skFpRuns nx ny 1 → skBpRuns nx ny) ∧
    (¬ ∀ (n : ℕ) (vox : ℝ), 0 < vox → skFpRuns n n vox) := by
  refine ⟨fun H => ?_, fun H => ?_, fun H => ?_⟩
  · have := H 2 3
    norm_num [skFpRuns, skDetPixels, fits] at this
    exact absurd this (by decide)
  · have := H 3 2 (Or.inl (by simp [skDetPixels]))
    norm_num [skBpRuns, fits] at this
  · have := H 3 2 (by norm_num)
    have e : ⌊(((3 : ℕ) : ℝ) * 2)⌋ = 6 := by norm_num [Int.floor_eq_iff]
    simp only [skFpRuns, skDetPixels, fits, e] at this
    exact absurd this (by decide)

/-! ## C233: all angles and single angles -/

/-- C233, partial: for floating-point volumes and projections, the projections of all the angles are those of the single angles, and the back-projection is the sum of the
back-projections of the single angles. (Missing: integers, where they are not.) -/
theorem C233_float_partial (angles : Fin na → ℝ) (x : Arr (Fin n × Fin n)) (p : Arr (Fin na × Fin n)) :
    (∀ k u, skFpTyped .float angles x (k, u) = skFpOneTyped .float angles x k u) ∧
    (∀ q, skBpTyped .float angles p q = ∑ k, skBpOne angles (fun u => p (k, u)) k q) ∧
    skFpTyped .float angles x = skFp angles x ∧ skBpTyped .float angles p = skBp angles p := by
  refine ⟨fun k u => rfl, fun q => ?_, rfl, rfl⟩
  simp only [skBpTyped, skBpOne, ArrType.store, sum_mul, sum_div]

/-- C233 fails for volumes of integers: the projections of all the angles are truncated, and both are divided by the largest integer; and for projections of
integers. -/
theorem C233_integer_violated (most : ℕ) (hm : 1 < most) :
    (¬ ∀ (n na : ℕ) (angles : Fin na → ℝ) (x : Arr (Fin n × Fin n)), (∀ q, ∃ z : ℕ, z ≤ most ∧ x q = z) →
      ∀ k u, skFpTyped (.integer most) angles x (k, u) = skFpOneTyped (.integer most) angles x k u) ∧
    (¬ ∀ (n na : ℕ) (angles : Fin na → ℝ) (x : Arr (Fin n × Fin n)), (∀ q, ∃ z : ℕ, z ≤ most ∧ x q = z) →
      ∀ k u, skFpOneTyped (.integer most) angles x k u = skFpOne angles x k u) ∧
    (¬ ∀ (n na : ℕ) (angles : Fin na → ℝ) (p : Arr (Fin na × Fin n)), (∀ q, ∃ z : ℕ, z ≤ most ∧ p q = z) →
      ∀ q, skBpTyped (.integer most) angles p q = ∑ k, skBpOne angles (fun u => p (k, u)) k q) := by
  have hm' : (1 : ℝ) < most := by exact_mod_cast hm
  have key : ∀ v : ℝ, skRadon (n := 1) (fun _ => v) 0 0 = v := by
    intro v
    simp [skRadon, bilinear, hat]
  have key2 : ∀ v : ℝ, skIradon (n := 1) (fun _ => v) 0 (0, 0) = v * (Real.pi / 2) := by
    intro v
    simp [skIradon, skInterp, hat]
  refine ⟨fun H => ?_, fun H => ?_, fun H => ?_⟩
  · have h := H 1 1 (fun _ => 0) (fun _ => 1) (fun _ => ⟨1, hm.le, by simp⟩) 0 0
    simp only [skFpTyped, skFpOneTyped, skFpOne, key, ArrType.toFloat, ArrType.store] at h
    have h0 : (0 : ℝ) < 1 / most := by positivity
    have h1 : (1 : ℝ) / most < 1 := by rw [div_lt_one (by linarith)]; exact hm'
    rw [ConeBeam.trunc, if_pos h0.le, show ⌊(1 : ℝ) / most⌋ = 0 by rw [Int.floor_eq_iff]; constructor <;> push_cast <;> linarith] at h
    push_cast at h
    linarith
  · have h := H 1 1 (fun _ => 0) (fun _ => 1) (fun _ => ⟨1, hm.le, by simp⟩) 0 0
    simp only [skFpOneTyped, skFpOne, key, ArrType.toFloat] at h
    rw [div_eq_one_iff_eq (by linarith)] at h
    linarith
  · have h := H 1 1 (fun _ => 0) (fun _ => 1) (fun _ => ⟨1, hm.le, by simp⟩) (0, 0)
    simp only [skBpTyped, skBpOne, univ_unique, sum_singleton, ArrType.store, key2] at h
    have p3 := Real.pi_gt_three
    have p4 := Real.pi_le_four
    rw [ConeBeam.trunc, if_pos (by positivity), one_mul] at h
    have e : (⌊Real.pi / 2⌋ : ℝ) = 1 := by
      have : ⌊Real.pi / 2⌋ = 1 := by
        rw [Int.floor_eq_iff]
        constructor
        · push_cast; linarith
        · have hp4 := Real.pi_lt_d2
          push_cast; norm_num; linarith
      exact_mod_cast this
    rw [e] at h
    field_simp at h
    linarith

end Verif
