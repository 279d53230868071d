import Mathlib.LinearAlgebra.Matrix.NonsingularInverse
import Mathlib.LinearAlgebra.Matrix.ToLin
import Verif.Props.Phase
import Verif.Model.StructIllum

/-!
# Ghost imaging and ghost tomography: C134 - C140
-/

namespace Verif

open Finset

/-! ## C134 -/

/-- **C134, violated.** The back-projection is not the adjoint of the forward projection: the MURA masks decode with other masks. -/
theorem C134_ghost_adjoint_violated :
    ¬ ∀ (n : ℕ) [NeZero n] (img : ZMod n × ZMod n → ℝ) (b : Fin n × Fin n → ℝ),
      ∑ m : Fin n × Fin n, ghostFp (fun (m : Fin n × Fin n) (x : ZMod n × ZMod n) => muraShifted 1 true (m.1, m.2) x.1 x.2) img m * b m =
        ∑ x, img x * ghostBp (fun (m : Fin n × Fin n) (x : ZMod n × ZMod n) => muraShifted 1 false (m.1, m.2) x.1 x.2) b x := by
  intro h
  have := h 5 (Pi.single (0, 0) 1) (Pi.single (0, 0) 1)
  simp only [ghostFp, ghostBp, Pi.single_apply, ite_mul, mul_ite, one_mul, zero_mul, mul_one, mul_zero, sum_ite_eq', mem_univ, if_true] at this
  simp [muraShifted, muraEnc, muraDec, applyTransmission] at this

/-- **C134, partial.** With the same masks for encoding and decoding it is. Missing: different decoding masks. -/
theorem C134_ghost_adjoint_partial {M X : Type} [Fintype M] [Fintype X] (masks : M → X → ℝ) (img : X → ℝ) (b : M → ℝ) :
    ∑ m, ghostFp masks img m * b m = ∑ x, img x * ghostBp masks b x := by
  unfold ghostFp ghostBp
  simp only [sum_mul, mul_sum]
  rw [sum_comm]
  exact sum_congr rfl fun x _ => sum_congr rfl fun m _ => by ring

example : ∑ m : Fin 2, ghostFp (fun m x : Fin 2 => if m ≤ x then (1 : ℝ) else 0) (fun x => x + 1) m * (m + 1) = 7 := by
  simp [ghostFp, Fin.sum_univ_two]; norm_num

/-! ## C135 -/

open Matrix in
/-- **C135.** Linearly independent masks (the rows of `A`), and any decomposition `Aᵀ = Q R` with `Qᵀ Q = 1`: `R` can be inverted; the new
buckets of data that an image explains are the values that the new masks `Qᵀ` give for this image; and the back-projection of the new buckets
with the new masks explains all the buckets, also those of noisy data. -/
theorem C135_qr_buckets {m : ℕ} {X : Type} [Fintype X] [DecidableEq X] (A : Matrix (Fin m) X ℝ) (Q : Matrix X (Fin m) ℝ)
    (R : Matrix (Fin m) (Fin m) ℝ) (hA : ∀ c, c ᵥ* A = 0 → c = 0) (hqr : Aᵀ = Q * R) (hQ : Qᵀ * Q = 1) :
    IsUnit Rᵀ ∧ (∀ img, qrBuckets R (A *ᵥ img) = Qᵀ *ᵥ img) ∧ ∀ b, A *ᵥ (Q *ᵥ qrBuckets R b) = b := by
  have hR : IsUnit R := by
    rw [← Matrix.mulVec_injective_iff_isUnit]
    refine (injective_iff_map_eq_zero (R.mulVecLin)).2 ?_
    intro c hc
    apply hA
    rw [← Matrix.mulVec_transpose, hqr, ← Matrix.mulVec_mulVec]
    have : R *ᵥ c = 0 := hc
    rw [this, Matrix.mulVec_zero]
  have hRt : IsUnit Rᵀ := (Matrix.isUnit_transpose R).2 hR
  have hAq : A = Rᵀ * Qᵀ := by
    rw [← Matrix.transpose_mul, ← hqr, Matrix.transpose_transpose]
  have hdet : IsUnit (Rᵀ).det := (Matrix.isUnit_iff_isUnit_det _).1 hRt
  refine ⟨hRt, ?_, ?_⟩
  · intro img
    unfold qrBuckets
    rw [hAq, Matrix.mulVec_mulVec, ← Matrix.mul_assoc, Matrix.nonsing_inv_mul _ hdet, Matrix.one_mul]
  · intro b
    unfold qrBuckets
    rw [Matrix.mulVec_mulVec, Matrix.mulVec_mulVec, hAq, Matrix.mul_assoc Rᵀ, hQ, Matrix.mul_one,
      Matrix.mul_nonsing_inv _ hdet, Matrix.one_mulVec]

open Matrix in
/-- Two masks, `(3, 4)` and `(4, -3)`, with `R = 5`. -/
example : (!![(3 : ℝ), 4; 4, -3])ᵀ = !![(3 : ℝ) / 5, 4 / 5; 4 / 5, -3 / 5] * !![5, 0; 0, 5] ∧
    (!![(3 : ℝ) / 5, 4 / 5; 4 / 5, -3 / 5])ᵀ * !![(3 : ℝ) / 5, 4 / 5; 4 / 5, -3 / 5] = 1 := by
  constructor
  · ext i j; fin_cases i <;> fin_cases j <;> norm_num [Matrix.mul_apply, Fin.sum_univ_two]
  · ext i j; fin_cases i <;> fin_cases j <;> norm_num [Matrix.mul_apply, Fin.sum_univ_two]

/-! ## C136 -/

/-- Pairs of masks and buckets, for each row of buckets. -/
def maskPairs {α β : Type} (r : List α × List (List β)) : List (List (α × β)) := r.2.map fun row => r.1.zip row

/-- **C136, violated.** With more than one row of buckets the buckets of the rows are mixed: a mask gets the bucket of another mask. -/
theorem C136_reorder_pairs_violated :
    ¬ ∀ (masks : List ℕ) (rows : List (List ℕ)) (shift : ℤ), (∀ row ∈ rows, row.length = masks.length) →
      List.Forall₂ List.Perm (maskPairs (reorderMasks masks rows shift)) (maskPairs (masks, rows)) := by
  intro h
  have := h [0, 1] [[10, 11], [20, 21]] 1 (by decide)
  have e : maskPairs (reorderMasks [0, 1] [[10, 11], [20, 21]] 1) = [[(1, 11), (0, 20)], [(1, 21), (0, 10)]] := by decide
  rw [e] at this
  revert this
  decide

/-- **C136, partial.** With one row each mask keeps its bucket, and the order is that of the rotation by `shift`. Missing: more rows. -/
theorem C136_reorder_pairs_partial {α β : Type} (masks : List α) (row : List β) (shift : ℤ) (h : row.length = masks.length) :
    maskPairs (reorderMasks masks [row] shift) = [rollLeft (masks.zip row) shift] ∧
    List.Forall₂ List.Perm (maskPairs (reorderMasks masks [row] shift)) (maskPairs (masks, [row])) := by
  have e : maskPairs (reorderMasks masks [row] shift) = [rollLeft (masks.zip row) shift] := by
    have h1 : (rollLeft row shift).take masks.length = rollLeft row shift := by
      rw [List.take_of_length_le]
      simp [rollLeft, h]
    simp only [maskPairs, reorderMasks, List.length_singleton, List.range_one, List.map_cons, List.map_nil, List.flatten_cons, List.flatten_nil,
      List.append_nil, Nat.zero_mul, List.drop_zero, h1]
    congr 1
    unfold rollLeft
    rw [List.length_zip, h, Nat.min_self]
    exact (List.zipWith_rotate_distrib _ _ _ _ h.symm).symm
  refine ⟨e, ?_⟩
  rw [e]
  exact List.Forall₂.cons (List.rotate_perm _ _) List.Forall₂.nil

example : reorderMasks [1, 2, 3] [[10, 20, 30]] (-1) = ([3, 1, 2], [[30, 10, 20]]) := by decide

/-! ## C137 -/

/-- **C137.** The mean of the image stays, and the deviation from the mean is divided by the ratio of the buckets to the pixels. -/
theorem C137_adjust_sampling {m n : ℕ} [NeZero m] [NeZero n] (buckets : ℕ) (img : ZMod m → ZMod n → ℝ) (a : ZMod m) (b : ZMod n) :
    let mean : ℝ := (∑ i, ∑ j, img i j) / (m * n : ℕ)
    adjustSampling buckets img a b = mean + (img a b - mean) / ((buckets : ℝ) / (m * n : ℕ)) := by
  intro mean
  have hN : (0 : ℝ) < ((m * n : ℕ) : ℝ) := by
    have := Nat.mul_pos (NeZero.pos m) (NeZero.pos n)
    exact_mod_cast this
  have hm : (m : ℂ) ≠ 0 := by exact_mod_cast NeZero.ne m
  have hn : (n : ℂ) ≠ 0 := by exact_mod_cast NeZero.ne n
  set N : ℝ := ((m * n : ℕ) : ℝ) with hNdef
  set r : ℝ := 1 / ((buckets : ℝ) / N) with hr
  have hsq : ((Real.sqrt N : ℝ) : ℂ) * (Real.sqrt N : ℝ) = (m : ℂ) * n := by
    rw [← Complex.ofReal_mul, Real.mul_self_sqrt hN.le, hNdef]; push_cast; ring
  have hs0 : ((Real.sqrt N : ℝ) : ℂ) ≠ 0 := by
    intro h; rw [h] at hsq; simp [hm, hn] at hsq
  have hinv := fft2_inverse img a b
  have hsum : ∑ k : ZMod m, ∑ l : ZMod n, fft2 img k l * (ZMod.stdAddChar (k * a) * ZMod.stdAddChar (l * b)) = (img a b : ℂ) * (m * n) := by
    rw [← hinv, sum_comm]
    have hd : ∀ S : ℂ, S / n * (m * n) = S * m := by intro S; field_simp
    rw [hd, sum_mul]
    refine sum_congr rfl fun l _ => ?_
    have hd2 : ∀ S e : ℂ, S / m * e * m = S * e := by intro S e; field_simp
    rw [hd2, sum_mul]
    exact sum_congr rfl fun k _ => by ring
  have h00 : fft2 img 0 0 = ((∑ i, ∑ j, img i j : ℝ) : ℂ) := by
    simp [fft2]
  have hterm : ∀ (k : ZMod m) (l : ZMod n), fft2 img k l / ((Real.sqrt N : ℝ) : ℂ) * ((if k = 0 ∧ l = 0 then 1 else r : ℝ) : ℂ) *
      (ZMod.stdAddChar (k * a) * ZMod.stdAddChar (l * b)) =
      (r : ℂ) / (Real.sqrt N : ℝ) * (fft2 img k l * (ZMod.stdAddChar (k * a) * ZMod.stdAddChar (l * b))) +
      (if k = 0 then (if l = 0 then (1 - r : ℂ) / (Real.sqrt N : ℝ) * fft2 img k l * (ZMod.stdAddChar (k * a) * ZMod.stdAddChar (l * b)) else 0) else 0) := by
    intro k l
    by_cases hk : k = 0
    · by_cases hl : l = 0
      · rw [if_pos ⟨hk, hl⟩, if_pos hk, if_pos hl]; push_cast; ring
      · rw [if_neg (fun h => hl h.2), if_pos hk, if_neg hl]; ring
    · rw [if_neg (fun h => hk h.1), if_neg hk]; ring
  unfold adjustSampling
  simp only [← hNdef, ← hr]
  simp only [hterm, sum_add_distrib, ← mul_sum, hsum]
  have hz : ∑ k : ZMod m, ∑ l : ZMod n, (if k = 0 then (if l = 0 then (1 - r : ℂ) / (Real.sqrt N : ℝ) * fft2 img k l *
      (ZMod.stdAddChar (k * a) * ZMod.stdAddChar (l * b)) else 0) else 0) = (1 - r : ℂ) / (Real.sqrt N : ℝ) * fft2 img 0 0 := by
    rw [sum_eq_single 0]
    · rw [sum_eq_single 0]
      · simp
      · intro l _ hl; simp [hl]
      · simp
    · intro k _ hk; simp [hk]
    · simp
  rw [hz, h00]
  have hfin : ((r : ℂ) / (Real.sqrt N : ℝ) * ((img a b : ℂ) * (m * n)) + (1 - r : ℂ) / (Real.sqrt N : ℝ) * ((∑ i, ∑ j, img i j : ℝ) : ℂ)) /
      ((Real.sqrt N : ℝ) : ℂ) = ((r * img a b + (1 - r) * mean : ℝ) : ℂ) := by
    have hmean : ((∑ i, ∑ j, img i j : ℝ) : ℂ) = (mean : ℂ) * (m * n) := by
      have : (∑ i, ∑ j, img i j) = mean * N := by simp only [mean]; rw [div_mul_cancel₀ _ hN.ne']
      rw [this, hNdef]; push_cast; ring
    rw [hmean, div_eq_iff hs0]
    have hs2 : (m : ℂ) * n / ((Real.sqrt N : ℝ) : ℂ) = (Real.sqrt N : ℝ) := by
      rw [div_eq_iff hs0, hsq]
    calc _ = ((r : ℂ) * img a b + (1 - r) * mean) * ((m : ℂ) * n / ((Real.sqrt N : ℝ) : ℂ)) := by ring
      _ = _ := by rw [hs2]; push_cast; ring
  rw [hfin, Complex.ofReal_re]
  have : ∀ x : ℝ, x / ((buckets : ℝ) / N) = r * x := by intro x; rw [hr]; ring
  rw [this]; ring

/-! ## C138 -/

/-- **C138.** The least-squares reconstruction of the buckets of an image is the image, when no two images have the same buckets; otherwise it
is an image with the same buckets. -/
theorem C138_least_squares {M X : Type} [Fintype M] [Fintype X] (enc : M → X → ℝ) (img rec : X → ℝ)
    (hmin : ∀ y : X → ℝ, ∑ m, (ghostFp enc rec m - ghostFp enc img m) ^ 2 ≤ ∑ m, (ghostFp enc y m - ghostFp enc img m) ^ 2) :
    ghostFp enc rec = ghostFp enc img ∧ (Function.Injective (ghostFp enc) → rec = img) := by
  have h0 := hmin img
  simp only [sub_self, ne_eq, OfNat.ofNat_ne_zero, not_false_eq_true, zero_pow, sum_const_zero] at h0
  have hz := (sum_eq_zero_iff_of_nonneg (fun m _ => sq_nonneg (ghostFp enc rec m - ghostFp enc img m))).1
    (le_antisymm h0 (sum_nonneg fun m _ => sq_nonneg _))
  have he : ghostFp enc rec = ghostFp enc img := by
    funext m
    have := hz m (mem_univ m)
    exact sub_eq_zero.1 (pow_eq_zero_iff (two_ne_zero) |>.1 this)
  exact ⟨he, fun hi => hi he⟩

/-- **C138, violated.** `use_lstsq=False` does not always give the cross-correlation: with one kind of masks the least squares are used. -/
theorem C138_use_lstsq_violated : ¬ ∀ same useLstsq : Bool, ghostFbpUsesBp same useLstsq = !useLstsq := by decide

/-- **C138, partial.** With different decoding masks the argument decides. -/
theorem C138_use_lstsq_partial (useLstsq : Bool) : ghostFbpUsesBp false useLstsq = !useLstsq := by cases useLstsq <;> rfl

/-! ## C139 -/

/-- **C139, violated.** The projections that the back-projection of ghost tomography hands on do not always have the shape of the projector: for
one angle an axis is lost. -/
theorem C139_ghost_tomo_shape_violated :
    ¬ ∀ m v w u : ℕ, 1 ≤ m → 1 ≤ v → 1 ≤ w → 1 ≤ u →
      ghostTomoFpShape m v w u = some [w, m] ∧ ghostTomoBpShape m v w u = some [v, w, u] := by
  intro h
  have := (h 3 4 1 4 (by norm_num) (by norm_num) (by norm_num) (by norm_num)).2
  revert this; decide

/-- **C139, violated.** With one mask there is an error. -/
theorem C139_one_mask_violated (v w u : ℕ) (hv : 2 ≤ v) (hw : 2 ≤ w) (hu : 2 ≤ u) : ghostTomoBpShape 1 v w u = none := by
  have h1 : v ≠ 1 := by omega
  have h2 : w ≠ 1 := by omega
  have h3 : u ≠ 1 := by omega
  simp [ghostTomoBpShape, ghostTomoFpShape, swapSqueeze, squeezeShape, ghostFpShape, ghostBpShape, h1, h2, h3]

/-- **C139, partial.** For more than one mask, angle, row and column the shapes are right. -/
theorem C139_ghost_tomo_shape_partial (m v w u : ℕ) (hm : 2 ≤ m) (hv : 2 ≤ v) (hw : 2 ≤ w) (hu : 2 ≤ u) :
    ghostTomoFpShape m v w u = some [w, m] ∧ ghostTomoBpShape m v w u = some [v, w, u] := by
  have h0 : m ≠ 1 := by omega
  have h1 : v ≠ 1 := by omega
  have h2 : w ≠ 1 := by omega
  have h3 : u ≠ 1 := by omega
  simp [ghostTomoBpShape, ghostTomoFpShape, swapSqueeze, squeezeShape, ghostFpShape, ghostBpShape, h0, h1, h2, h3]

/-- **C139.** On the values: with one kind of masks and a tomographic projector that has its adjoint, the back-projection of ghost tomography is the
adjoint of its forward projection. -/
theorem C139_ghost_tomo_adjoint {J V W U M : Type} [Fintype J] [Fintype V] [Fintype W] [Fintype U] [Fintype M]
    (T : (J → ℝ) → V → W → U → ℝ) (Tt : (V → W → U → ℝ) → J → ℝ)
    (hT : ∀ x y, ∑ v, ∑ w, ∑ u, T x v w u * y v w u = ∑ j, x j * Tt y j)
    (masks : M → V → U → ℝ) (vol : J → ℝ) (b : W → M → ℝ) :
    ∑ w, ∑ m, ghostTomoFp T masks vol w m * b w m = ∑ j, vol j * ghostTomoBp Tt masks b j := by
  unfold ghostTomoFp ghostTomoBp
  rw [← hT]
  simp only [sum_mul, mul_sum]
  calc ∑ w, ∑ m, ∑ v, ∑ u, T vol v w u * masks m v u * b w m = ∑ w, ∑ v, ∑ m, ∑ u, T vol v w u * masks m v u * b w m :=
        sum_congr rfl fun w _ => sum_comm
    _ = ∑ v, ∑ w, ∑ m, ∑ u, T vol v w u * masks m v u * b w m := sum_comm
    _ = ∑ v, ∑ w, ∑ u, ∑ m, T vol v w u * masks m v u * b w m := sum_congr rfl fun v _ => sum_congr rfl fun w _ => sum_comm
    _ = _ := sum_congr rfl fun v _ => sum_congr rfl fun w _ => sum_congr rfl fun u _ => sum_congr rfl fun m _ => by ring

/-- Projectors with their adjoint: all the matrices. -/
example (a : Fin 2 → Fin 3 → Fin 4 → Fin 5 → ℝ) (x : Fin 5 → ℝ) (y : Fin 2 → Fin 3 → Fin 4 → ℝ) :
    ∑ v, ∑ w, ∑ u, (∑ j, a v w u j * x j) * y v w u = ∑ j, x j * ∑ v, ∑ w, ∑ u, a v w u j * y v w u := by
  simp only [sum_mul, mul_sum]
  symm
  rw [sum_comm]
  refine sum_congr rfl fun v _ => ?_
  rw [sum_comm]
  refine sum_congr rfl fun w _ => ?_
  rw [sum_comm]
  exact sum_congr rfl fun u _ => sum_congr rfl fun j _ => by ring

/-! ## C140 -/

/-- **C140, violated.** Projections whose shape does not match the masks are not refused with the `ValueError` announced, but with an
`AttributeError`: the message needs an attribute that is not yet there. -/
theorem C140_ghost_init_violated :
    ¬ ∀ fov dir : List ℕ, 2 ≤ dir.length → dir.take (dir.length - 2) ++ dir.drop (dir.length - 1) ≠ fov → ghostTomoInit fov dir = .valueError := by
  intro h
  have := h [4] [3, 5] (by decide) (by decide)
  revert this; decide

/-- **C140, partial.** They are refused, and matching ones are accepted. -/
theorem C140_ghost_init_partial (fov dir : List ℕ) :
    ghostTomoInit fov dir = .ok ↔ dir.take (dir.length - 2) ++ dir.drop (dir.length - 1) = fov := by
  unfold ghostTomoInit
  simp only
  split_ifs with h
  · simp only [reduceCtorEq, false_iff]
    rcases h with h | h
    · intro hc; exact h (by rw [hc])
    · exact h
  · push Not at h
    simp [h.2]

example : ghostTomoInit [6, 7] [6, 10, 7] = .ok := by decide

end Verif
