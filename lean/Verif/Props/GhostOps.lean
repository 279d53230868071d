import Verif.Model.GhostMasks
import Verif.Props.MaskShifts
import Verif.Props.Ghost

/-!
# C197 - C202: mask collections, pencil beams, shapes, absolute values and direct reconstruction of ghost imaging
-/

namespace Verif
open Finset

/-! ## C197: pencil beams -/

/-- The mask of a shift, on the pixels of a field of view. -/
def Spec.onFov {v u : ℕ} (mask : ℕ × ℕ → ℕ × ℕ → ℝ) (s : ℕ × ℕ) (x : Fin v × Fin u) : ℝ := mask s (x.1, x.2)

private theorem point_bucket {v u : ℕ} (t : ℝ) (img : Fin v × Fin u → ℝ) (a : Fin v) (b : Fin u) :
    ∑ x, img x * Spec.onFov (pointMask t) ((a : ℕ), (b : ℕ)) x = (1 - t) * ∑ x, img x + t * img (a, b) := by
  have h : ∀ x : Fin v × Fin u, img x * Spec.onFov (pointMask t) ((a : ℕ), (b : ℕ)) x =
      (1 - t) * img x + if x = (a, b) then t * img x else 0 := by
    intro x
    unfold Spec.onFov pointMask applyTransmission
    by_cases hx : x = (a, b)
    · subst hx; simp only [if_true]; ring
    · have : ¬ ((x.1 : ℕ), (x.2 : ℕ)) = ((a : ℕ), (b : ℕ)) := by
        intro h
        apply hx
        simp only [Prod.mk.injEq] at h
        exact Prod.ext (Fin.ext h.1) (Fin.ext h.2)
      rw [if_neg this, if_neg hx]; ring
  rw [sum_congr rfl fun x _ => h x, sum_add_distrib, ← mul_sum, sum_ite_eq' univ (a, b) (fun x => t * img x)]
  simp

/-- **C197.** A scan with a pencil beam: each bucket is the share `t` of the pixel of its shift, plus the share `1 - t` of the sum of the image
(nothing for the default `t = 1`), for any list of shifts inside the field of view. The back-projection of the buckets of a full scan, with
`t = 1`, is the image. -/
theorem C197_pencil_beam {v u : ℕ} (t : ℝ) (img : Fin v × Fin u → ℝ) :
    (∀ l : List (ℕ × ℕ), (∀ s ∈ l, s.1 < v ∧ s.2 < u) →
      ∀ i (hi : i < l.length) (a : Fin v) (b : Fin u), l[i] = ((a : ℕ), (b : ℕ)) →
        (ghostFpList l (Spec.onFov (pointMask t)) img)[i]? = some ((1 - t) * ∑ x, img x + t * img (a, b))) ∧
    (∀ l, sequentialShifts [v, u] none = some l →
      ghostBpList l (Spec.onFov (pointMask 1)) (ghostFpList l (Spec.onFov (pointMask 1)) img) = img) := by
  constructor
  · intro l _ i hi a b hab
    unfold ghostFpList
    rw [List.getElem?_map, List.getElem?_eq_getElem hi, Option.map_some, hab, point_bucket]
  · intro l hl
    obtain ⟨l', h1, h2, h3, h4, h5⟩ := C57_sequential_shifts v u none
    rw [hl, Option.some.injEq] at h1
    subst h1
    funext x
    unfold ghostBpList ghostFpList
    have hzip : ∀ l : List (ℕ × ℕ), List.zipWith (fun c s => c * Spec.onFov (pointMask 1) s x)
        (l.map fun s => ∑ x, img x * Spec.onFov (pointMask 1) s x) l =
        l.map fun s => (∑ x, img x * Spec.onFov (pointMask 1) s x) * Spec.onFov (pointMask 1) s x := by
      intro l
      induction l with
      | nil => rfl
      | cons s l ih => simp only [List.map_cons, List.zipWith_cons_cons, ih]
    rw [hzip]
    have hmem : ((x.1 : ℕ), (x.2 : ℕ)) ∈ l := by
      have hu : 0 < u := by have := x.2.2; omega
      have hlt : (x.1 : ℕ) * u + x.2 < l.length := by
        rw [h2]
        simp only [Option.getD_none, min_self]
        have h7 := x.1.2
        have h8 := x.2.2
        have : ((x.1 : ℕ) + 1) * u ≤ v * u := Nat.mul_le_mul_right u h7
        nlinarith
      have := h5 _ hlt
      rw [show ((x.1 : ℕ) * u + x.2) / u = x.1 by
        rw [mul_comm, Nat.mul_add_div hu, Nat.div_eq_of_lt x.2.2, add_zero],
        show ((x.1 : ℕ) * u + x.2) % u = x.2 by
        rw [mul_comm, Nat.mul_add_mod, Nat.mod_eq_of_lt x.2.2]] at this
      rw [← this]
      exact List.getElem_mem _
    have hval : ∀ s ∈ l, (∑ y, img y * Spec.onFov (pointMask 1) s y) * Spec.onFov (pointMask 1) s x =
        if s = ((x.1 : ℕ), (x.2 : ℕ)) then img x else 0 := by
      intro s hs
      split_ifs with h
      · subst h
        rw [point_bucket 1 img x.1 x.2]
        simp [Spec.onFov, pointMask, applyTransmission]
      · have : Spec.onFov (pointMask 1) s x = 0 := by
          unfold Spec.onFov pointMask applyTransmission
          rw [if_neg (fun h' => h h'.symm)]; ring
        rw [this, mul_zero]
    rw [List.map_congr_left hval]
    clear h2 h4 h5 hval hzip hl
    induction l with
    | nil => simp at hmem
    | cons s l ih =>
      rw [List.map_cons, List.sum_cons]
      rw [List.nodup_cons] at h3
      rcases List.mem_cons.1 hmem with h | h
      · subst h
        rw [if_pos rfl]
        have : (l.map fun s => if s = ((x.1 : ℕ), (x.2 : ℕ)) then img x else 0).sum = 0 := by
          apply List.sum_eq_zero
          intro y hy
          obtain ⟨s, hs, rfl⟩ := List.mem_map.1 hy
          rw [if_neg]
          rintro rfl
          exact h3.1 hs
        rw [this, add_zero]
      · rw [ih h3.2 h, if_neg, zero_add]
        rintro rfl
        exact h3.1 h

example : ∃ l, sequentialShifts [3, 2] none = some l ∧ l.length = 6 := ⟨_, rfl, rfl⟩

/-! ## C198: collections -/

/-- **C198.** Arrays are accepted exactly if the masks are stacked along one or more axes and there are no decoding masks, or decoding masks of
the same shape; then the field of view and the axes of the stack are the parts of the shape, and the number of buckets times the number of
pixels is the number of values. -/
theorem C198_accepts (dims : ℕ) (enc : List ℕ) (dec : Option (List ℕ)) :
    (collectionAccepts dims enc dec ↔
      (∃ stack fov : List ℕ, stack ≠ [] ∧ fov.length = dims ∧ enc = stack ++ fov) ∧ ∀ s, dec = some s → s = enc) ∧
    (∀ stack fov : List ℕ, fov.length = dims → enc = stack ++ fov →
      shapeFov dims enc = fov ∧ shapeShifts dims enc = stack ∧ numBuckets dims enc * numPixels dims enc = enc.prod ∧
      maskSupport dims enc none = fov) := by
  constructor
  · unfold collectionAccepts
    constructor
    · rintro ⟨h1, h2⟩
      refine ⟨⟨enc.take (enc.length - dims), enc.drop (enc.length - dims), ?_, by simp; omega, by simp⟩, ?_⟩
      · intro h
        have := congrArg List.length h
        simp at this
        omega
      · rintro s rfl
        obtain ⟨-, h3, h4⟩ := h2
        have e1 := List.take_append_drop (enc.length - dims) enc
        have e2 := List.take_append_drop (s.length - dims) s
        rw [← e2, ← h3, ← h4, e1]
    · rintro ⟨⟨stack, fov, h1, h2, rfl⟩, h3⟩
      have hs : 0 < stack.length := List.length_pos_iff.2 h1
      refine ⟨by simp; omega, ?_⟩
      cases dec with
      | none => trivial
      | some s =>
        obtain rfl := h3 s rfl
        exact ⟨by simp; omega, rfl, rfl⟩
  · rintro stack fov h1 rfl
    have e : (stack ++ fov).length - dims = stack.length := by simp; omega
    have hf : shapeFov dims (stack ++ fov) = fov := by unfold shapeFov; rw [e]; simp
    have hs : shapeShifts dims (stack ++ fov) = stack := by unfold shapeShifts; rw [e]; simp
    refine ⟨hf, hs, ?_, by unfold maskSupport; rw [hf]; rfl⟩
    unfold numBuckets numPixels
    rw [hf, hs, List.prod_append]

example : collectionAccepts 2 [100, 8, 9] (some [100, 8, 9]) ∧ ¬ collectionAccepts 2 [8, 9] none := by
  constructor
  · simp [collectionAccepts]
  · simp [collectionAccepts]

/-- **C198, violated.** The support of the masks is not kept consistent: after binning it is still that of the masks before. -/
theorem C198_binned_support_violated :
    ¬ ∀ (enc : List ℕ) (b : ℕ), 0 < b →
      let c : CollShape := ⟨2, enc, maskSupport 2 enc none⟩
      (c.bin b).support = shapeFov 2 (c.bin b).enc := by
  intro h
  have := h [5, 8, 8] 2 (by norm_num)
  revert this
  decide

/-- **C198, proved part for binning**: the stack keeps its axes and the field of view is divided; the support is the old one. -/
theorem C198_binned_partial (stack : List ℕ) (v u b : ℕ) :
    let c : CollShape := ⟨2, stack ++ [v, u], maskSupport 2 (stack ++ [v, u]) none⟩
    shapeShifts 2 (c.bin b).enc = stack ∧ shapeFov 2 (c.bin b).enc = [v / b, u / b] ∧ (c.bin b).support = [v, u] := by
  intro c
  have e : (c.bin b).enc = stack ++ [v / b, u / b] := by
    unfold CollShape.bin
    simp [c]
  have hc := (C198_accepts 2 (c.bin b).enc none).2 stack [v / b, u / b] rfl e
  exact ⟨hc.2.1, hc.1, ((C198_accepts 2 (stack ++ [v, u]) none).2 stack [v, u] rfl rfl).2.2.2⟩

/-! ## C135: more masks than pixels -/

/-- **C135, violated.** With more masks than pixels there is no decomposition: the triangular factor is not square and its inversion fails. -/
theorem C135_more_masks_violated :
    (¬ ∀ k p : ℕ, 0 < k → 0 < p → (qrShapes k p).isSome) ∧ (∀ k p : ℕ, p < k → qrShapes k p = none) := by
  have h : ∀ k p : ℕ, p < k → qrShapes k p = none := by
    intro k p hk
    unfold qrShapes
    simp only
    rw [if_neg (by omega)]
  refine ⟨fun h' => ?_, h⟩
  have := h' 2 1 (by norm_num) (by norm_num)
  rw [h 2 1 (by norm_num)] at this
  simp at this

/-- **C135, shapes**: with at most as many masks as pixels there are as many new masks and new buckets as before. -/
theorem C135_shapes_partial (k p : ℕ) (h : k ≤ p) : qrShapes k p = some ((k, p), (k, k)) := by
  unfold qrShapes
  simp only
  rw [Nat.min_eq_right h, if_pos rfl]

/-! ## C199: shapes of the operators -/

/-- **C199, violated.** As a linear operator, the projector of masks with one axis does not take vectors of the size of an image; the ghost
tomography projector does not take vectors of the size of the volume. -/
theorem C199_operator_shapes_violated :
    (∀ m n : ℕ, 2 ≤ m → 1 ≤ n → matvecInput (ghostOpShape 1 [m, n]) n = none) ∧
    (∀ (m v u z y x : ℕ) (tomo : OpShape), tomo.dir = [z, y, x] → z * y * x ≠ v * u →
      matvecInput (ghostTomoOpShape 2 [m, v, u] tomo) tomo.dir.prod = none) := by
  constructor
  · intro m n hm hn
    unfold matvecInput ghostOpShape
    simp only [List.length_cons, List.length_nil]
    rw [if_neg]
    simp
    intro h
    have : 2 * n ≤ m * n := Nat.mul_le_mul_right n hm
    omega
  · intro m v u z y x tomo h1 h2
    unfold matvecInput ghostTomoOpShape ghostOpShape
    rw [if_neg]
    rw [h1]
    simp only [List.length_cons, List.length_nil]
    simp
    intro h
    apply h2
    rw [← h, mul_assoc]

example : (3 * 4 * 4 : ℕ) ≠ 3 * 6 := by norm_num

/-- **C199, proved part.** For masks with two axes, a vector of the size of the image takes the shape of the image, no other vector is taken,
and there is one bucket for each mask. Missing: masks with another number of axes, ghost tomography. -/
theorem C199_operator_shapes_partial (stack : List ℕ) (v u len : ℕ) :
    (matvecInput (ghostOpShape 2 (stack ++ [v, u])) len = if len = v * u then some [v, u] else none) ∧
    (ghostOpShape 2 (stack ++ [v, u])).adj = [stack.prod] := by
  have e : (stack ++ [v, u]).length - 2 = stack.length := by simp
  constructor
  · unfold matvecInput ghostOpShape
    simp only [e, List.drop_left']
    simp
  · unfold ghostOpShape numBuckets
    rw [((C198_accepts 2 (stack ++ [v, u]) none).2 stack [v, u] rfl rfl).2.1]

/-! ## C200: absolute values -/

/-- **C200.** The absolute projector is the projector with the absolute value of each coefficient: its answers to unit images and unit buckets
are the absolute values of the answers of the projector; it bounds the projector; it is the projector itself for non-negative masks; and with
one kind of masks its back-projection is the adjoint of its projection. -/
theorem C200_absolute {M X : Type} [Fintype M] [Fintype X] [DecidableEq M] [DecidableEq X] (p : (M → X → ℝ) × (M → X → ℝ)) :
    let q := ghostAbsolute p
    (∀ m x, ghostFp q.1 (Pi.single x 1) m = |ghostFp p.1 (Pi.single x 1) m| ∧
      ghostBp q.2 (Pi.single m 1) x = |ghostBp p.2 (Pi.single m 1) x|) ∧
    (∀ img m, |ghostFp p.1 img m| ≤ ghostFp q.1 (fun x => |img x|) m) ∧
    (∀ b x, |ghostBp p.2 b x| ≤ ghostBp q.2 (fun m => |b m|) x) ∧
    ((∀ m x, 0 ≤ p.1 m x ∧ 0 ≤ p.2 m x) → q = p) ∧
    (p.1 = p.2 → ∀ img b, ∑ m, ghostFp q.1 img m * b m = ∑ x, img x * ghostBp q.2 b x) := by
  intro q
  refine ⟨fun m x => ⟨?_, ?_⟩, fun img m => ?_, fun b x => ?_, fun h => ?_, fun h img b => ?_⟩
  · simp [q, ghostAbsolute, ghostFp, Pi.single_apply]
  · simp [q, ghostAbsolute, ghostBp, Pi.single_apply]
  · unfold ghostFp
    refine (abs_sum_le_sum_abs _ _).trans (sum_le_sum fun x _ => ?_)
    rw [abs_mul]; rfl
  · unfold ghostBp
    refine (abs_sum_le_sum_abs _ _).trans (sum_le_sum fun m _ => ?_)
    rw [abs_mul]; rfl
  · refine Prod.ext ?_ ?_ <;> funext m x
    · exact abs_of_nonneg (h m x).1
    · exact abs_of_nonneg (h m x).2
  · have : q.1 = q.2 := by simp only [q, ghostAbsolute, h]
    rw [this]
    exact C134_ghost_adjoint_partial q.2 img b

example : (∀ m x : Fin 2, (0 : ℝ) ≤ ((fun m x : Fin 2 => if m = x then (1 : ℝ) else 0), fun m x : Fin 2 => if m = x then (1 : ℝ) else 0).1 m x) := by
  intro m x; simp only; split_ifs <;> norm_num

/-! ## C138: stacks of buckets -/

/-- **C138, violated.** The direct reconstruction does not take stacks of buckets that the back-projection takes. -/
theorem C138_stack_violated (m w : ℕ) (fov : List ℕ) (hm : 2 ≤ m) (hf : 0 < fov.prod) :
    ghostBpShape m fov [w, m] = some (w :: fov) ∧ ghostLstsqShape m fov [w, m] = none ∧ ghostLstsqShape m fov [m] = some fov := by
  refine ⟨by simp [ghostBpShape], ?_, by simp [ghostLstsqShape]⟩
  unfold ghostLstsqShape
  simp only
  rw [if_neg]
  rintro ⟨-, h⟩
  have : fov.prod * 2 ≤ fov.prod * m := Nat.mul_le_mul_left _ hm
  omega

/-! ## C201: direct reconstruction of ghost tomography -/

/-- Specification: the image of smallest squared differences to the buckets. -/
def IsLeastSquares {V U M : Type} [Fintype V] [Fintype U] [Fintype M] (enc : M → V → U → ℝ) (lstsq : (M → ℝ) → V → U → ℝ) : Prop :=
  ∀ (b : M → ℝ) (y : V → U → ℝ), ∑ m, ((∑ v, ∑ u, lstsq b v u * enc m v u) - b m) ^ 2 ≤ ∑ m, ((∑ v, ∑ u, y v u * enc m v u) - b m) ^ 2

/-- **C201, violated.** On the Python versions 3.10 and 3.11, which the package supports, the reconstruction always fails; with a single angle
it fails on all versions, as the buckets of the only angle are taken for angles. -/
theorem C201_ghost_fbp_violated :
    (∀ {V W U M R : Type} (lstsq : (M → ℝ) → V → U → ℝ) (solver : (V → W → U → ℝ) → R) (b : W → M → ℝ),
      ghostTomoFbp false lstsq solver b = none) ∧
    (∀ m v u : ℕ, 2 ≤ m → 2 ≤ v → 2 ≤ u → ghostTomoFpShape m v 1 u = some [m] ∧ ghostLstsqShape m [v, u] [] = none ∧
      ∀ a, a ≠ m → ghostLstsqShape m [v, u] [a] = none) := by
  refine ⟨fun _ _ _ => rfl, fun m v u hm hv hu => ⟨?_, rfl, fun a ha => by simp [ghostLstsqShape, ha]⟩⟩
  have h1 : ¬ m = 1 := by omega
  have h2 : ¬ v = 1 := by omega
  have h3 : ¬ u = 1 := by omega
  simp [ghostTomoFpShape, swapSqueeze, squeezeShape, ghostFpShape, List.filter, h1, h2, h3]

/-- **C201, proved part.** On later versions and with masks that distinguish all the images, the direct reconstruction of the buckets of a
volume is the filtered back-projection of the projections of that volume. Missing: the versions and the single angle above. -/
theorem C201_ghost_fbp_partial {J V W U M R : Type} [Fintype V] [Fintype U] [Fintype M] (T : (J → ℝ) → V → W → U → ℝ) (enc : M → V → U → ℝ)
    (lstsq : (M → ℝ) → V → U → ℝ) (solver : (V → W → U → ℝ) → R) (vol : J → ℝ) (hl : IsLeastSquares enc lstsq)
    (hinj : ∀ y y' : V → U → ℝ, (∀ m, ∑ v, ∑ u, y v u * enc m v u = ∑ v, ∑ u, y' v u * enc m v u) → y = y') :
    ghostTomoFbp true lstsq solver (ghostTomoFp T enc vol) = some (solver (T vol)) := by
  unfold ghostTomoFbp
  rw [if_pos rfl]
  congr 2
  funext v w u
  have h := hl (ghostTomoFp T enc vol w) (fun v u => T vol v w u)
  have h0 : ∑ m, ((∑ v, ∑ u, T vol v w u * enc m v u) - ghostTomoFp T enc vol w m) ^ 2 = 0 := by
    refine sum_eq_zero fun m _ => ?_
    unfold ghostTomoFp
    simp
  rw [h0] at h
  have hz := (sum_eq_zero_iff_of_nonneg (fun m _ => sq_nonneg _)).1 (le_antisymm h (sum_nonneg fun m _ => sq_nonneg _))
  have := hinj (lstsq (ghostTomoFp T enc vol w)) (fun v u => T vol v w u) (fun m => by
    have h2 := hz m (mem_univ m)
    have h3 := sub_eq_zero.1 (pow_eq_zero_iff two_ne_zero |>.1 h2)
    rw [h3]; rfl)
  rw [this]

/-- Masks with one open pixel each distinguish all the images, and the buckets are the least squares solution. -/
example : IsLeastSquares (V := Fin 1) (U := Fin 2) (M := Fin 2) (fun m _ u => if m = u then 1 else 0) (fun b _ u => b u) := by
  intro b y
  have : ∑ m : Fin 2, ((∑ v : Fin 1, ∑ u : Fin 2, b u * (if m = u then (1 : ℝ) else 0)) - b m) ^ 2 = 0 := by
    simp
  rw [this]
  exact sum_nonneg fun m _ => sq_nonneg _

/-! ## C202: random masks -/

/-- **C202, violated.** The values of half-Gaussian masks are not between the transmission of the closed mask and one. -/
theorem C202_half_gaussian_violated :
    ¬ ∀ (t : ℝ) (z : ℕ × ℕ → ℝ) (x : ℕ × ℕ), 0 ≤ t → t ≤ 1 → halfGaussianMask t z x ≤ 1 := by
  intro h
  have := h 1 (fun _ => 2) (0, 0) (by norm_num) (by norm_num)
  norm_num [halfGaussianMask, applyTransmission] at this

/-- **C202, proved part.** Bernoulli masks have the values one (open) and `1 - t` (closed); half-Gaussian masks are at least `1 - t`, and at most
one exactly where the number that was drawn is at most one in absolute value. -/
theorem C202_random_masks_partial (t : ℝ) (ht : 0 < t) (x : ℕ × ℕ) :
    (∀ coin, bernoulliMask t coin x = if coin x then 1 else 1 - t) ∧
    (∀ z, 1 - t ≤ halfGaussianMask t z x ∧ (halfGaussianMask t z x ≤ 1 ↔ |z x| ≤ 1)) := by
  constructor
  · intro coin
    unfold bernoulliMask applyTransmission
    split_ifs <;> ring
  · intro z
    unfold halfGaussianMask applyTransmission
    have h0 := abs_nonneg (z x)
    refine ⟨by nlinarith, ⟨fun h => ?_, fun h => ?_⟩⟩
    · by_contra hc
      push Not at hc
      nlinarith
    · nlinarith

/-- **C202, the number of masks**: as the random masks allow for more shifts than pixels (ratio at least one), every fraction up to one gives
the fraction of the pixels, rounded up, for sequential and random shifts. -/
theorem C202_number_partial (v u : ℕ) (ratio fraction : ℝ) (t : ShiftType) (hr : 1 ≤ ratio) (h1 : fraction ≤ 1) (hi : t ≠ .interval)
    (ht : t.valid (randomMaskShifts [v, u] ratio).prod) :
    ∃ l, collectionShifts [v, u] (randomMaskShifts [v, u] ratio) fraction t = some l ∧ l.length = ⌈((v * u : ℕ) : ℝ) * fraction⌉₊ := by
  have e : randomMaskShifts [v, u] ratio = [⌈(v : ℝ) * ratio⌉₊, ⌈(u : ℝ) * ratio⌉₊] := rfl
  rw [e] at ht ⊢
  have hp : [⌈(v : ℝ) * ratio⌉₊, ⌈(u : ℝ) * ratio⌉₊].prod = ⌈(v : ℝ) * ratio⌉₊ * ⌈(u : ℝ) * ratio⌉₊ := by simp
  rw [hp] at ht
  obtain ⟨l, h2, h3, -⟩ := C131_buckets_fraction_partial [v, u] _ _ fraction t ht hi
  refine ⟨l, h2, ?_⟩
  rw [h3]
  have hp2 : [v, u].prod = v * u := by simp
  rw [hp2]
  apply Nat.min_eq_left
  have hk : ∀ k : ℕ, k ≤ ⌈(k : ℝ) * ratio⌉₊ := by
    intro k
    have : (k : ℝ) ≤ k * ratio := by nlinarith [Nat.cast_nonneg (α := ℝ) k]
    exact_mod_cast this.trans (Nat.le_ceil _)
  refine le_trans ?_ (Nat.mul_le_mul (hk v) (hk u))
  apply Nat.ceil_le.2
  have : (0 : ℝ) ≤ ((v * u : ℕ) : ℝ) := Nat.cast_nonneg _
  nlinarith

example : (1 : ℝ) ≤ 6 / 5 ∧ (ShiftType.sequential).valid 42 := ⟨by norm_num, fun p hp => by cases hp⟩

end Verif
