import Verif.Lemmas.DecimatedWavelets
import Verif.Props.StationaryWavelets

/-! # Properties of the decimated wavelet transform and of the primal proximal of its regularizer -/

namespace Verif
open Classical Finset

variable {L : ℕ} {κ : Type} [Fintype κ] [DecidableEq κ] {m : ℕ}

/-- Inner product of images of the shape `n`. -/
noncomputable def imgDot (n : κ → ℕ) (x y : Img κ) : ℝ := ∑ p ∈ box n, x p * y p

/-- Inner product of two sets of coefficients. -/
noncomputable def coeffDot (mode : DwtMode) (L : ℕ) {level : ℕ} (axes : Fin m → κ) (n : κ → ℕ) (u v : Band m level → Img κ) : ℝ :=
  ∑ b, imgDot (dwtBandShape mode L axes n b) (u b) (v b)

/-! ## Round trip -/

/-- Whatever the mode, the shape, the axes and the number of levels: transforming back gives the image, for all reconstructing filter banks. -/
theorem C226_round_trip {w : FilterBank L} (h : DecimatedReconstruction w) (mode : DwtMode) (level : ℕ) (axes : Fin m → κ) (n : κ → ℕ) (x : Img κ) :
    ∀ p ∈ box n, dwtOpT w mode level axes n (dwtOp w mode level axes n x) p = x p := by
  unfold dwtOpT
  refine dall_reconstruct h mode axes n _ x level fun i hi l hl => ?_
  funext p
  rw [dif_pos ⟨hi, hl⟩]
  rfl

/-- All orthogonal wavelets (whose filters have even length) are such filter banks. -/
theorem C226_orthogonal {w : FilterBank L} (h : OrthogonalWavelet w) (hL : Even L) (mode : DwtMode) (level : ℕ) (axes : Fin m → κ) (n : κ → ℕ) (x : Img κ) :
    ∀ p ∈ box n, dwtOpT w mode level axes n (dwtOp w mode level axes n x) p = x p :=
  C226_round_trip (h.reconstructsDecimated hL) mode level axes n x

/-- Haar, five by three pixels, default mode of the regularizer. -/
example (x : Img (Fin 2)) : ∀ p ∈ box ![5, 3], dwtOpT haarBank .constant 2 ![0, 1] ![5, 3] (dwtOp haarBank .constant 2 ![0, 1] ![5, 3] x) p = x p :=
  C226_orthogonal haar_orthogonal ⟨1, rfl⟩ _ _ _ _ _

/-! ## Adjoint -/

/-- C226, the extensions of rows of `N` entries: zeros, the border value, the mirror image with and without the border, the periodic continuation. -/
theorem C226_extension (N : ℕ) (i : ℤ) (h0 : 0 ≤ i) (hi : i < N) :
    (∀ mode, extPos mode N i = some i) ∧
    (extPos .zero N (-1 - i) = none ∧ extPos .zero N (N + i) = none) ∧
    (extPos .constant N (-1 - i) = some 0 ∧ extPos .constant N (N + i) = some ((N : ℤ) - 1)) ∧
    (extPos .symmetric N (-1 - i) = some i ∧ extPos .symmetric N (N + i) = some ((N : ℤ) - 1 - i)) ∧
    (1 < N → extPos .reflect N (-i) = some i ∧ extPos .reflect N ((N : ℤ) - 1 + i) = some ((N : ℤ) - 1 - i)) ∧
    (extPos .periodic N (i - N) = some i ∧ extPos .periodic N (i + N) = some i) ∧
    (Even N → extPos .periodization N (i - N) = some i ∧ extPos .periodization N (i + N) = some i) := by
  have r0 : i % (N : ℤ) = i := Int.emod_eq_of_lt h0 hi
  have r1 : i % (2 * (N : ℤ)) = i := Int.emod_eq_of_lt h0 (by omega)
  refine ⟨fun mode => ?_, ⟨?_, ?_⟩, ⟨?_, ?_⟩, ⟨?_, ?_⟩, fun hN => ⟨?_, ?_⟩, ⟨?_, ?_⟩, fun hN => ⟨?_, ?_⟩⟩
  · cases mode
    · simp [extPos, h0, hi]
    · simp only [extPos, Option.some.injEq]; omega
    · simp only [extPos, r1, if_pos hi]
    · simp only [extPos, r0]
    · simp only [extPos, Option.some.injEq]
      by_cases h1 : i < 2 * (N : ℤ) - 2
      · rw [Int.emod_eq_of_lt h0 h1, if_pos hi]
      · obtain rfl : N = 1 := by omega
        obtain rfl : i = 0 := by omega
        simp
    · simp only [extPos, evenUp, Option.some.injEq]
      rw [Int.emod_eq_of_lt h0 (by omega)]
      omega
  · simp only [extPos]; rw [if_neg (by omega)]
  · simp only [extPos]; rw [if_neg (by omega)]
  · simp only [extPos, Option.some.injEq]; omega
  · simp only [extPos, Option.some.injEq]; omega
  · have : (-1 - i) % (2 * (N : ℤ)) = 2 * N - 1 - i := by
      rw [← Int.add_mul_emod_self_left (-1 - i) (2 * (N : ℤ)) 1]
      rw [Int.emod_eq_of_lt (by omega) (by omega)]
      ring
    simp only [extPos, this, Option.some.injEq]
    rw [if_neg (by omega)]
    ring
  · have : ((N : ℤ) + i) % (2 * (N : ℤ)) = N + i := Int.emod_eq_of_lt (by omega) (by omega)
    simp only [extPos, this, Option.some.injEq]
    rw [if_neg (by omega)]
    ring
  · simp only [extPos, Option.some.injEq]
    by_cases hz : i = 0
    · subst hz
      simp
      omega
    · have : (-i) % (2 * (N : ℤ) - 2) = 2 * N - 2 - i := by
        rw [← Int.add_mul_emod_self_left (-i) (2 * (N : ℤ) - 2) 1]
        rw [Int.emod_eq_of_lt (by omega) (by omega)]
        ring
      rw [this]
      split_ifs <;> omega
  · simp only [extPos, Option.some.injEq]
    by_cases hz : i = N - 1
    · subst hz
      rw [show (N : ℤ) - 1 + (N - 1) = 2 * N - 2 by ring, Int.emod_self, if_pos (by omega)]
      ring
    · rw [Int.emod_eq_of_lt (by omega) (by omega)]
      split_ifs <;> omega
  · simp only [extPos, Option.some.injEq]; rw [Int.sub_emod_right, r0]
  · simp only [extPos, Option.some.injEq]; rw [Int.add_emod_right, r0]
  · have he : evenUp N = N := by unfold evenUp; obtain ⟨k, rfl⟩ := hN; omega
    simp only [extPos, he, Option.some.injEq]; rw [Int.sub_emod_right, r0]; omega
  · have he : evenUp N = N := by unfold evenUp; obtain ⟨k, rfl⟩ := hN; omega
    simp only [extPos, he, Option.some.injEq]; rw [Int.add_emod_right, r0]; omega

/-- C226, the coefficients of the Haar wavelet in every mode: scaled sums and differences of the pairs of neighbours. -/
theorem C226_haar_values (mode : DwtMode) (N : ℕ) (a : κ) (x : Img κ) (q : κ → ℤ) (h0 : 0 ≤ q a) (h1 : 2 * q a + 1 < N) :
    dwtAxis haarBank.decLo mode N a x q = (x (setAt q a (2 * q a)) + x (setAt q a (2 * q a + 1))) / Real.sqrt 2 ∧
    dwtAxis haarBank.decHi mode N a x q = (x (setAt q a (2 * q a)) - x (setAt q a (2 * q a + 1))) / Real.sqrt 2 := by
  have ho : dwtOff mode 2 = 1 := by unfold dwtOff; split_ifs <;> rfl
  have e0 : extPos mode N (2 * q a + 1 - ((0 : Fin 2) : ℕ)) = some (2 * q a + 1) := by
    rw [Fin.val_zero, Nat.cast_zero, sub_zero]
    exact (C226_extension N _ (by omega) h1).1 mode
  have e1 : extPos mode N (2 * q a + 1 - ((1 : Fin 2) : ℕ)) = some (2 * q a) := by
    rw [Fin.val_one, Nat.cast_one, add_sub_cancel_right]
    exact (C226_extension N _ (by omega) (by omega)).1 mode
  constructor
  · simp only [dwtAxis, Fin.sum_univ_two, ho, e0, e1]
    simp [haarBank]
    ring
  · simp only [dwtAxis, Fin.sum_univ_two, ho, e0, e1]
    simp [haarBank]
    ring

/-- Transposition, whenever every level transposes. -/
theorem dwt_transpose {w : FilterBank L} (h : OrthogonalWavelet w) (mode : DwtMode) (level : ℕ) (axes : Fin m → κ) (n : κ → ℕ)
    (ht : ∀ i < level, TransposesAlong mode L (List.ofFn axes) (levelShape mode L axes n i)) (x : Img κ) (y : Band m level → Img κ) :
    coeffDot mode L axes n (dwtOp w mode level axes n x) y = imgDot n x (dwtOpT w mode level axes n y) := by
  unfold imgDot dwtOpT
  rw [dall_transpose h mode axes n _ x level ht]
  unfold coeffDot imgDot
  rw [Fintype.sum_option, Fintype.sum_prod_type]
  congr 1
  rw [← Fin.sum_univ_eq_sum_range (fun i => ∑ l : {l : Fin m → Bool // l ≠ approxLabel m}, ∑ q ∈ box (levelShape mode L axes n (i + 1)),
    dbandDec w mode (lettered axes l) (levelShape mode L axes n i) (dwtApprox w mode axes n x i) q *
      (if h : i < level ∧ (l : Fin m → Bool) ≠ approxLabel m then y (some (⟨i, h.1⟩, ⟨l, h.2⟩)) q else 0)) level]
  refine sum_congr rfl fun i _ => sum_congr rfl fun l _ => sum_congr rfl fun q _ => ?_
  rw [dif_pos ⟨i.isLt, l.2⟩]
  rfl

/-- Mode "zero", for every shape: the transpose is the adjoint. What is missing: the other modes (except "periodization", next), for which it is not. -/
theorem C225_zero_partial {w : FilterBank L} (h : OrthogonalWavelet w) (level : ℕ) (axes : Fin m → κ) (n : κ → ℕ) (x : Img κ) (y : Band m level → Img κ) :
    coeffDot .zero L axes n (dwtOp w .zero level axes n x) y = imgDot n x (dwtOpT w .zero level axes n y) :=
  dwt_transpose h .zero level axes n (fun _ _ => zero_transposes _ _) x y

/-- Mode "periodization" with sizes divisible by `2 ** level`: the transpose is the adjoint. -/
theorem C225_periodization_partial {w : FilterBank L} (h : OrthogonalWavelet w) (level : ℕ) (axes : Fin m → κ) (hinj : Function.Injective axes) (n : κ → ℕ)
    (hn : ∀ i, 2 ^ level ∣ n (axes i)) (x : Img κ) (y : Band m level → Img κ) :
    coeffDot .periodization L axes n (dwtOp w .periodization level axes n x) y = imgDot n x (dwtOpT w .periodization level axes n y) :=
  dwt_transpose h .periodization level axes n (fun i hi => (levels_even L axes hinj n level hn i hi).transposes) x y

/-- In these cases the energy is kept. -/
theorem C225_energy_partial {w : FilterBank L} (h : OrthogonalWavelet w) (hL : Even L) (mode : DwtMode) (level : ℕ) (axes : Fin m → κ) (n : κ → ℕ)
    (hm : mode = .zero ∨ mode = .periodization ∧ Function.Injective axes ∧ ∀ i, 2 ^ level ∣ n (axes i)) (x : Img κ) :
    coeffDot mode L axes n (dwtOp w mode level axes n x) (dwtOp w mode level axes n x) = imgDot n x x := by
  have e : coeffDot mode L axes n (dwtOp w mode level axes n x) (dwtOp w mode level axes n x) =
      imgDot n x (dwtOpT w mode level axes n (dwtOp w mode level axes n x)) := by
    rcases hm with rfl | ⟨rfl, h1, h2⟩
    · exact C225_zero_partial h level axes n x _
    · exact C225_periodization_partial h level axes h1 n h2 x _
  rw [e]
  unfold imgDot
  exact sum_congr rfl fun p hp => by rw [C226_orthogonal h hL mode level axes n x p hp]

/-- Haar, two levels, eight by twelve pixels. -/
example (x : Img (Fin 2)) (y : Band 2 2 → Img (Fin 2)) :
    coeffDot .periodization 2 ![0, 1] ![8, 12] (dwtOp haarBank .periodization 2 ![0, 1] ![8, 12] x) y =
      imgDot ![8, 12] x (dwtOpT haarBank .periodization 2 ![0, 1] ![8, 12] y) :=
  C225_periodization_partial haar_orthogonal 2 ![0, 1] (by decide) ![8, 12] (by decide) x y

/-! ### The default mode of the regularizer: one pixel -/

theorem one_pixel_box : box (fun _ : Fin 1 => 1) = {fun _ => 0} := by
  ext p
  rw [mem_box, mem_singleton]
  constructor
  · intro h
    funext k
    have := h k
    omega
  · rintro rfl k
    simp

theorem one_set (q : Fin 1 → ℤ) (i : ℤ) : setAt q (0 : Fin 1) i = fun _ => i := by
  funext k
  simp [setAt, Subsingleton.elim k 0]

/-- The one axis. -/
def ax0 : Fin 1 → Fin 1 := fun _ => 0

theorem one_dec (f : Fin 2 → ℝ) (x : Img (Fin 1)) (q : Fin 1 → ℤ) : dwtAxis f .constant 1 0 x q = (f 0 + f 1) * x fun _ => 0 := by
  rw [dwtAxis_eq, Fin.sum_univ_two]
  have : ∀ i : ℤ, extRead .constant 1 (0 : Fin 1) x q i = x fun _ => 0 := by
    intro i
    simp only [extRead, extPos]
    rw [one_set]
    congr 1
    funext k
    push_cast
    omega
  rw [this, this]
  ring

theorem one_rec (f : Fin 2 → ℝ) (y : Img (Fin 1)) : idwtAxis f .constant 1 0 y (fun _ => 0) = f 0 * y fun _ => 0 := by
  have hl : dwtLen .constant 2 1 = 1 := by simp [dwtLen]
  simp only [idwtAxis, hl, sum_range_one, Fin.sum_univ_two, dwtHit, dwtOff, reduceCtorEq, if_false, one_set]
  simp [Fin.rev]

theorem one_approx (x : Img (Fin 1)) (q : Fin 1 → ℤ) :
    dwtOp haarBank .constant 1 ax0 (fun _ => 1) x none q = Real.sqrt 2 * x fun _ => 0 := by
  have : lettered ax0 (approxLabel 1) = [(0, false)] := by simp [lettered, ax0, approxLabel]
  simp only [dwtOp, dwtApprox, this, dbandDec, levelShape, one_dec, FilterBank.dec, haarBank]
  congr 1
  have h2 : Real.sqrt 2 ≠ 0 := by positivity
  have h3 : Real.sqrt 2 * Real.sqrt 2 = 2 := Real.mul_self_sqrt (by norm_num)
  field_simp
  linarith

theorem one_label (l : Fin 1 → Bool) (hl : l ≠ approxLabel 1) : lettered ax0 l = [(0, true)] := by
  have : l 0 = true := by
    by_contra h
    apply hl
    funext k
    rw [Subsingleton.elim k 0]
    simpa [approxLabel] using h
  simp [lettered, ax0, this]

theorem one_detail (x : Img (Fin 1)) (q : Fin 1 → ℤ) (c) : dwtOp haarBank .constant 1 ax0 (fun _ => 1) x (some c) q = 0 := by
  obtain ⟨i, l⟩ := c
  obtain rfl : i = 0 := Subsingleton.elim _ _
  simp only [dwtOp, one_label l.1 l.2, dbandDec]
  show dwtAxis _ _ 1 0 _ q = 0
  rw [one_dec]
  simp [FilterBank.dec, haarBank]

theorem one_back (y : Band 1 1 → Img (Fin 1)) (hy : ∀ c q, y (some c) q = 0) :
    dwtOpT haarBank .constant 1 ax0 (fun _ => 1) y (fun _ => 0) = 1 / Real.sqrt 2 * y none fun _ => 0 := by
  simp only [dwtOpT, idwtFrom]
  rw [Fintype.sum_eq_single (approxLabel 1)]
  · have : lettered ax0 (approxLabel 1) = [(0, false)] := by simp [lettered, ax0, approxLabel]
    rw [if_pos rfl, this]
    simp only [dbandRec, levelShape, one_rec, FilterBank.recon, haarBank]
  · intro l hl
    rw [if_neg hl, one_label l hl]
    simp only [dbandRec, levelShape, one_rec]
    rw [dif_pos ⟨by norm_num, hl⟩, hy, mul_zero]

theorem one_coeffDot (u v : Band 1 1 → Img (Fin 1)) (hu : ∀ c q, u (some c) q = 0) :
    coeffDot .constant 2 ax0 (fun _ => 1) u v = u none (fun _ => 0) * v none fun _ => 0 := by
  have hs : levelShape .constant 2 ax0 (fun _ => 1) 1 = fun _ => 1 := by
    funext k
    simp [levelShape, bandShape, decShape, dwtLen, ax0, Subsingleton.elim k 0]
  unfold coeffDot imgDot
  rw [Fintype.sum_option, sum_eq_zero (s := univ) (f := fun c => ∑ p ∈ box (dwtBandShape .constant 2 ax0 (fun _ => 1) (some c)), u (some c) p * v (some c) p)]
  · simp only [dwtBandShape, hs]
    rw [one_pixel_box, sum_singleton, add_zero]
  · intro c _
    exact sum_eq_zero fun q _ => by rw [hu, zero_mul]

/-- With the default mode of the regularizer ("constant"), the transpose is not the adjoint. -/
theorem C225_constant_violated :
    ¬ ∀ (L : ℕ) (w : FilterBank L), OrthogonalWavelet w → Even L → ∀ (level m : ℕ) (axes : Fin m → Fin 1) (n : Fin 1 → ℕ) (x : Img (Fin 1)) (y : Band m level → Img (Fin 1)),
      coeffDot .constant L axes n (dwtOp w .constant level axes n x) y = imgDot n x (dwtOpT w .constant level axes n y) := by
  intro H
  have h := H 2 haarBank haar_orthogonal ⟨1, rfl⟩ 1 1 ax0 (fun _ => 1) (fun _ => 1) (fun b _ => if b = none then 1 else 0)
  rw [one_coeffDot _ _ (fun c q => one_detail _ q c), one_approx] at h
  unfold imgDot at h
  rw [one_pixel_box, sum_singleton, one_back _ (fun c q => by simp)] at h
  simp only [if_true, mul_one, one_mul] at h
  have h2 : Real.sqrt 2 * Real.sqrt 2 = 2 := Real.mul_self_sqrt (by norm_num)
  have h3 : Real.sqrt 2 ≠ 0 := by positivity
  have h4 : (1 / Real.sqrt 2) * Real.sqrt 2 = 1 := by field_simp
  rw [← h] at h4
  linarith

/-! ## The proximal -/

/-- The l1 norm of the coefficients: of all of them, or of all but the approximation. -/
noncomputable def dwlNorm (w : FilterBank L) (mode : DwtMode) (minApprox : Bool) (level : ℕ) (axes : Fin m → κ) (n : κ → ℕ) (z : Img κ) : ℝ :=
  ∑ b : Band m level, if b = none ∧ minApprox = false then 0 else ∑ q ∈ box (dwtBandShape mode L axes n b), |dwtOp w mode level axes n z b q|

/-- What the proximal of `t` times the l1 norm minimises. -/
noncomputable def dwlObjective (w : FilterBank L) (mode : DwtMode) (minApprox : Bool) (level : ℕ) (axes : Fin m → κ) (n : κ → ℕ) (t : ℝ) (x z : Img κ) : ℝ :=
  (∑ p ∈ box n, (z p - x p) ^ 2) / 2 + t * dwlNorm w mode minApprox level axes n z

/-- One coefficient: the soft threshold minimises, with a gap that grows with the square of the distance. -/
theorem soft_strong (v t u : ℝ) (ht : 0 ≤ t) :
    (softThreshold v t - v) ^ 2 / 2 + t * |softThreshold v t| + (u - softThreshold v t) ^ 2 / 2 ≤ (u - v) ^ 2 / 2 + t * |u| := by
  rcases le_total t v with h | h
  · rw [Spec.softThreshold_of_ge ht h, abs_of_nonneg (by linarith)]
    have := mul_le_mul_of_nonneg_left (le_abs_self u) ht
    nlinarith
  · rcases le_total v (-t) with h' | h'
    · rw [Spec.softThreshold_of_le ht h', abs_of_nonpos (by linarith)]
      have := mul_le_mul_of_nonneg_left (neg_abs_le u) ht
      nlinarith
    · rw [Spec.softThreshold_of_abs (abs_le.mpr ⟨h', h⟩), abs_zero]
      have h1 : v * u ≤ |v| * |u| := by rw [← abs_mul]; exact le_abs_self _
      have h2 : |v| * |u| ≤ t * |u| := mul_le_mul_of_nonneg_right (abs_le.mpr ⟨h', h⟩) (abs_nonneg u)
      nlinarith

/-- The transform of what the proximal returns: the coefficients with the threshold applied. -/
theorem dwl_coefficients {w : FilterBank L} (h : OrthogonalWavelet w) (hL : Even L) (level : ℕ) (axes : Fin m → κ) (hinj : Function.Injective axes)
    (n : κ → ℕ) (hn : ∀ i, 2 ^ level ∣ n (axes i)) (y : Band m level → Img κ) (b : Band m level) :
    ∀ q ∈ box (dwtBandShape .periodization L axes n b),
      dwtOp w .periodization level axes n (dwtOpT w .periodization level axes n y) b q = y b q := by
  have key := dall_orthonormal h hL axes n (fun i l p => if h : i < level ∧ l ≠ approxLabel m then y (some (⟨i, h.1⟩, ⟨l, h.2⟩)) p else 0) level
    (levels_even L axes hinj n level hn) (y none)
  intro q hq
  rcases b with _ | ⟨i, l⟩
  · exact key.1 q hq
  · have := key.2 i i.isLt l.1 l.2 q hq
    rw [dif_pos ⟨i.isLt, l.2⟩] at this
    exact this

/-- Mode "periodization", sizes divisible by `2 ** level`, orthogonal wavelets: what `apply_proximal_primal` returns minimises the sum of half the squared
distance and of the penalty, and every other image is worse by at least half its squared distance from it. What is missing: the other modes, where it is
not the proximal (below). -/
theorem C227_proximal_partial {w : FilterBank L} (h : OrthogonalWavelet w) (hL : Even L) (minApprox : Bool) (level : ℕ) (axes : Fin m → κ)
    (hinj : Function.Injective axes) (n : κ → ℕ) (hn : ∀ i, 2 ^ level ∣ n (axes i)) {t : ℝ} (ht : 0 ≤ t) (x z : Img κ) :
    dwlObjective w .periodization minApprox level axes n t x (dwlProxPrimal w .periodization minApprox level axes n t x) +
      (∑ p ∈ box n, (z p - dwlProxPrimal w .periodization minApprox level axes n t x p) ^ 2) / 2 ≤
    dwlObjective w .periodization minApprox level axes n t x z := by
  have iso : ∀ u v : Img κ, ∑ p ∈ box n, (u p - v p) ^ 2 = ∑ b : Band m level, ∑ q ∈ box (dwtBandShape .periodization L axes n b),
      (dwtOp w .periodization level axes n u b q - dwtOp w .periodization level axes n v b q) ^ 2 := by
    intro u v
    have e := C225_energy_partial h hL .periodization level axes n (Or.inr ⟨rfl, hinj, hn⟩) (fun p => 1 * u p + (-1) * v p)
    unfold coeffDot imgDot at e
    have e1 : ∑ p ∈ box n, (u p - v p) ^ 2 = ∑ p ∈ box n, (1 * u p + (-1) * v p) * (1 * u p + (-1) * v p) := sum_congr rfl fun p _ => by ring
    rw [e1, ← e]
    refine sum_congr rfl fun b _ => sum_congr rfl fun q _ => ?_
    rw [dwtOp_lin]
    ring
  have hp := fun b => dwl_coefficients h hL level axes hinj n hn (fun b q =>
    if b = none ∧ minApprox = false then dwtOp w .periodization level axes n x b q else softThreshold (dwtOp w .periodization level axes n x b q) t) b
  unfold dwlObjective dwlNorm
  rw [iso, iso, iso, sum_div, sum_div, sum_div, mul_sum, mul_sum, ← sum_add_distrib, ← sum_add_distrib, ← sum_add_distrib]
  refine sum_le_sum fun b _ => ?_
  have hb : ∀ q ∈ box (dwtBandShape .periodization L axes n b), dwtOp w .periodization level axes n (dwlProxPrimal w .periodization minApprox level axes n t x) b q =
      if b = none ∧ minApprox = false then dwtOp w .periodization level axes n x b q else softThreshold (dwtOp w .periodization level axes n x b q) t := hp b
  by_cases hc : b = none ∧ minApprox = false
  · simp only [if_pos hc, mul_zero, add_zero] at hb ⊢
    have e1 : ∑ q ∈ box (dwtBandShape .periodization L axes n b), (dwtOp w .periodization level axes n (dwlProxPrimal w .periodization minApprox level axes n t x) b q -
        dwtOp w .periodization level axes n x b q) ^ 2 = 0 := sum_eq_zero fun q hq => by rw [hb q hq]; ring
    rw [e1, zero_div, zero_add]
    exact le_of_eq (by congr 1; exact sum_congr rfl fun q hq => by rw [hb q hq])
  · simp only [if_neg hc] at hb ⊢
    rw [sum_div, sum_div, sum_div, mul_sum, mul_sum, ← sum_add_distrib, ← sum_add_distrib, ← sum_add_distrib]
    refine sum_le_sum fun q hq => ?_
    rw [hb q hq]
    exact soft_strong _ t _ ht

/-- Haar, two levels, eight by twelve pixels. -/
example (x z : Img (Fin 2)) :
    dwlObjective haarBank .periodization true 2 ![0, 1] ![8, 12] (1 / 2) x (dwlProxPrimal haarBank .periodization true 2 ![0, 1] ![8, 12] (1 / 2) x) +
      (∑ p ∈ box ![8, 12], (z p - dwlProxPrimal haarBank .periodization true 2 ![0, 1] ![8, 12] (1 / 2) x p) ^ 2) / 2 ≤
    dwlObjective haarBank .periodization true 2 ![0, 1] ![8, 12] (1 / 2) x z :=
  C227_proximal_partial haar_orthogonal ⟨1, rfl⟩ true 2 ![0, 1] (by decide) ![8, 12] (by decide) (by norm_num) x z

/-- With the default mode ("constant") `apply_proximal_primal` does not return the proximal: one pixel, Haar, one level. -/
theorem C227_default_violated :
    ¬ ∀ (L : ℕ) (w : FilterBank L), OrthogonalWavelet w → Even L → ∀ (level m : ℕ) (axes : Fin m → Fin 1), Function.Injective axes →
      ∀ (n : Fin 1 → ℕ) (t : ℝ), 0 ≤ t → ∀ x z : Img (Fin 1),
      dwlObjective w .constant true level axes n t x (dwlProxPrimal w .constant true level axes n t x) ≤ dwlObjective w .constant true level axes n t x z := by
  intro H
  have h2 : Real.sqrt 2 * Real.sqrt 2 = 2 := Real.mul_self_sqrt (by norm_num)
  have h0 : 0 < Real.sqrt 2 := by positivity
  have h1 : 1 < Real.sqrt 2 := by nlinarith
  have h15 : Real.sqrt 2 < 3 / 2 := by nlinarith
  have hi : 1 / Real.sqrt 2 = Real.sqrt 2 / 2 := by field_simp; linarith
  have h := H 2 haarBank haar_orthogonal ⟨1, rfl⟩ 1 1 ax0 (fun a b _ => Subsingleton.elim a b) (fun _ => 1) 1 (by norm_num) (fun _ => 10) (fun _ => 10 - Real.sqrt 2)
  have norm : ∀ z : Img (Fin 1), dwlNorm haarBank .constant true 1 ax0 (fun _ => 1) z = |Real.sqrt 2 * z fun _ => 0| := by
    intro z
    have hs : levelShape .constant 2 ax0 (fun _ => 1) 1 = fun _ => 1 := by
      funext k
      simp [levelShape, bandShape, decShape, dwtLen, ax0, Subsingleton.elim k 0]
    unfold dwlNorm
    simp only [Bool.true_eq_false, and_false, if_false]
    rw [Fintype.sum_option, sum_eq_zero (s := univ) (f := fun c => ∑ p ∈ box (dwtBandShape .constant 2 ax0 (fun _ => 1) (some c)), |dwtOp haarBank .constant 1 ax0 (fun _ => 1) z (some c) p|)]
    · simp only [dwtBandShape, hs]
      rw [one_pixel_box, sum_singleton, add_zero, one_approx]
    · intro c _
      exact sum_eq_zero fun q _ => by rw [one_detail, abs_zero]
  have prox : dwlProxPrimal haarBank .constant true 1 ax0 (fun _ => 1) 1 (fun _ => 10) (fun _ => 0) = 10 - Real.sqrt 2 / 2 := by
    unfold dwlProxPrimal
    rw [one_back]
    · simp only [Bool.true_eq_false, and_false, if_false, one_approx]
      rw [Spec.softThreshold_of_ge (by norm_num) (by linarith), hi]
      linarith
    · intro c q
      simp only [reduceCtorEq, false_and, if_false, one_detail]
      rw [Spec.softThreshold_of_abs (by norm_num)]
  unfold dwlObjective at h
  rw [norm, norm, one_pixel_box, sum_singleton, sum_singleton, prox, abs_of_pos (by nlinarith), abs_of_pos (by nlinarith)] at h
  nlinarith

/-! ## Padding modes -/

/-- Which of the documented options are accepted. What is missing: the others, among them the default. -/
theorem C228_accepted_partial : ∀ mode ∈ numpyPadModes, dwtInitOk mode = true ↔ mode ∈ ["constant", "reflect", "symmetric"] := by decide

/-- The documented options, and the default, are not all accepted. -/
theorem C228_default_violated : dwtInitOk dwtDefaultPad = false ∧ ¬ ∀ mode ∈ numpyPadModes, dwtInitOk mode = true := by decide

end Verif
