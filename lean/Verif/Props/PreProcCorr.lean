import Verif.Model.PreProc
import Verif.Props.Snip

/-!
# Properties of the corrections of projections: dark images, background, eigen-flats

`src/corrct/processing/pre.py`.
-/

namespace Verif

open Finset

variable {d : ℕ}

/-! ## C168: several dark images -/

/-- The flat field correction by the mean dark image: the transmission of projection `w`. -/
noncomputable def Spec.flatField (K D : ℕ) (projs flats darks : ℕ → ℝ) (w : ℕ) : ℝ :=
  (projs w - (∑ l ∈ range D, darks l) / D) / ((∑ k ∈ range K, flats k) / K - (∑ l ∈ range D, darks l) / D)

/-- **C168, violated part.** Several dark images are not averaged, while several flat images are: with two projections and three dark
images there is an error; with two projections and two dark images, each projection gets one of them. -/
theorem C168_several_darks_violated :
    (¬ ∀ (W K D : ℕ) (projs flats darks : ℕ → ℝ), 0 < W → 0 < K → 0 < D → applyFlatFieldStack W K D projs flats darks ≠ none) ∧
    (¬ ∀ (W K D : ℕ) (projs flats darks : ℕ → ℝ) (r : ℕ × (ℕ → ℝ)), applyFlatFieldStack W K D projs flats darks = some r →
      (∑ k ∈ range K, flats k) / K - (∑ l ∈ range D, darks l) / D ≠ 0 →
      ∀ w < W, r.2 w = Spec.flatField K D projs flats darks w) := by
  constructor
  · intro h
    exact h 2 1 3 (fun _ => 0) (fun _ => 0) (fun _ => 0) (by norm_num) (by norm_num) (by norm_num) rfl
  · intro h
    have e := h 2 1 2 (fun _ => 3) (fun _ => 5) (fun l => if l = 0 then 0 else 2) _ rfl
      (by norm_num [Finset.sum_range_succ]) 0 (by norm_num)
    norm_num [Spec.flatField, bcastGet, Finset.sum_range_succ] at e

/-- **C168, proved part.** With one dark image (or several equal ones, as many as the projections and the flat images), the projections
are those minus the dark image over the mean flat image minus the dark image; the number of projections does not change. -/
theorem C168_several_darks_partial (W K : ℕ) (hW : 0 < W) (hK : 0 < K) (projs flats : ℕ → ℝ) (dark : ℝ) :
    (∃ f, applyFlatFieldStack W K 1 projs flats (fun _ => dark) = some (W, f) ∧
      ∀ w < W, f w = Spec.flatField K 1 projs flats (fun _ => dark) w) ∧
    (∃ f, applyFlatFieldStack W W W projs flats (fun _ => dark) = some (W, f) ∧
      ∀ w < W, f w = Spec.flatField W W projs flats (fun _ => dark) w) := by
  have hK' : (K : ℝ) ≠ 0 := by exact_mod_cast hK.ne'
  have hW' : (W : ℝ) ≠ 0 := by exact_mod_cast hW.ne'
  have get : ∀ (N : ℕ) (x : ℕ → ℝ) (w : ℕ), w < N → bcastGet N x w = x w := by
    intro N x w hw
    unfold bcastGet
    split_ifs with h
    · have : w = 0 := by omega
      rw [this]
    · rfl
  have mean : ∀ (N : ℕ), 0 < N → (∑ k ∈ range N, (bcastGet N flats k - dark)) / (N : ℝ) = (∑ k ∈ range N, flats k) / N - dark := by
    intro N hN
    have hN' : (N : ℝ) ≠ 0 := by exact_mod_cast hN.ne'
    rw [Finset.sum_congr rfl fun k hk => by rw [get N flats k (Finset.mem_range.1 hk)], Finset.sum_sub_distrib]
    simp only [Finset.sum_const, Finset.card_range, nsmul_eq_mul]
    field_simp
  have b1 : ∀ N, bcastLen N 1 = some N := by
    intro N
    unfold bcastLen
    split_ifs with h1 h2 <;> simp_all
  constructor
  · refine ⟨_, by simp only [applyFlatFieldStack, b1]; rfl, fun w hw => ?_⟩
    have e : ∀ k, bcastGet 1 (fun _ : ℕ => dark) k = dark := fun k => by simp [bcastGet]
    simp only [e, Spec.flatField]
    rw [mean K hK, get W projs w hw]
    simp
  · refine ⟨_, by simp only [applyFlatFieldStack, bcastLen, if_true]; rfl, fun w hw => ?_⟩
    have e : ∀ k, bcastGet W (fun _ : ℕ => dark) k = dark := fun k => by simp [bcastGet]
    simp only [e, Spec.flatField]
    rw [mean W hW, get W projs w hw]
    simp [hW']

/-- Not vacuous: a projection of 3 counts, flat images of 4 and 6, one dark of 1. -/
example : ∃ f, applyFlatFieldStack 1 2 1 (fun _ => 3) (fun k => if k = 0 then 4 else 6) (fun _ => 1) = some (1, f) ∧ f 0 = 1 / 2 := by
  obtain ⟨f, h1, h2⟩ := (C168_several_darks_partial 1 2 (by norm_num) (by norm_num) (fun _ => 3) (fun k => if k = 0 then 4 else 6) 1).1
  refine ⟨f, h1, ?_⟩
  rw [h2 0 (by norm_num)]
  norm_num [Spec.flatField, Finset.sum_range_succ]

/-! ## C169: background of projections -/

theorem reflectPos_inside (n : ℕ) (hn : 0 < n) (i : ℤ) : 0 ≤ reflectPos n i ∧ reflectPos n i < n := by
  unfold reflectPos
  have h1 := Int.emod_nonneg i (b := 2 * (n : ℤ)) (by omega)
  have h2 := Int.emod_lt_of_pos i (b := 2 * (n : ℤ)) (by omega)
  simp only
  split_ifs <;> omega

theorem gaussianRow_pos (n : ℕ) (sigma : ℝ) (row : ℤ → ℝ) (h0 : ∀ i, 0 ≤ row i) (i k : ℤ) (hk : -⌊4 * sigma + 1 / 2⌋ ≤ k ∧ k ≤ ⌊4 * sigma + 1 / 2⌋)
    (hp : 0 < row (reflectPos n (i + k))) : 0 < gaussianRow n sigma row i := by
  unfold gaussianRow
  refine div_pos ?_ ?_
  · refine Finset.sum_pos' (fun j _ => mul_nonneg (Real.exp_pos _).le (h0 _)) ⟨k, Finset.mem_Icc.2 hk, mul_pos (Real.exp_pos _) hp⟩
  · exact Finset.sum_pos (fun j _ => Real.exp_pos _) ⟨k, Finset.mem_Icc.2 hk⟩

theorem reflectPos_id {n : ℕ} {i : ℤ} (h0 : 0 ≤ i) (h1 : i < n) : reflectPos n i = i := by
  unfold reflectPos
  rw [Int.emod_eq_of_lt h0 (by omega)]
  simp [h1]

theorem reflectPos_mirror {n : ℕ} (hn : 0 < n) (i : ℤ) : reflectPos n (-1 - i) = reflectPos n i := by
  have e : (-1 - i) % (2 * (n : ℤ)) = 2 * n - 1 - i % (2 * n) := by
    rw [Int.emod_eq_iff (by omega)]
    have h1 := Int.emod_nonneg i (b := 2 * (n : ℤ)) (by omega)
    have h2 := Int.emod_lt_of_pos i (b := 2 * (n : ℤ)) (by omega)
    have h3 := Int.mul_ediv_add_emod i (2 * (n : ℤ))
    refine ⟨by omega, by omega, ⟨1 + i / (2 * n), ?_⟩⟩
    linarith
  unfold reflectPos
  rw [e]
  simp only
  split_ifs <;> omega

theorem reflectPos_period (n : ℕ) (i : ℤ) : reflectPos n (i + 2 * n) = reflectPos n i := by
  unfold reflectPos
  rw [Int.add_emod_right]

/-- The sum over a whole period does not depend on its first pixel. -/
private theorem period_sum (n : ℕ) (f : ℤ → ℝ) (hf : ∀ i, f (i + 2 * n) = f i) (k : ℤ) :
    ∑ j ∈ Finset.range (2 * n), f (k + j) = ∑ j ∈ Finset.range (2 * n), f j := by
  have step : ∀ k : ℤ, ∑ j ∈ Finset.range (2 * n), f (k + 1 + j) = ∑ j ∈ Finset.range (2 * n), f (k + j) := by
    intro k
    have h1 := Finset.sum_range_succ' (fun j : ℕ => f (k + j)) (2 * n)
    have h2 := Finset.sum_range_succ (fun j : ℕ => f (k + j)) (2 * n)
    have h3 : f (k + (2 * n : ℕ)) = f (k + (0 : ℕ)) := by
      rw [← hf (k + (0 : ℕ))]; congr 1; push_cast; ring
    have h4 : ∀ j : ℕ, f (k + 1 + j) = f (k + (j + 1 : ℕ)) := fun j => by congr 1; push_cast; ring
    simp only [h4]
    linarith
  have up : ∀ (m : ℕ) (k : ℤ), ∑ j ∈ Finset.range (2 * n), f (k + m + j) = ∑ j ∈ Finset.range (2 * n), f (k + j) := by
    intro m
    induction m with
    | zero => intro k; simp
    | succ m ih =>
      intro k
      rw [← ih k, ← step (k + m)]
      refine Finset.sum_congr rfl fun j _ => ?_
      congr 1
      push_cast
      ring
  rcases Int.le_total 0 k with h | h
  · have := up k.toNat 0
    rw [Int.toNat_of_nonneg h] at this
    simpa using this
  · have := up (-k).toNat k
    rw [Int.toNat_of_nonneg (by omega)] at this
    simpa using this.symm

private theorem mirror_total (n : ℕ) (hn : 0 < n) (row : ℤ → ℝ) (k : ℤ) :
    ∑ i ∈ Finset.range n, (row (reflectPos n (i + k)) + row (reflectPos n (i + -k))) = 2 * ∑ i ∈ Finset.range n, row i := by
  set f : ℤ → ℝ := fun i => row (reflectPos n i) with hf
  have hper : ∀ i, f (i + 2 * n) = f i := fun i => by rw [hf]; simp only [reflectPos_period]
  have hmir : ∀ i, f (-1 - i) = f i := fun i => by rw [hf]; simp only [reflectPos_mirror hn]
  have split : ∀ k : ℤ, ∑ j ∈ Finset.range (2 * n), f (k - n + j) = ∑ i ∈ Finset.range n, (f (i + k) + f (i + -k)) := by
    intro k
    rw [two_mul, Finset.sum_range_add, Finset.sum_add_distrib, add_comm]
    congr 1
    · refine Finset.sum_congr rfl fun j _ => ?_
      congr 1
      push_cast
      ring
    · rw [← Finset.sum_range_reflect]
      refine Finset.sum_congr rfl fun j hj => ?_
      rw [← hmir]
      congr 1
      have := Finset.mem_range.1 hj
      push_cast [Nat.sub_sub, Nat.cast_sub (show 1 + j ≤ n by omega)]
      ring
  have h1 := split k
  have h0 := split 0
  rw [period_sum n f hper] at h1 h0
  rw [← h1, h0, Finset.mul_sum]
  refine Finset.sum_congr rfl fun i hi => ?_
  have := Finset.mem_range.1 hi
  simp only [hf, neg_zero, add_zero]
  rw [reflectPos_id (by omega) (by omega)]
  ring

/-- **C169, smoothing.** The smoothing before the background keeps the values between the bounds of the row (hence constants as they are),
keeps the total of the row, and commutes with the reversal of the row, for every row and width. -/
theorem C169_smoothing (n : ℕ) (hn : 0 < n) (sigma : ℝ) (hs : 0 < sigma) (row : ℤ → ℝ) :
    (∀ m M : ℝ, (∀ i : ℤ, 0 ≤ i → i < n → m ≤ row i ∧ row i ≤ M) → ∀ i, m ≤ gaussianRow n sigma row i ∧ gaussianRow n sigma row i ≤ M) ∧
    ∑ i ∈ Finset.range n, gaussianRow n sigma row i = ∑ i ∈ Finset.range n, row i ∧
    (∀ i : ℤ, 0 ≤ i → i < n → gaussianRow n sigma (fun j => row (n - 1 - j)) i = gaussianRow n sigma row (n - 1 - i)) := by
  set r : ℤ := ⌊4 * sigma + 1 / 2⌋ with hr
  have hr0 : 0 ≤ r := Int.floor_nonneg.2 (by linarith)
  set w : ℤ → ℝ := fun k => Real.exp (-(k : ℝ) ^ 2 / (2 * sigma ^ 2)) with hw
  have hwpos : ∀ k, 0 < w k := fun k => Real.exp_pos _
  have hweven : ∀ k, w (-k) = w k := fun k => by simp only [hw]; push_cast; rw [neg_sq]
  have hW : 0 < ∑ k ∈ Finset.Icc (-r) r, w k := Finset.sum_pos (fun k _ => hwpos k) ⟨0, Finset.mem_Icc.2 ⟨by omega, hr0⟩⟩
  have hval : ∀ (row : ℤ → ℝ) i, gaussianRow n sigma row i =
      (∑ k ∈ Finset.Icc (-r) r, w k * row (reflectPos n (i + k))) / ∑ k ∈ Finset.Icc (-r) r, w k := fun row i => rfl
  have hneg : ∀ g : ℤ → ℝ, ∑ k ∈ Finset.Icc (-r) r, g (-k) = ∑ k ∈ Finset.Icc (-r) r, g k := by
    intro g
    refine Finset.sum_nbij' (fun k => -k) (fun k => -k) ?_ ?_ ?_ ?_ ?_
    · intro k hk; rw [Finset.mem_Icc] at hk ⊢; omega
    · intro k hk; rw [Finset.mem_Icc] at hk ⊢; omega
    · intro k _; simp
    · intro k _; simp
    · intro k _; rfl
  refine ⟨fun m M h i => ?_, ?_, fun i h0 h1 => ?_⟩
  · have hin : ∀ k, m ≤ row (reflectPos n (i + k)) ∧ row (reflectPos n (i + k)) ≤ M := fun k =>
      h _ (reflectPos_inside n hn _).1 (reflectPos_inside n hn _).2
    rw [hval, le_div_iff₀ hW, div_le_iff₀ hW, Finset.mul_sum, Finset.mul_sum]
    constructor
    · refine Finset.sum_le_sum fun k _ => ?_
      rw [mul_comm]
      exact mul_le_mul_of_nonneg_left (hin k).1 (hwpos k).le
    · refine Finset.sum_le_sum fun k _ => ?_
      rw [mul_comm M]
      exact mul_le_mul_of_nonneg_left (hin k).2 (hwpos k).le
  · simp only [hval]
    rw [← Finset.sum_div, div_eq_iff hW.ne', Finset.sum_comm]
    have h2 : ∀ k, ∑ i ∈ Finset.range n, w k * row (reflectPos n (i + k)) = w k * ∑ i ∈ Finset.range n, row (reflectPos n (i + k)) :=
      fun k => (Finset.mul_sum _ _ _).symm
    simp only [h2]
    set F : ℤ → ℝ := fun k => w k * ∑ i ∈ Finset.range n, row (reflectPos n (i + k)) with hF
    have h3 : ∑ k ∈ Finset.Icc (-r) r, (F k + F (-k)) = ∑ k ∈ Finset.Icc (-r) r, w k * (2 * ∑ i ∈ Finset.range n, row i) := by
      refine Finset.sum_congr rfl fun k _ => ?_
      rw [hF]
      simp only
      rw [hweven, ← mul_add, ← Finset.sum_add_distrib, mirror_total n hn]
    rw [Finset.sum_add_distrib, hneg F, ← Finset.sum_mul] at h3
    linarith
  · rw [hval, hval, ← hneg]
    congr 1
    refine Finset.sum_congr rfl fun k _ => ?_
    rw [hweven]
    congr 2
    have e : (i : ℤ) + -k = -1 - (-1 - i + k) := by ring
    rw [e, reflectPos_mirror hn]
    have hp : ∀ j : ℤ, (n : ℤ) - 1 - reflectPos n j = reflectPos n (j + n) := by
      intro j
      have h1 := Int.emod_nonneg j (b := 2 * (n : ℤ)) (by omega)
      have h2 := Int.emod_lt_of_pos j (b := 2 * (n : ℤ)) (by omega)
      have h3 := Int.mul_ediv_add_emod j (2 * (n : ℤ))
      have e : (j + n) % (2 * (n : ℤ)) = if j % (2 * n) < n then j % (2 * n) + n else j % (2 * n) - n := by
        split_ifs with h
        · rw [Int.emod_eq_iff (by omega)]
          exact ⟨by omega, by omega, ⟨-(j / (2 * n)), by linarith⟩⟩
        · rw [Int.emod_eq_iff (by omega)]
          exact ⟨by omega, by omega, ⟨-(j / (2 * n)) - 1, by linarith⟩⟩
      unfold reflectPos
      rw [e]
      simp only
      split_ifs <;> omega
    rw [hp]
    congr 1
    ring

/-- Not vacuous: the total of a peak is kept. -/
example : ∑ i ∈ Finset.range 5, gaussianRow 5 1 (fun i => if i = 2 then 3 else 0) i = 3 := by
  rw [(C169_smoothing 5 (by norm_num) 1 one_pos _).2.1]
  norm_num [Finset.sum_range_succ]

/-- **C169, violated part.** With a smoothing that is not trivial (`smooth_std` of at least an eighth of a pixel), whatever its width and
the number of iterations, the background of a projection with a dip is above the projection: here a row of three pixels `1, 0, 1`. -/
theorem C169_snip_background_violated :
    (¬ ∀ (iterations : ℕ) (sigma : ℝ) (row : ℤ → ℝ), 0 < sigma → ∀ i, Inside (fun _ : Fin 1 => 3) i →
      backgroundFromSnip 1 (fun _ : Fin 1 => 3) iterations (some fun x j => gaussianRow 3 sigma (fun k => x fun _ => k) (j 0))
        (fun _ j => row (j 0)) 0 i ≤ row (i 0)) ∧
    ∀ (iterations : ℕ) (sigma : ℝ), 1 / 8 ≤ sigma →
      0 < backgroundFromSnip 1 (fun _ : Fin 1 => 3) iterations (some fun x j => gaussianRow 3 sigma (fun k => x fun _ => k) (j 0))
        (fun _ j => if j 0 = 1 then 0 else 1) 0 (fun _ => 1) := by
  have main : ∀ (iterations : ℕ) (sigma : ℝ), 1 / 8 ≤ sigma →
      0 < backgroundFromSnip 1 (fun _ : Fin 1 => 3) iterations (some fun x j => gaussianRow 3 sigma (fun k => x fun _ => k) (j 0))
        (fun _ j => if j 0 = 1 then 0 else 1) 0 (fun _ => 1) := by
    intro iterations sigma hs
    have hr : 1 ≤ ⌊4 * sigma + 1 / 2⌋ := Int.le_floor.2 (by push_cast; linarith)
    have h0 : ∀ i : ℤ, (0 : ℝ) ≤ if i = 1 then 0 else 1 := fun i => by split_ifs <;> norm_num
    have g0 : 0 < gaussianRow 3 sigma (fun k : ℤ => if k = 1 then (0 : ℝ) else 1) 0 :=
      gaussianRow_pos 3 sigma _ h0 0 0 (by omega) (by norm_num [reflectPos])
    have g1 : 0 < gaussianRow 3 sigma (fun k : ℤ => if k = 1 then (0 : ℝ) else 1) 1 :=
      gaussianRow_pos 3 sigma _ h0 1 1 (by omega) (by norm_num [reflectPos])
    have g2 : 0 < gaussianRow 3 sigma (fun k : ℤ => if k = 1 then (0 : ℝ) else 1) 2 :=
      gaussianRow_pos 3 sigma _ h0 2 0 (by omega) (by norm_num [reflectPos])
    refine lt_of_lt_of_le (lt_min g0 (lt_min g1 g2)) ?_
    refine (C48_snip_bounds 3 (by norm_num) (by norm_num) (fun _ : Fin 1 => 3)
      (fun j : Fin 1 → ℤ => gaussianRow 3 sigma (fun k : ℤ => if k = 1 then (0 : ℝ) else 1) (j 0))).2.1 _ ?_ iterations (fun _ => 1) ?_
    · intro i hi
      have : 0 ≤ i 0 ∧ i 0 < ((3 : ℕ) : ℤ) := hi 0
      have hcase : i 0 = 0 ∨ i 0 = 1 ∨ i 0 = 2 := by omega
      rcases hcase with h | h | h <;> rw [h]
      · exact min_le_left _ _
      · exact (min_le_right _ _).trans (min_le_left _ _)
      · exact (min_le_right _ _).trans (min_le_right _ _)
    · intro a; norm_num
  refine ⟨fun h => ?_, main⟩
  have h1 := h 6 1 (fun k => if k = 1 then 0 else 1) one_pos (fun _ => 1) (fun a => by norm_num)
  have h2 := main 6 1 (by norm_num)
  simp only [if_true] at h1
  linarith

/-- **C169, proved part.** Each projection of the stack is treated on its own; without smoothing the background is nowhere above the
projection, nowhere below its minimum, follows changes of scale and offset, and is the projection itself where that is constant. With
smoothing all this holds of the background of the smoothed projections. -/
theorem C169_snip_background_partial (hd : 0 < d) (W : ℕ) (shape : Fin d → ℕ) (hs : ∀ a, 0 < shape a) (iterations : ℕ)
    (data : Fin W → (Fin d → ℤ) → ℝ) :
    (∀ smooth (data' : Fin W → (Fin d → ℤ) → ℝ) w, data w = data' w →
      backgroundFromSnip W shape iterations smooth data w = backgroundFromSnip W shape iterations smooth data' w) ∧
    (∀ w i, backgroundFromSnip W shape iterations none data w i ≤ data w i) ∧
    (∀ w (m : ℝ), (∀ i, Inside shape i → m ≤ data w i) → ∀ i, Inside shape i → m ≤ backgroundFromSnip W shape iterations none data w i) ∧
    (∀ (a c : ℝ), 0 ≤ a → ∀ w i, backgroundFromSnip W shape iterations none (fun w i => a * data w i + c) w i =
      a * backgroundFromSnip W shape iterations none data w i + c) ∧
    (∀ w (c : ℝ), (∀ i, data w i = c) → ∀ i, backgroundFromSnip W shape iterations none data w i = c) ∧
    (∀ g w, backgroundFromSnip W shape iterations (some g) data w = backgroundFromSnip W shape iterations none (fun w => g (data w)) w) := by
  refine ⟨fun smooth data' w h => ?_, fun w i => ?_, fun w m hm i hi => ?_, fun a c ha w i => ?_, fun w c hc i => ?_, fun g w => rfl⟩
  · unfold backgroundFromSnip; rw [h]
  · exact (C48_snip_bounds 3 (by norm_num) hd shape (data w)).1 iterations i
  · exact (C48_snip_bounds 3 (by norm_num) hd shape (data w)).2.1 m hm iterations i hi
  · exact (C104_snip_equivariant 3 (by norm_num) hd shape hs iterations).1 (data w) a c ha i
  · have : data w = fun _ => c := funext hc
    unfold backgroundFromSnip
    rw [this]
    exact (C104_snip_equivariant 3 (by norm_num) hd shape hs iterations).2.2.2 c i

/-- Not vacuous: two constant projections. -/
example : backgroundFromSnip 2 (fun _ : Fin 1 => 4) 6 none (fun w _ => (w : ℕ)) 1 (fun _ => 2) = 1 := by
  have := (C169_snip_background_partial (d := 1) (by norm_num) 2 (fun _ => 4) (fun _ => by norm_num) 6 (fun w _ => ((w : ℕ) : ℝ))).2.2.2.2.1
    1 1 (fun _ => by simp) (fun _ => 2)
  exact this

/-! ## C170: eigen-flats -/

/-- The contract of `np.linalg.svd`, of which the singular values are in decreasing order. -/
def Svd.Sorted {r k q : ℕ} (S : Svd r k q) : Prop := ∀ a b, a ≤ b → S.s b ≤ S.s a

/-- The dark-corrected transmissions: clipped from below at the machine precision, if dark images are given. -/
noncomputable def Spec.darkCorrected {r K D : ℕ} (trans : Fin K → Fin r → ℝ) (darks : Option (Fin D → Fin r → ℝ)) (k : Fin K) (i : Fin r) : ℝ :=
  match darks with
  | none => trans k i
  | some dk => max (trans k i - (∑ l, dk l i) / D) eps

theorem eigenStack_pos {r K F D : ℕ} (trans : Fin K → Fin r → ℝ) (flats : Fin F → Fin r → ℝ)
    (darks : Option (Fin D → Fin r → ℝ)) (hpos : darks = none → (∀ k i, 0 < trans k i) ∧ ∀ k i, 0 < flats k i) (i : Fin r) (j : Fin (K + F)) :
    0 < eigenStack trans flats darks i j := by
  unfold eigenStack
  cases darks with
  | none =>
    obtain ⟨h1, h2⟩ := hpos rfl
    refine Fin.addCases (fun k => ?_) (fun k => ?_) j <;> simp [h1, h2]
  | some dk =>
    simp only [Option.elim]
    exact lt_max_of_lt_right (by unfold eps; norm_num)

/-- **C170.** `compute_eigen_flats` factorises every transmission: at each pixel `eigen_projs * eigen_flats` is the dark-corrected
(clipped) transmission, and both factors are positive; the logarithm of the eigen-flats is a single profile times one number per image
(rank one); and if the images have no other content, i.e. the logarithms of all of them are one profile times numbers, the
eigen-projections are 1. For every decomposition that `np.linalg.svd` may return; without dark images, for positive images. -/
theorem C170_eigen_flats {r K F D q : ℕ} (svd : (Fin r → Fin (K + F) → ℝ) → Svd r (K + F) (q + 1))
    (trans : Fin K → Fin r → ℝ) (flats : Fin F → Fin r → ℝ) (darks : Option (Fin D → Fin r → ℝ))
    (hsvd : let M := fun i j => Real.log (eigenStack trans flats darks i j); (svd M).Valid M ∧ (svd M).Sorted) (hpos : darks = none → (∀ k i, 0 < trans k i) ∧ ∀ k i, 0 < flats k i) :
    let R := eigenFlats svd trans flats darks
    (∀ k i, R.1 k i * R.2 k i = Spec.darkCorrected trans darks k i) ∧
    (∀ k i, 0 < R.1 k i ∧ 0 < R.2 k i) ∧
    (∃ (profile : Fin r → ℝ) (c : Fin K → ℝ), ∀ k i, Real.log (R.2 k i) = profile i * c k) ∧
    ((∃ (profile : Fin r → ℝ) (c : Fin (K + F) → ℝ), ∀ i j, Real.log (eigenStack trans flats darks i j) = profile i * c j) →
      ∀ k i, R.1 k i = 1) := by
  intro R
  set M : Fin r → Fin (K + F) → ℝ := fun i j => Real.log (eigenStack trans flats darks i j) with hM
  obtain ⟨⟨hU, hV, hs, hprod⟩, hsort⟩ := hsvd
  change ∀ i j, M i j = _ at hprod
  refine ⟨fun k i => ?_, fun k i => ⟨Real.exp_pos _, Real.exp_pos _⟩, ?_, ?_⟩
  · show Real.exp _ * Real.exp _ = _
    rw [← Real.exp_add]
    have e : ∑ a : Fin q, (svd M).U i a.succ * (svd M).s a.succ * (svd M).Vt a.succ (Fin.castAdd F k) +
        (svd M).U i 0 * (svd M).s 0 * (svd M).Vt 0 (Fin.castAdd F k) = M i (Fin.castAdd F k) := by
      rw [hprod i (Fin.castAdd F k), Fin.sum_univ_succ, add_comm]
      congr 1
      · ring
      · exact Finset.sum_congr rfl fun a _ => by ring
    rw [e]
    simp only [hM]
    rw [Real.exp_log (eigenStack_pos trans flats darks hpos i _)]
    unfold eigenStack Spec.darkCorrected
    cases darks <;> simp
  · refine ⟨fun i => (svd M).U i 0 * (svd M).s 0, fun k => (svd M).Vt 0 (Fin.castAdd F k), fun k i => ?_⟩
    show Real.log (Real.exp _) = _
    rw [Real.log_exp]
  · rintro ⟨x, y, hxy⟩ k i
    -- s_a U_a is parallel to x
    have hpar : ∀ a i, (svd M).s a * (svd M).U i a = x i * ∑ j, y j * (svd M).Vt a j := by
      intro a i
      have h1 : ∑ j, M i j * (svd M).Vt a j = (svd M).s a * (svd M).U i a := by
        rw [Finset.sum_congr rfl fun j _ => by rw [hprod i j, Finset.sum_mul], Finset.sum_comm]
        have h2 : ∀ b, ∑ j, (svd M).U i b * ((svd M).s b * (svd M).Vt b j) * (svd M).Vt a j = if b = a then (svd M).s a * (svd M).U i a else 0 := by
          intro b
          have h3 : ∑ j, (svd M).U i b * ((svd M).s b * (svd M).Vt b j) * (svd M).Vt a j =
              (svd M).U i b * (svd M).s b * ∑ j, (svd M).Vt b j * (svd M).Vt a j := by
            rw [Finset.mul_sum]; exact Finset.sum_congr rfl fun j _ => by ring
          rw [h3, hV b a]
          split_ifs with hab
          · rw [hab]; ring
          · ring
        simp only [h2]
        rw [Finset.sum_ite_eq' Finset.univ a, if_pos (Finset.mem_univ _)]
      rw [← h1, Finset.mul_sum]
      exact Finset.sum_congr rfl fun j _ => by rw [show M i j = x i * y j from hxy i j]; ring
    -- hence all the singular values after the first vanish
    have hz : ∀ a : Fin q, (svd M).s a.succ = 0 := by
      intro a
      have hle := hsort 0 a.succ (Fin.zero_le _)
      have hnn := hs a.succ
      by_contra hne
      have hs1 : 0 < (svd M).s a.succ := lt_of_le_of_ne hnn (Ne.symm hne)
      have hs0 : 0 < (svd M).s 0 := lt_of_lt_of_le hs1 hle
      set c0 := ∑ j, y j * (svd M).Vt 0 j
      set c1 := ∑ j, y j * (svd M).Vt a.succ j
      have o : (svd M).s 0 * (svd M).s a.succ * ∑ i, (svd M).U i 0 * (svd M).U i a.succ = c0 * c1 * ∑ i, x i ^ 2 := by
        rw [Finset.mul_sum, Finset.mul_sum]
        refine Finset.sum_congr rfl fun i _ => ?_
        have e0 := hpar 0 i
        have e1 := hpar a.succ i
        calc (svd M).s 0 * (svd M).s a.succ * ((svd M).U i 0 * (svd M).U i a.succ) =
            ((svd M).s 0 * (svd M).U i 0) * ((svd M).s a.succ * (svd M).U i a.succ) := by ring
          _ = (x i * c0) * (x i * c1) := by rw [e0, e1]
          _ = c0 * c1 * x i ^ 2 := by ring
      rw [hU 0 a.succ, if_neg (Fin.succ_ne_zero a).symm, mul_zero] at o
      have n0 : (svd M).s 0 ^ 2 = c0 ^ 2 * ∑ i, x i ^ 2 := by
        have : (svd M).s 0 ^ 2 * ∑ i, (svd M).U i 0 * (svd M).U i 0 = c0 ^ 2 * ∑ i, x i ^ 2 := by
          rw [Finset.mul_sum, Finset.mul_sum]
          refine Finset.sum_congr rfl fun i _ => ?_
          have e0 := hpar 0 i
          calc (svd M).s 0 ^ 2 * ((svd M).U i 0 * (svd M).U i 0) = ((svd M).s 0 * (svd M).U i 0) ^ 2 := by ring
            _ = (x i * c0) ^ 2 := by rw [e0]
            _ = c0 ^ 2 * x i ^ 2 := by ring
        rwa [hU 0 0, if_pos rfl, mul_one] at this
      have n1 : (svd M).s a.succ ^ 2 = c1 ^ 2 * ∑ i, x i ^ 2 := by
        have : (svd M).s a.succ ^ 2 * ∑ i, (svd M).U i a.succ * (svd M).U i a.succ = c1 ^ 2 * ∑ i, x i ^ 2 := by
          rw [Finset.mul_sum, Finset.mul_sum]
          refine Finset.sum_congr rfl fun i _ => ?_
          have e0 := hpar a.succ i
          calc (svd M).s a.succ ^ 2 * ((svd M).U i a.succ * (svd M).U i a.succ) = ((svd M).s a.succ * (svd M).U i a.succ) ^ 2 := by ring
            _ = (x i * c1) ^ 2 := by rw [e0]
            _ = c1 ^ 2 * x i ^ 2 := by ring
        rwa [hU a.succ a.succ, if_pos rfl, mul_one] at this
      have : (svd M).s 0 ^ 2 * (svd M).s a.succ ^ 2 = 0 := by
        rw [n0, n1]
        linear_combination (-(c0 * c1 * ∑ i, x i ^ 2)) * o
      have := mul_pos (pow_pos hs0 2) (pow_pos hs1 2)
      linarith
    show Real.exp _ = 1
    rw [Real.exp_eq_one_iff]
    exact Finset.sum_eq_zero fun a _ => by
      show (svd M).U i a.succ * (svd M).s a.succ * _ = 0
      rw [hz a]; ring

/-- Not vacuous: two images of two pixels, with logarithms `2, 0` and `0, 1`. -/
example : let svd : (Fin 2 → Fin (2 + 0) → ℝ) → Svd 2 (2 + 0) (1 + 1) := fun _ =>
      ⟨fun i a => if (i : ℕ) = a then 1 else 0, fun a => if (a : ℕ) = 0 then 2 else 1, fun a j => if (a : ℕ) = j then 1 else 0⟩
    let trans : Fin 2 → Fin 2 → ℝ := fun k i => if k = i then Real.exp (if (k : ℕ) = 0 then 2 else 1) else 1
    let R := eigenFlats (D := 0) svd trans (fun k : Fin 0 => k.elim0) none
    R.1 1 1 * R.2 1 1 = Real.exp 1 := by
  intro svd trans R
  have h := (C170_eigen_flats (D := 0) svd trans (fun k : Fin 0 => k.elim0) none ?_ ?_).1 1 1
  · rw [h]; simp [Spec.darkCorrected, trans]
  · refine ⟨⟨?_, ?_, ?_, ?_⟩, ?_⟩
    · intro a b; fin_cases a <;> fin_cases b <;> simp [svd]
    · intro a b; fin_cases a <;> fin_cases b <;> simp [svd]
    · intro a; fin_cases a <;> simp [svd]
    · intro i j
      fin_cases i <;> fin_cases j <;> simp [svd, eigenStack, trans, Fin.addCases]
    · intro a b hab
      fin_cases a <;> fin_cases b <;> simp_all [svd]
  · intro _
    refine ⟨fun k i => ?_, fun k => k.elim0⟩
    simp only [trans]
    split_ifs <;> first | exact Real.exp_pos _ | norm_num

end Verif
