import Verif.Lemmas.ProxGrad
import Verif.Props.SolversConv

/-! # C14, C65: the Pock–Chambolle condition for the diagonal step sizes -/

namespace Verif
open Classical DataTerm Finset

variable {ν ι Q : Type} [Fintype ν] [Fintype ι]

/-- Specification: contract of a regularizer. Its energy `E x = ∑_k σ_k (K x)_k²` is bounded by the weights `c` that
`initialize_sigma_tau` returns (the column sums of `|K|`). -/
structure StepContract (r : Reg ν Q) (E : Arr ν → ℝ) (c : Arr ν) : Prop where
  published : ∀ t, r.sigmaTau t = c
  nonneg : ∀ j, 0 ≤ c j
  energy : ∀ x, E x ≤ ∑ j, c j * x j ^ 2

private theorem effMask_tw (a : Args ν ι) : effMask a = trainWeight a := by
  unfold effMask trainWeight initBMasks
  funext i
  cases a.bTestMask <;> cases a.bMask <;> simp

private theorem effX_vw (a : Args ν ι) : effXMask a = volumeWeight a := by
  unfold effXMask volumeWeight
  funext i
  cases a.xMask <;> simp

private theorem fold_regs (gs : List (Reg ν Q × (Arr ν → ℝ) × Arr ν))
    (hg : ∀ g ∈ gs, StepContract g.1 g.2.1 g.2.2) (t : Arr ν) (j : ν) :
    (gs.map (·.1)).foldl (fun t r => fun j => t j + r.sigmaTau t j) t j = t j + (gs.map fun g => g.2.2 j).sum := by
  induction gs generalizing t with
  | nil => simp
  | cons g gs ih =>
    rw [List.map_cons, List.foldl_cons, ih (fun g hg' => hg g (by simp [hg'])), List.map_cons, List.sum_cons,
      (hg g (by simp)).published]
    ring

private theorem energy_sum (gs : List (Reg ν Q × (Arr ν → ℝ) × Arr ν))
    (hg : ∀ g ∈ gs, StepContract g.1 g.2.1 g.2.2) (x : Arr ν) :
    (gs.map fun g => g.2.1 x).sum ≤ ∑ j, (gs.map fun g => g.2.2 j).sum * x j ^ 2 := by
  induction gs with
  | nil => simp
  | cons g gs ih =>
    have h1 := (hg g (by simp)).energy x
    have h2 := ih fun g hg' => hg g (by simp [hg'])
    simp only [List.map_cons, List.sum_cons, add_mul, sum_add_distrib]
    linarith

/-- The step sizes of PDHG with preconditioning, for a matrix projector and any list of regularizers that keep their
step-size contract, satisfy the convergence condition with a margin: for every volume supported on the solution mask, the
`sigma`-weighted energy of the projection (over the training pixels) plus the energies of the regularizers is at most
the relaxation times `∑ x_j² / tau_j`. Relaxation in `(0, 1]`; row sums, and column sums plus regularizer weights, at
most `10⁵`. -/
theorem C14_diagonal_scaling_relaxed (S : Solver ν ι Q) (M : ι → ν → ℝ) (a : Args ν ι) (rnd : Arr ι) (hs : SensibleScale M a)
    (hω : 0 < S.relaxation) (hω1 : S.relaxation ≤ 1)
    (gs : List (Reg ν Q × (Arr ν → ℝ) × Arr ν)) (hregs : S.regs = gs.map (·.1))
    (hg : ∀ g ∈ gs, StepContract g.1 g.2.1 g.2.2)
    (hcols : ∀ j, (∑ i, |M i j|) + (gs.map fun g => g.2.2 j).sum ≤ 100000) {sigma tau}
    (h : pdhgScaling S (matrixOp M) a true rnd = .ok (sigma, tau)) (x : Arr ν) (hx : ZeroOutsideMask a x) :
    (∀ i, 0 < sigma i) ∧ (∀ j, 0 < tau j) ∧
    ∑ i, sigma i * trainWeight a i * (∑ j, M i j * x j) ^ 2 + (gs.map fun g => g.2.1 x).sum ≤
      S.relaxation * ∑ j, x j ^ 2 / tau j := by
  have htw : ∀ i, 0 ≤ trainWeight a i ∧ trainWeight a i ≤ 1 := by
    intro i
    have h1 := hs.bMask; have h2 := hs.test
    unfold trainWeight
    cases hb : a.bMask with
    | none =>
      cases ht : a.bTestMask with
      | none => norm_num
      | some t => have := h2 t ht i; constructor <;> dsimp only <;> linarith
    | some m =>
      have h3 := h1 m hb i
      cases ht : a.bTestMask with
      | none => constructor <;> dsimp only <;> linarith
      | some t =>
        have := h2 t ht i
        dsimp only
        exact ⟨mul_nonneg h3.1 (by linarith), mul_le_one₀ h3.2 (by linarith) (by linarith)⟩
  have hvw : ∀ j, volumeWeight a j = 0 ∨ volumeWeight a j = 1 := by
    intro j
    unfold volumeWeight
    cases hm : a.xMask with
    | none => right; rfl
    | some m => exact hs.xMask m hm j
  have hvw0 : ∀ j, 0 ≤ volumeWeight a j := fun j => by rcases hvw j with h | h <;> rw [h] <;> norm_num
  have e1 : applyMask (initBMasks a.bMask a.bTestMask).1 (fun _ => 1) = trainWeight a := by
    rw [← effMask_tw]; unfold effMask applyMask
    cases (initBMasks a.bMask a.bTestMask).1 <;> simp
  have e2 : applyMask a.xMask (fun _ => 1) = volumeWeight a := by
    rw [← effX_vw]; unfold effXMask applyMask
    cases a.xMask <;> simp
  have hgn : ∀ j, 0 ≤ (gs.map fun g => g.2.2 j).sum := fun j =>
    List.sum_nonneg (by simp only [List.mem_map]; rintro y ⟨g, hg', rfl⟩; exact (hg g hg').nonneg j)
  have hc0 : ∀ j, 0 ≤ ∑ i, |M i j| * trainWeight a i := fun j =>
    sum_nonneg fun i _ => mul_nonneg (abs_nonneg _) (htw i).1
  have hr0 : ∀ i, 0 ≤ ∑ j, |M i j| * volumeWeight a j := fun i =>
    sum_nonneg fun j _ => mul_nonneg (abs_nonneg _) (hvw0 j)
  simp only [pdhgScaling, matrixOp, if_true] at h
  unfold diagonalScaling at h
  simp only [e1, e2, hregs] at h
  have e3 : (gs.map (·.1)).foldl (fun t r => fun j => t j + r.sigmaTau t j)
      (fun j => |∑ i, |M i j| * trainWeight a i|) =
      fun j => (∑ i, |M i j| * trainWeight a i) + (gs.map fun g => g.2.2 j).sum := by
    funext j; rw [fold_regs gs hg, abs_of_nonneg (hc0 j)]
  have e4 : (fun i => |∑ j, |M i j| * volumeWeight a j|) = fun i => ∑ j, |M i j| * volumeWeight a j := by
    funext i; exact abs_of_nonneg (hr0 i)
  rw [e3, e4] at h
  split_ifs at h with h1 h2
  simp only [Except.ok.injEq, Prod.mk.injEq] at h
  obtain ⟨rfl, rfl⟩ := h
  set C : Arr ν := fun j => (∑ i, |M i j| * trainWeight a i) + (gs.map fun g => g.2.2 j).sum with hC
  set R : Arr ι := fun i => ∑ j, |M i j| * volumeWeight a j with hR
  have hCpos := fixSmall_pos (f := C) (fun j => add_nonneg (hc0 j) (hgn j)) h1
  have hRpos := fixSmall_pos (f := R) hr0 h2
  have hCle : ∀ j, C j ≤ fixSmall C j := le_fixSmall (fun j => add_nonneg (hc0 j) (hgn j)) h1 fun j => by
    have := hcols j
    have h3 : ∑ i, |M i j| * trainWeight a i ≤ ∑ i, |M i j| :=
      sum_le_sum fun i _ => mul_le_of_le_one_right (abs_nonneg _) (htw i).2
    simp only [hC]; linarith
  have hRle : ∀ i, R i ≤ fixSmall R i := le_fixSmall hr0 h2 fun i => by
    have h3 : ∑ j, |M i j| * volumeWeight a j ≤ ∑ j, |M i j| :=
      sum_le_sum fun j _ => mul_le_of_le_one_right (abs_nonneg _) (by rcases hvw j with h | h <;> rw [h] <;> norm_num)
    exact h3.trans (hs.rows i)
  refine ⟨fun i => div_pos hω (hRpos i), fun j => div_pos hω (hCpos j), ?_⟩
  have hpc := pockChambolle M (volumeWeight a) (trainWeight a) (fixSmall R) (fun j => ∑ i, |M i j| * trainWeight a i)
    (fun i => (htw i).1) hvw0 hRpos hRle (fun j => le_rfl) x (fun j => by
      rcases hvw j with h | h
      · have : x j = 0 := by
          unfold volumeWeight at h
          cases hm : a.xMask with
          | none => rw [hm] at h; simp at h
          | some m => rw [hm] at h; exact hx m hm j h
        rw [this]; ring
      · rw [h, one_mul])
  have hen := energy_sum gs hg x
  have hE : ∑ i, S.relaxation / fixSmall R i * trainWeight a i * (∑ j, M i j * x j) ^ 2 =
      S.relaxation * ∑ i, trainWeight a i / fixSmall R i * (∑ j, M i j * x j) ^ 2 := by
    rw [mul_sum]; exact sum_congr rfl fun i _ => by ring
  have hP : 0 ≤ ∑ i, trainWeight a i / fixSmall R i * (∑ j, M i j * x j) ^ 2 :=
    sum_nonneg fun i _ => mul_nonneg (div_nonneg (htw i).1 (hRpos i).le) (sq_nonneg _)
  have hT : ∑ j, C j * x j ^ 2 ≤ S.relaxation * ∑ j, x j ^ 2 / (S.relaxation / fixSmall C j) := by
    rw [mul_sum]
    refine sum_le_sum fun j _ => ?_
    rw [div_div_eq_mul_div, mul_div_cancel₀ _ hω.ne']
    calc C j * x j ^ 2 ≤ fixSmall C j * x j ^ 2 := mul_le_mul_of_nonneg_right (hCle j) (sq_nonneg _)
      _ = _ := by ring
  have hsplit : ∑ j, C j * x j ^ 2 = ∑ j, (∑ i, |M i j| * trainWeight a i) * x j ^ 2 +
      ∑ j, (gs.map fun g => g.2.2 j).sum * x j ^ 2 := by
    rw [← sum_add_distrib]; exact sum_congr rfl fun j _ => by simp only [hC]; ring
  rw [hE]
  have : S.relaxation * ∑ i, trainWeight a i / fixSmall R i * (∑ j, M i j * x j) ^ 2 ≤
      ∑ i, trainWeight a i / fixSmall R i * (∑ j, M i j * x j) ^ 2 := mul_le_of_le_one_left hP hω1
  dsimp only
  linarith

/-- The step sizes of PDHG with preconditioning, for a matrix projector and any list of regularizers that keep their
step-size contract, satisfy the convergence condition: for every volume supported on the solution mask, the
`sigma`-weighted energy of the projection (over the training pixels) plus the energies of the regularizers is at most
`∑ x_j² / tau_j`. Relaxation in `(0, 1]`; row sums, and column sums plus regularizer weights, at most `10⁵`. -/
theorem C14_diagonal_scaling (S : Solver ν ι Q) (M : ι → ν → ℝ) (a : Args ν ι) (rnd : Arr ι) (hs : SensibleScale M a)
    (hω : 0 < S.relaxation) (hω1 : S.relaxation ≤ 1)
    (gs : List (Reg ν Q × (Arr ν → ℝ) × Arr ν)) (hregs : S.regs = gs.map (·.1))
    (hg : ∀ g ∈ gs, StepContract g.1 g.2.1 g.2.2)
    (hcols : ∀ j, (∑ i, |M i j|) + (gs.map fun g => g.2.2 j).sum ≤ 100000) {sigma tau}
    (h : pdhgScaling S (matrixOp M) a true rnd = .ok (sigma, tau)) (x : Arr ν) (hx : ZeroOutsideMask a x) :
    (∀ i, 0 < sigma i) ∧ (∀ j, 0 < tau j) ∧
    ∑ i, sigma i * trainWeight a i * (∑ j, M i j * x j) ^ 2 + (gs.map fun g => g.2.1 x).sum ≤ ∑ j, x j ^ 2 / tau j := by
  obtain ⟨h1, h2, h3⟩ := C14_diagonal_scaling_relaxed S M a rnd hs hω hω1 gs hregs hg hcols h x hx
  refine ⟨h1, h2, h3.trans (mul_le_of_le_one_left (sum_nonneg fun j _ => div_nonneg (sq_nonneg _) (h2 j).le) hω1)⟩

/-- Diagonal matrix with a strong and a weak entry. -/
private noncomputable def diagBig : Fin 2 → Fin 2 → ℝ := fun i j => if i = j then (if i = 0 then 10000000 else 50) else 0

/-- Without the size restriction the condition fails: for `diag(10⁷, 50)` the weak row and column are below the
threshold `10⁻⁵·max` and their sums are replaced by 1, and on the weak voxel the weighted energy is 2500 times larger
than allowed. -/
theorem C65_threshold_violated :
    ∃ (M : Fin 2 → Fin 2 → ℝ) (sigma : Arr (Fin 2)) (tau : Arr (Fin 2)) (x : Arr (Fin 2)),
      pdhgScaling (Q := Unit) ⟨1, none, [], .new .l2 none, .new .l2 none, none⟩ (matrixOp M) { iterations := 1 } true
        (fun _ => 1) = .ok (sigma, tau) ∧
      ∑ i, sigma i * (∑ j, M i j * x j) ^ 2 = 2500 * ∑ j, x j ^ 2 / tau j ∧ 0 < ∑ j, x j ^ 2 / tau j := by
  have hf : (fun j : Fin 2 => abs (∑ i, |diagBig i j|)) = ![(10000000 : ℝ), 50] := by
    funext j; fin_cases j <;> simp [diagBig, Fin.sum_univ_two]
  have hg : (fun i : Fin 2 => abs (∑ j, |diagBig i j|)) = ![(10000000 : ℝ), 50] := by
    funext j; fin_cases j <;> simp [diagBig, Fin.sum_univ_two]
  have hmax : npMax ![(10000000 : ℝ), 50] = 10000000 := by
    apply le_antisymm
    · exact npMax_le (by norm_num) (by intro i; fin_cases i <;> norm_num)
    · exact le_npMax ![(10000000 : ℝ), 50] 0
  have hfix : fixSmall ![(10000000 : ℝ), 50] = ![10000000, 1] := by
    funext i; unfold fixSmall; rw [hmax]; fin_cases i <;> norm_num
  refine ⟨diagBig, fun i => 1 / ![(10000000 : ℝ), 1] i, fun i => 1 / ![(10000000 : ℝ), 1] i, ![0, 1], ?_, ?_, ?_⟩
  · simp only [pdhgScaling, matrixOp, if_true, diagonalScaling, initBMasks, applyMask, mul_one, List.foldl_nil]
    rw [hf, hg, hmax, hfix]
    norm_num
  · simp [diagBig, Fin.sum_univ_two]; norm_num
  · simp [Fin.sum_univ_two]

/-- Without the size restriction what remains is the condition with the sums that were actually used: if no row or
column sum is below the threshold `10⁻⁵·max`, the condition holds for every matrix (no regularizers). -/
theorem C65_threshold_partial (S : Solver ν ι Q) (M : ι → ν → ℝ) (rnd : Arr ι) (hreg : S.regs = [])
    (hω : 0 < S.relaxation) (hω1 : S.relaxation ≤ 1) (n : ℕ)
    (hrows : ∀ i k, (1 / 100000) * ∑ j, |M k j| ≤ ∑ j, |M i j|) (hcols : ∀ j k, (1 / 100000) * ∑ i, |M i k| ≤ ∑ i, |M i j|)
    {sigma tau} (h : pdhgScaling S (matrixOp M) { iterations := n } true rnd = .ok (sigma, tau)) (x : Arr ν) :
    ∑ i, sigma i * (∑ j, M i j * x j) ^ 2 ≤ ∑ j, x j ^ 2 / tau j := by
  have key : ∀ {α : Type} [Fintype α] (f : Arr α), (∀ i, 0 ≤ f i) → npMax f ≠ 0 → (∀ i k, (1 / 100000) * f k ≤ f i) →
      fixSmall f = f := by
    intro α _ f h0 hm hle
    have hpos : 0 < npMax f := lt_of_le_of_ne (npMax_nonneg h0) hm.symm
    funext i
    unfold fixSmall
    rw [if_neg]
    rw [not_lt, le_div_iff₀ hpos]
    have : npMax f ≤ f i * 100000 := npMax_le (by have := h0 i; linarith) fun k => by have := hle i k; linarith
    linarith
  have hc0 : ∀ j, 0 ≤ ∑ i, |M i j| := fun j => sum_nonneg fun i _ => abs_nonneg _
  have hr0 : ∀ i, 0 ≤ ∑ j, |M i j| := fun i => sum_nonneg fun j _ => abs_nonneg _
  have e3 : (fun j => abs (∑ i, |M i j|)) = fun j => ∑ i, |M i j| := by funext j; exact abs_of_nonneg (hc0 j)
  have e4 : (fun i => abs (∑ j, |M i j|)) = fun i => ∑ j, |M i j| := by funext i; exact abs_of_nonneg (hr0 i)
  simp only [pdhgScaling, matrixOp, if_true, diagonalScaling, initBMasks, applyMask, mul_one, hreg, List.foldl_nil] at h
  rw [e3, e4] at h
  split_ifs at h with h1 h2
  simp only [Except.ok.injEq, Prod.mk.injEq] at h
  obtain ⟨rfl, rfl⟩ := h
  have hCpos := fixSmall_pos hc0 h1
  have hRpos := fixSmall_pos hr0 h2
  rw [key _ hc0 h1 hcols] at *
  rw [key _ hr0 h2 hrows] at *
  have hpc := pockChambolle M (fun _ => 1) (fun _ => 1) (fun i => ∑ j, |M i j|) (fun j => ∑ i, |M i j|)
    (fun _ => zero_le_one) (fun _ => zero_le_one) hRpos (fun i => by simp) (fun j => by simp) x (fun j => one_mul _)
  have hE : ∑ i, S.relaxation / (∑ j, |M i j|) * (∑ j, M i j * x j) ^ 2 =
      S.relaxation * ∑ i, 1 / (∑ j, |M i j|) * (∑ j, M i j * x j) ^ 2 := by
    rw [mul_sum]; exact sum_congr rfl fun i _ => by ring
  have hF : ∑ j, x j ^ 2 / (S.relaxation / ∑ i, |M i j|) = (∑ j, (∑ i, |M i j|) * x j ^ 2) / S.relaxation := by
    rw [sum_div]; exact sum_congr rfl fun j _ => by rw [div_div_eq_mul_div]; ring
  rw [hE, hF, le_div_iff₀ hω]
  have hP : 0 ≤ ∑ i, 1 / (∑ j, |M i j|) * (∑ j, M i j * x j) ^ 2 :=
    sum_nonneg fun i _ => mul_nonneg (div_nonneg zero_le_one (hRpos i).le) (sq_nonneg _)
  nlinarith [mul_nonneg hP (sub_nonneg.2 hω1), mul_nonneg (mul_nonneg hP hω.le) (sub_nonneg.2 hω1)]

/-- Non-vacuity: a concrete signed matrix with an l1-type regularizer (`K` = identity, `σ = 1`, weights 1). -/
example : ∃ (r : Reg (Fin 1) Unit) (E : Arr (Fin 1) → ℝ) (c : Arr (Fin 1)), StepContract r E c ∧
    SensibleScale demoM demoArgs ∧ (∀ j, (∑ i, |demoM i j|) + ([(r, E, c)].map fun g => g.2.2 j).sum ≤ 100000) ∧
    ∃ p, pdhgScaling ⟨1, none, [r], .new .l2 none, .new .l2 none, none⟩ (matrixOp demoM) demoArgs true (fun _ => 1)
      = .ok p := by
  let r : Reg (Fin 1) Unit := ⟨fun _ _ => 1, (), fun q _ => q, id, fun q => (fun _ => 0, q), fun v _ => v⟩
  refine ⟨r, fun x => ∑ j, x j ^ 2, fun _ => 1, ⟨fun _ => rfl, fun _ => zero_le_one, fun x => by simp⟩, demo_scale, ?_, ?_⟩
  · intro j; simp [demoM, Fin.sum_univ_two]; norm_num
  · simp only [pdhgScaling, matrixOp, diagonalScaling, if_true]
    rw [if_neg, if_neg]
    · exact ⟨_, rfl⟩
    · refine ne_of_gt (lt_of_lt_of_le ?_ (le_npMax _ 0))
      simp [demoArgs, applyMask, demoM]
    · refine ne_of_gt (lt_of_lt_of_le ?_ (le_npMax _ 0))
      simp [demoArgs, applyMask, demoM, initBMasks, Fin.sum_univ_two, r]
      positivity

end Verif
