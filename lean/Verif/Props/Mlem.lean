import Verif.Lemmas.Solvers
import Verif.Lemmas.Scaling
import Verif.Spec.Solvers
import Mathlib.Analysis.SpecialFunctions.Log.Basic

/-! # C08–C10: MLEM -/

namespace Verif
open Classical DataTerm Finset

variable {ν ι Q : Type} [Fintype ν] [Fintype ι]

/-! ## Specification -/

/-- The Poisson negative log-likelihood (Kullback-Leibler divergence up to a constant of the data) of expected counts
`y` for measured counts `b`. -/
noncomputable def poissonNLL (b y : Arr ι) : ℝ := ∑ i, (y i - b i * Real.log (y i))

/-- Expected counts of a volume: projection plus background. -/
def expected (S : Solver ν ι Q) (A : Operator ν ι) (x : Arr ν) : Arr ι := S.term.addBackground (A.fwd x)

/-! ## C08 -/

/-- C08. With a back-projection that keeps non-negative data non-negative, non-negative data, start and solution mask,
and upper limits (if any) not below zero, the result of MLEM is non-negative, for any number of iterations, tolerance,
masks, background. -/
theorem C08_mlem_nonneg {S : Solver ν ι Q} {A : Operator ν ι} {b : Arr ι} {a : Args ν ι} {x info S'}
    (h : mlem S A b a = .ok (x, info, S')) (hA : ∀ y : Arr ι, (∀ i, 0 ≤ y i) → ∀ j, 0 ≤ A.adj y j)
    (hb : ∀ i, 0 ≤ b i) (hm : ∀ m, a.bMask = some m → Binary m) (ht : ∀ m, a.bTestMask = some m → Binary m)
    (hx : ∀ j, 0 ≤ startVolume a 1 j) (hxm : ∀ m, a.xMask = some m → ∀ j, 0 ≤ m j)
    (hu : ∀ u, a.upper = some u → ∀ j, 0 ≤ u.get j) : ∀ j, 0 ≤ x j := by
  obtain ⟨tt, info0, htau, -, -, -, he⟩ := mlem_ok h
  simp only [Prod.mk.injEq] at he
  rw [he.1]
  have hmask : ∀ v : Arr ν, (∀ j, 0 ≤ v j) → ∀ j, 0 ≤ applyMask a.xMask v j := by
    intro v hv j
    unfold applyMask
    cases hM : a.xMask with
    | none => exact hv j
    | some m => exact mul_nonneg (hv j) (hxm m hM j)
  have hclip : ∀ v : Arr ν, (∀ j, 0 ≤ v j) → ∀ j, 0 ≤ clipMask a v j := by
    intro v hv
    refine hmask _ fun j => ?_
    unfold clip1
    cases hL : a.lower <;> cases hU : a.upper <;> simp only [Option.map_none, Option.map_some]
    · exact hv j
    · exact le_min (hv j) (hu _ hU j)
    · exact le_max_of_le_left (hv j)
    · exact le_min (le_max_of_le_left (hv j)) (hu _ hU j)
  have hbm : ∀ i, 0 ≤ applyMask (initBMasks a.bMask a.bTestMask).1 (fun _ => (1 : ℝ)) i := by
    intro i
    unfold initBMasks applyMask
    cases hT : a.bTestMask with
    | none =>
      cases hB : a.bMask with
      | none => simp
      | some m => rcases hm m hB i with h | h <;> simp [h]
    | some t =>
      cases hB : a.bMask with
      | none => rcases ht t hT i with h | h <;> simp [h]
      | some m => rcases hm m hB i with h | h <;> rcases ht t hT i with h' | h' <;> simp [h, h']
  refine forRange_inv (P := fun s : XState ν => ∀ j, 0 ≤ s.x j) (hmask _ hx) fun k s hs => ?_
  have hnew := hclip (fun j => s.x j * (A.adj (fun i => b i / max ((S.term.assignData (some (.array b))
      (.scalar 1)).addBackground (A.fwd s.x) i) eps) j / A.adj (applyMask (initBMasks a.bMask a.bTestMask).1 fun _ => 1) j))
    fun j => mul_nonneg (hs j) (div_nonneg (hA _ (fun i => div_nonneg (hb i)
      (le_max_of_le_right (by norm_num [eps]))) j) (hA _ hbm j))
  unfold mlemStep
  cases S.tolerance with
  | none => exact hnew
  | some t => dsimp only; split_ifs <;> first | exact hs | exact hnew

/-- C08. Voxels that are zero at the start stay zero, if zero is within the limits. No sign condition is needed. -/
theorem C08_mlem_zero {S : Solver ν ι Q} {A : Operator ν ι} {b : Arr ι} {a : Args ν ι} {x info S'}
    (h : mlem S A b a = .ok (x, info, S')) (j : ν) (hx : startVolume a 1 j = 0)
    (hl : ∀ l, a.lower = some l → l.get j ≤ 0) (hu : ∀ u, a.upper = some u → 0 ≤ u.get j) : x j = 0 := by
  obtain ⟨tt, info0, htau, -, -, -, he⟩ := mlem_ok h
  simp only [Prod.mk.injEq] at he
  rw [he.1]
  have hclip : ∀ v : Arr ν, v j = 0 → clipMask a v j = 0 := by
    intro v hv
    have : clip1 (a.lower.map (·.get j)) (a.upper.map (·.get j)) (v j) = 0 := by
      unfold clip1
      rw [hv]
      cases hL : a.lower <;> cases hU : a.upper <;> simp only [Option.map_none, Option.map_some]
      · exact min_eq_left (hu _ hU)
      · exact max_eq_left (hl _ hL)
      · rw [max_eq_left (hl _ hL)]; exact min_eq_left (hu _ hU)
    unfold clipMask applyMask
    cases a.xMask <;> simp [this]
  refine forRange_inv (P := fun s : XState ν => s.x j = 0) ?_ fun k s hs => ?_
  · change applyMask a.xMask (startVolume a 1) j = 0
    unfold applyMask
    cases a.xMask <;> simp [hx]
  · have hnew := hclip (fun j => s.x j * (A.adj (fun i => b i / max ((S.term.assignData (some (.array b))
      (.scalar 1)).addBackground (A.fwd s.x) i) eps) j / A.adj (applyMask (initBMasks a.bMask a.bTestMask).1 fun _ => 1) j))
      (by simp [hs])
    unfold mlemStep
    cases S.tolerance with
    | none => exact hnew
    | some t => dsimp only; split_ifs <;> first | exact hs | exact hnew

/-! ## C09, C10 -/

/-- The setting of C09 and C10. -/
structure MlemSetting (M : ι → ν → ℝ) (S : Solver ν ι Q) (b : Arr ι) (a : Args ν ι) : Prop where
  matrix : ∀ i j, 0 ≤ M i j
  data : ∀ i, 0 ≤ b i
  start : ∀ j, 0 ≤ startVolume a 1 j
  noTol : S.tolerance = none
  noLower : a.lower = none
  noUpper : a.upper = none
  noMask : a.bMask = none
  noTest : a.bTestMask = none
  xMask : ∀ m, a.xMask = some m → Binary m

/-- The map of one MLEM iteration in that setting. -/
noncomputable def emMap (M : ι → ν → ℝ) (b c : Arr ι) (x : Arr ν) : Arr ν :=
  fun j => x j * ((∑ i, M i j * (b i / max (∑ j, M i j * x j + c i) eps)) / ∑ i, M i j)

/-- The background. -/
noncomputable def bgOf (S : Solver ν ι Q) : Arr ι := S.term.addBackground fun _ => 0

theorem mlem_iterate {M : ι → ν → ℝ} {S : Solver ν ι Q} {b : Arr ι} {a : Args ν ι} {n x info S'}
    (h : mlem S (matrixOp M) b { a with iterations := n } = .ok (x, info, S')) (hs : MlemSetting M S b a) :
    x = (emMap M b (bgOf S))^[n] (applyMask a.xMask (startVolume a 1)) ∧ (∀ j, 0 < ∑ i, M i j) ∧
      (∀ j, 0 ≤ x j) ∧ ∀ m, a.xMask = some m → ∀ j, m j = 0 → x j = 0 := by
  obtain ⟨tt, info0, htau, -, -, -, he⟩ := mlem_ok h
  simp only [Prod.mk.injEq] at he
  have hbm : (initBMasks a.bMask a.bTestMask).1 = none := by simp [hs.noMask, hs.noTest, initBMasks]
  have hbm2 : (initBMasks a.bMask a.bTestMask).2 = none := by simp [hs.noTest, initBMasks]
  have hc : ∀ j, ∑ i, M i j ≠ 0 := fun j => by
    have := htau j
    simpa [hbm, matrixOp, applyMask] using this
  have hcp : ∀ j, 0 < ∑ i, M i j := fun j => lt_of_le_of_ne (sum_nonneg fun i _ => hs.matrix i j) (hc j).symm
  have hemnn : ∀ v : Arr ν, (∀ j, 0 ≤ v j) → ∀ j, 0 ≤ emMap M b (bgOf S) v j := fun v hv j =>
    mul_nonneg (hv j) (div_nonneg (sum_nonneg fun i _ => mul_nonneg (hs.matrix i j) (div_nonneg (hs.data i)
      (le_max_of_le_right (by norm_num [eps])))) (hcp j).le)
  have hstart : ∀ j, 0 ≤ applyMask a.xMask (startVolume a 1) j := by
    intro j
    unfold applyMask
    cases hM : a.xMask with
    | none => exact hs.start j
    | some m => exact mul_nonneg (hs.start j) (by rcases hs.xMask m hM j with h | h <;> simp [h])
  have hall : ∀ k, (∀ j, 0 ≤ (emMap M b (bgOf S))^[k] (applyMask a.xMask (startVolume a 1)) j) ∧
      ∀ m, a.xMask = some m → ∀ j, m j = 0 → (emMap M b (bgOf S))^[k] (applyMask a.xMask (startVolume a 1)) j = 0 := by
    intro k
    induction k with
    | zero => exact ⟨hstart, fun m hm j hj => by simp [applyMask, hm, hj]⟩
    | succ k ih =>
      rw [Function.iterate_succ_apply']
      exact ⟨hemnn _ ih.1, fun m hm j hj => by simp [emMap, ih.2 m hm j hj]⟩
  -- the loop
  have key : x = (emMap M b (bgOf S))^[n] (applyMask a.xMask (startVolume a 1)) := by
    rw [he.1]
    have := forRange_ind (n := n) (step := mlemStep (matrixOp M) { a with iterations := n }
      (S.term.assignData (some (.array b)) (.scalar 1)) tt b (initBMasks a.bMask a.bTestMask).1
      (initBMasks a.bMask a.bTestMask).2 ((matrixOp M).adj (applyMask (initBMasks a.bMask a.bTestMask).1 fun _ => 1)) S.tolerance)
      (s := ⟨applyMask a.xMask (a.x0.getD fun _ => 1), info0⟩)
      (fun k s => s.x = (emMap M b (bgOf S))^[k] (applyMask a.xMask (startVolume a 1)))
      (fun s => s.x = (emMap M b (bgOf S))^[n] (applyMask a.xMask (startVolume a 1))) rfl ?_ ?_ (fun _ h => h)
    · exact this
    · intro k s _ hP _
      rw [Function.iterate_succ_apply', ← hP]
      unfold mlemStep
      rw [hs.noTol]
      dsimp only
      have hz := (hall k).2
      rw [← hP] at hz
      funext j
      have hcl : ∀ v : Arr ν, (∀ m, a.xMask = some m → m j = 0 → v j = 0) → clipMask { a with iterations := n } v j = v j := by
        intro v hv
        unfold clipMask applyMask clip1
        simp only [hs.noLower, hs.noUpper, Option.map_none]
        cases hM : a.xMask with
        | none => rfl
        | some m =>
          rcases hs.xMask m hM j with h | h
          · simp [h, hv m hM h]
          · simp [h]
      rw [hcl _ fun m hm hj => by simp [hz m hm j hj]]
      unfold emMap
      have hbg : ∀ i, (S.term.assignData (some (.array b)) (.scalar 1)).addBackground ((matrixOp M).fwd s.x) i =
          ∑ j, M i j * s.x j + bgOf S i := by
        intro i
        unfold bgOf addBackground
        change (match S.term.background with | none => _ | some bg => _) = _
        cases S.term.background <;> simp [matrixOp]
      simp only [hbm, hbg]
      simp [matrixOp, applyMask]
    · intro k s _ _ hbr
      unfold mlemStep at hbr
      rw [hs.noTol] at hbr
      simp at hbr
  exact ⟨key, hcp, key ▸ (hall n).1, key ▸ (hall n).2⟩

theorem expected_eq (S : Solver ν ι Q) (M : ι → ν → ℝ) (x : Arr ν) (i : ι) :
    expected S (matrixOp M) x i = ∑ j, M i j * x j + bgOf S i := by
  unfold expected bgOf addBackground
  cases S.term.background <;> simp [matrixOp]

theorem mlem_succ {M : ι → ν → ℝ} {S : Solver ν ι Q} {b : Arr ι} {a : Args ν ι} {n x x' info info' S' S''}
    (h : mlem S (matrixOp M) b { a with iterations := n } = .ok (x, info, S'))
    (h' : mlem S (matrixOp M) b { a with iterations := n + 1 } = .ok (x', info', S''))
    (hs : MlemSetting M S b a) : x' = emMap M b (bgOf S) x := by
  rw [(mlem_iterate h' hs).1, Function.iterate_succ_apply', ← (mlem_iterate h hs).1]

/-- Sensitivity-weighted sum of an EM step, exchanged. -/
theorem emMap_sum {M : ι → ν → ℝ} {b c : Arr ι} {x : Arr ν} (hc : ∀ j, 0 < ∑ i, M i j) :
    ∑ j, (∑ i, M i j) * emMap M b c x j =
      ∑ i, b i * ((∑ j, M i j * x j) / max (∑ j, M i j * x j + c i) eps) := by
  have h1 : ∀ j, (∑ i, M i j) * emMap M b c x j = ∑ i, M i j * x j * (b i / max (∑ j, M i j * x j + c i) eps) := by
    intro j
    unfold emMap
    have := (hc j).ne'
    rw [mul_comm, mul_assoc, div_mul_cancel₀ _ this, mul_sum]
    exact sum_congr rfl fun i _ => by ring
  simp_rw [h1]
  rw [sum_comm]
  refine sum_congr rfl fun i _ => ?_
  rw [← sum_mul]
  ring

/-- C09. Total counts: without background, an MLEM iteration from a volume whose projections reach the division floor
wherever counts were measured makes the sensitivity-weighted sum of the volume (the total of its projections) equal to
the total of the data. -/
theorem C09_mlem_counts {M : ι → ν → ℝ} {S : Solver ν ι Q} {b : Arr ι} {a : Args ν ι} {n x x' info info' S' S''}
    (h : mlem S (matrixOp M) b { a with iterations := n } = .ok (x, info, S'))
    (h' : mlem S (matrixOp M) b { a with iterations := n + 1 } = .ok (x', info', S''))
    (hs : MlemSetting M S b a) (hbg : S.term.background = none)
    (hfloor : ∀ i, b i ≠ 0 → eps ≤ (matrixOp M).fwd x i) : ∑ i, (matrixOp M).fwd x' i = ∑ i, b i := by
  obtain ⟨-, hc, -, -⟩ := mlem_iterate h hs
  have hbg0 : ∀ i, bgOf S i = 0 := fun i => by simp [bgOf, addBackground, hbg]
  have e1 : ∑ i, (matrixOp M).fwd x' i = ∑ j, (∑ i, M i j) * x' j := by
    simp only [matrixOp, sum_mul]
    exact sum_comm
  rw [e1, mlem_succ h h' hs, emMap_sum hc]
  refine sum_congr rfl fun i _ => ?_
  by_cases hb : b i = 0
  · simp [hb]
  · have hf : eps ≤ ∑ j, M i j * x j := hfloor i hb
    have h0 : (0 : ℝ) < eps := by norm_num [eps]
    rw [hbg0, add_zero, max_eq_left hf, div_self (by linarith), mul_one]

/-- C09. In every case (any non-negative background, projections above the floor or not) the total of the projections
of the result never exceeds the total of the data. -/
theorem C09_mlem_counts_le {M : ι → ν → ℝ} {S : Solver ν ι Q} {b : Arr ι} {a : Args ν ι} {n x' info' S''}
    (h' : mlem S (matrixOp M) b { a with iterations := n + 1 } = .ok (x', info', S''))
    (hs : MlemSetting M S b a) (hbg : ∀ i, 0 ≤ expected S (matrixOp M) (fun _ => 0) i) :
    ∑ i, (matrixOp M).fwd x' i ≤ ∑ i, b i := by
  obtain ⟨hx', hc, -, -⟩ := mlem_iterate h' hs
  have hnn : ∀ k j, 0 ≤ (emMap M b (bgOf S))^[k] (applyMask a.xMask (startVolume a 1)) j := by
    intro k
    induction k with
    | zero =>
      intro j
      simp only [Function.iterate_zero, id]
      unfold applyMask
      cases hM : a.xMask with
      | none => exact hs.start j
      | some m => exact mul_nonneg (hs.start j) (by rcases hs.xMask m hM j with h | h <;> simp [h])
    | succ k ih =>
      intro j
      rw [Function.iterate_succ_apply']
      exact mul_nonneg (ih j) (div_nonneg (sum_nonneg fun i _ => mul_nonneg (hs.matrix i j) (div_nonneg (hs.data i)
        (le_max_of_le_right (by norm_num [eps])))) (hc j).le)
  have e1 : ∑ i, (matrixOp M).fwd x' i = ∑ j, (∑ i, M i j) * x' j := by
    simp only [matrixOp, sum_mul]
    exact sum_comm
  rw [e1, hx', Function.iterate_succ_apply', emMap_sum hc]
  refine sum_le_sum fun i _ => ?_
  have hp : 0 ≤ ∑ j, M i j * (emMap M b (bgOf S))^[n] (applyMask a.xMask (startVolume a 1)) j :=
    sum_nonneg fun j _ => mul_nonneg (hs.matrix i j) (hnn n j)
  have hbi : 0 ≤ bgOf S i := by have := hbg i; rw [expected_eq] at this; simpa using this
  have h0 : (0 : ℝ) < max (∑ j, M i j * (emMap M b (bgOf S))^[n] (applyMask a.xMask (startVolume a 1)) j + bgOf S i) eps :=
    lt_max_of_lt_right (by norm_num [eps])
  calc _ ≤ b i * 1 := mul_le_mul_of_nonneg_left ((div_le_one h0).2 (le_max_of_le_left (by linarith))) (hs.data i)
    _ = b i := mul_one _

/-- Jensen's inequality for the logarithm, with a constant part `c` and non-negative parts `m`. -/
private theorem log_jensen {m g : Arr ν} {c : ℝ} (hm : ∀ j, 0 ≤ m j) (hc : 0 ≤ c) (hpos : 0 < ∑ j, m j + c)
    (hg : ∀ j, 0 < m j → 0 < g j) (hg0 : ∀ j, 0 ≤ g j) :
    0 < ∑ j, m j * g j + c ∧
    (∑ j, m j * Real.log (g j)) ≤ (∑ j, m j + c) *
      (Real.log (∑ j, m j * g j + c) - Real.log (∑ j, m j + c)) := by
  set Y := ∑ j, m j + c
  set Y' := ∑ j, m j * g j + c
  have hsum0 : 0 ≤ ∑ j, m j * g j := sum_nonneg fun j _ => mul_nonneg (hm j) (hg0 j)
  have hY' : 0 < Y' := by
    by_contra hn
    push Not at hn
    have hc0 : c = 0 := by simp only [Y'] at hn; linarith
    have hs0 : ∑ j, m j * g j = 0 := by simp only [Y'] at hn; linarith
    have hz := (sum_eq_zero_iff_of_nonneg fun j _ => mul_nonneg (hm j) (hg0 j)).1 hs0
    have : ∑ j, m j = 0 := sum_eq_zero fun j _ => by
      rcases (hm j).lt_or_eq with h | h
      · have := hz j (mem_univ j)
        have h2 := hg j h
        rcases mul_eq_zero.1 this with h3 | h3 <;> linarith
      · exact h.symm
    simp only [Y, this, hc0] at hpos
    linarith
  refine ⟨hY', ?_⟩
  set G := Y' / Y with hG
  have hGpos : 0 < G := div_pos hY' hpos
  have hlogG : Real.log Y' - Real.log Y = Real.log G := by rw [hG, Real.log_div hY'.ne' hpos.ne']
  rw [hlogG]
  -- tangent at G
  have ht : ∀ j, m j * Real.log (g j) ≤ m j * (Real.log G + g j / G - 1) := by
    intro j
    rcases (hm j).lt_or_eq with h | h
    · refine mul_le_mul_of_nonneg_left ?_ (hm j)
      have := Real.log_le_sub_one_of_pos (div_pos (hg j h) hGpos)
      rw [Real.log_div (hg j h).ne' hGpos.ne'] at this
      linarith
    · simp [← h]
  have hc' : c * 0 ≤ c * (Real.log G + 1 / G - 1) := by
    refine mul_le_mul_of_nonneg_left ?_ hc
    have := Real.log_le_sub_one_of_pos (div_pos one_pos hGpos)
    rw [Real.log_div one_ne_zero hGpos.ne', Real.log_one] at this
    linarith
  have hfin : ∑ j, m j * (Real.log G + g j / G - 1) + c * (Real.log G + 1 / G - 1) = Y * Real.log G := by
    have : ∑ j, m j * (Real.log G + g j / G - 1) = (∑ j, m j) * (Real.log G - 1) + (∑ j, m j * g j) / G := by
      rw [sum_mul, sum_div, ← sum_add_distrib]
      exact sum_congr rfl fun j _ => by ring
    rw [this]
    have hYG : Y' / G = Y := by rw [hG]; field_simp
    calc _ = (∑ j, m j + c) * (Real.log G - 1) + (∑ j, m j * g j + c) / G := by ring
      _ = Y * (Real.log G - 1) + Y' / G := rfl
      _ = _ := by rw [hYG]; ring
  calc ∑ j, m j * Real.log (g j) ≤ ∑ j, m j * (Real.log G + g j / G - 1) := sum_le_sum fun j _ => ht j
    _ ≤ _ := by linarith

/-- The Kullback-Leibler divergence of one non-negative number from another. -/
noncomputable def klDiv (p q : ℝ) : ℝ := p * Real.log (p / q) - p + q

/-- Expected counts of a matrix and a background. -/
noncomputable def counts (M : ι → ν → ℝ) (c : Arr ι) (x : Arr ν) : Arr ι := fun i => ∑ j, M i j * x j + c i

/-- EM decreases the negative log-likelihood at least by the weighted divergence of the new volume from the old one. -/
theorem emMap_decrease {M : ι → ν → ℝ} {b c : Arr ι} {x : Arr ν} (hM : ∀ i j, 0 ≤ M i j) (hb : ∀ i, 0 ≤ b i) (hbgnn : ∀ i, 0 ≤ c i)
    (hc : ∀ j, 0 < ∑ i, M i j) (hx0 : ∀ j, 0 ≤ x j) (hfloor : ∀ i, b i ≠ 0 → eps ≤ counts M c x i) :
    (∀ i, b i ≠ 0 → 0 < counts M c (emMap M b c x) i) ∧
    poissonNLL b (counts M c (emMap M b c x)) + ∑ j, (∑ i, M i j) * klDiv (emMap M b c x j) (x j) ≤ poissonNLL b (counts M c x) := by
  have h0 : (0 : ℝ) < eps := by norm_num [eps]
  set g : Arr ν := fun j => (∑ i, M i j * (b i / max (∑ j, M i j * x j + c i) eps)) / ∑ i, M i j with hg
  set x' := emMap M b c x with hx'
  have hgx : ∀ j, x' j = x j * g j := fun j => by rw [hx']; rfl
  have hq0 : ∀ i, 0 ≤ b i / max (∑ j, M i j * x j + c i) eps := fun i =>
    div_nonneg (hb i) (le_max_of_le_right h0.le)
  have hg0 : ∀ j, 0 ≤ g j := fun j =>
    div_nonneg (sum_nonneg fun i _ => mul_nonneg (hM i j) (hq0 i)) (hc j).le
  have hgpos : ∀ i j, b i ≠ 0 → 0 < M i j * x j → 0 < g j := by
    intro i j hbi hm
    refine div_pos ?_ (hc j)
    have hb : 0 < b i := lt_of_le_of_ne (hb i) (Ne.symm hbi)
    have hMij : 0 < M i j := by
      rcases (hM i j).lt_or_eq with h | h
      · exact h
      · rw [← h, zero_mul] at hm; exact absurd hm (lt_irrefl _)
    have : 0 < M i j * (b i / max (∑ j, M i j * x j + c i) eps) :=
      mul_pos hMij (div_pos hb (lt_max_of_lt_right h0))
    exact lt_of_lt_of_le this (single_le_sum (f := fun i => M i j * (b i / max (∑ j, M i j * x j + c i) eps))
      (fun i _ => mul_nonneg (hM i j) (hq0 i)) (mem_univ i))
  have hE : ∀ i, counts M c x i = ∑ j, M i j * x j + c i := fun _ => rfl
  have hE' : ∀ i, counts M c x' i = ∑ j, M i j * x j * g j + c i := fun i => by
    unfold counts
    congr 1
    exact sum_congr rfl fun j _ => by rw [hgx]; ring
  have hJ : ∀ i, b i ≠ 0 → 0 < counts M c x' i ∧
      b i / (∑ j, M i j * x j + c i) * ∑ j, M i j * x j * Real.log (g j) ≤
        b i * (Real.log (counts M c x' i) - Real.log (counts M c x i)) := by
    intro i hbi
    have hpos : 0 < ∑ j, M i j * x j + c i := by
      have := hfloor i hbi
      rw [hE] at this
      linarith
    obtain ⟨h1, h2⟩ := log_jensen (m := fun j => M i j * x j) (g := g) (c := c i)
      (fun j => mul_nonneg (hM i j) (hx0 j)) (hbgnn i) hpos (fun j hj => hgpos i j hbi hj) hg0
    rw [hE, hE']
    refine ⟨h1, ?_⟩
    have h3 := mul_le_mul_of_nonneg_left h2 (div_nonneg (hb i) hpos.le)
    refine h3.trans (le_of_eq ?_)
    rw [← mul_assoc, div_mul_cancel₀ _ hpos.ne']
  refine ⟨fun i hi => (hJ i hi).1, ?_⟩
  have hJ' : ∀ i, b i / max (∑ j, M i j * x j + c i) eps * ∑ j, M i j * x j * Real.log (g j) ≤
        b i * (Real.log (counts M c x' i) - Real.log (counts M c x i)) := by
    intro i
    by_cases hbi : b i = 0
    · simp [hbi]
    · have hf := hfloor i hbi
      rw [hE] at hf
      rw [max_eq_left hf]
      exact (hJ i hbi).2
  have hsum := sum_le_sum fun i (_ : i ∈ univ) => hJ' i
  -- left side: ∑_j c_j x_j g_j log g_j
  have hL : ∑ i, b i / max (∑ j, M i j * x j + c i) eps * ∑ j, M i j * x j * Real.log (g j) =
      ∑ j, (∑ i, M i j) * x j * (g j * Real.log (g j)) := by
    simp_rw [mul_sum]
    rw [sum_comm]
    refine sum_congr rfl fun j _ => ?_
    have hgj : (∑ i, M i j) * g j = ∑ i, M i j * (b i / max (∑ j, M i j * x j + c i) eps) := by
      rw [hg]
      have := (hc j).ne'
      field_simp
    calc _ = (∑ i, M i j * (b i / max (∑ j, M i j * x j + c i) eps)) * (x j * Real.log (g j)) := by
          rw [sum_mul]
          exact sum_congr rfl fun i _ => by ring
      _ = _ := by rw [← hgj]; ring
  have hK : ∀ j, (∑ i, M i j) * klDiv (x' j) (x j) =
      (∑ i, M i j) * x j * (g j * Real.log (g j)) - (∑ i, M i j) * x j * (g j - 1) := by
    intro j
    unfold klDiv
    rw [hgx]
    rcases (hx0 j).lt_or_eq with hp | hp
    · rw [mul_div_cancel_left₀ _ hp.ne']; ring
    · rw [← hp]; ring
  have hD : ∑ i, (counts M c x' i - counts M c x i) = ∑ j, (∑ i, M i j) * x j * (g j - 1) := by
    simp_rw [hE, hE']
    have : ∀ i, ∑ j, M i j * x j * g j + c i - (∑ j, M i j * x j + c i) = ∑ j, M i j * x j * (g j - 1) := fun i => by
      rw [add_sub_add_right_eq_sub, ← sum_sub_distrib]
      exact sum_congr rfl fun j _ => by ring
    simp_rw [this]
    rw [sum_comm]
    refine sum_congr rfl fun j _ => ?_
    rw [sum_mul, sum_mul]
  have hfin : poissonNLL b (counts M c x') - poissonNLL b (counts M c x) =
      ∑ i, (counts M c x' i - counts M c x i) -
      ∑ i, b i * (Real.log (counts M c x' i) - Real.log (counts M c x i)) := by
    unfold poissonNLL
    rw [← sum_sub_distrib, ← sum_sub_distrib]
    exact sum_congr rfl fun i _ => by ring
  rw [hL] at hsum
  simp_rw [hK]
  rw [sum_sub_distrib]
  rw [hD] at hfin
  linarith

/-- The divergence of non-negative numbers is at least the squared distance of the roots. -/
theorem klDiv_sqrt {p q : ℝ} (hp : 0 ≤ p) (hq : 0 ≤ q) (h : q = 0 → p = 0) : (Real.sqrt p - Real.sqrt q) ^ 2 ≤ klDiv p q := by
  have e : (Real.sqrt p - Real.sqrt q) ^ 2 = p + q - 2 * (Real.sqrt p * Real.sqrt q) := by
    rw [sub_sq, Real.sq_sqrt hp, Real.sq_sqrt hq]; ring
  rw [e]
  unfold klDiv
  rcases hp.lt_or_eq with hp' | hp'
  · have hq' : 0 < q := lt_of_le_of_ne hq fun hq0 => by rw [h hq0.symm] at hp'; exact lt_irrefl _ hp'
    have sp := Real.sqrt_pos.2 hp'
    have sq := Real.sqrt_pos.2 hq'
    have h1 := Real.log_le_sub_one_of_pos (div_pos sq sp)
    have h2 : Real.log (p / q) = -2 * Real.log (Real.sqrt q / Real.sqrt p) := by
      rw [Real.log_div hp'.ne' hq'.ne', Real.log_div sq.ne' sp.ne', Real.log_sqrt hp, Real.log_sqrt hq]; ring
    have h3 : p * (Real.sqrt q / Real.sqrt p) = Real.sqrt p * Real.sqrt q := by
      have : p = Real.sqrt p * Real.sqrt p := (Real.mul_self_sqrt hp).symm
      nth_rewrite 1 [this]
      field_simp
    rw [h2]
    have h4 := mul_le_mul_of_nonneg_left h1 hp
    rw [mul_sub, h3] at h4
    nlinarith
  · rw [← hp']; simp

theorem klDiv_nonneg {p q : ℝ} (hp : 0 ≤ p) (hq : 0 ≤ q) (h : q = 0 → p = 0) : 0 ≤ klDiv p q :=
  (sq_nonneg _).trans (klDiv_sqrt hp hq h)

/-- C10. EM monotonicity: an MLEM iteration from a volume whose expected counts reach the division floor wherever counts
were measured keeps the expected counts positive there and never increases the Poisson negative log-likelihood, with any
non-negative background. -/
theorem C10_mlem_likelihood {M : ι → ν → ℝ} {S : Solver ν ι Q} {b : Arr ι} {a : Args ν ι} {n x x' info info' S' S''}
    (h : mlem S (matrixOp M) b { a with iterations := n } = .ok (x, info, S'))
    (h' : mlem S (matrixOp M) b { a with iterations := n + 1 } = .ok (x', info', S''))
    (hs : MlemSetting M S b a) (hbg : ∀ i, 0 ≤ expected S (matrixOp M) (fun _ => 0) i)
    (hfloor : ∀ i, b i ≠ 0 → eps ≤ expected S (matrixOp M) x i) :
    (∀ i, b i ≠ 0 → 0 < expected S (matrixOp M) x' i) ∧
    poissonNLL b (expected S (matrixOp M) x') ≤ poissonNLL b (expected S (matrixOp M) x) := by
  obtain ⟨-, hc, hx0, -⟩ := mlem_iterate h hs
  have hx0' := (mlem_iterate h' hs).2.2.1
  have hx' := mlem_succ h h' hs
  have hbgnn : ∀ i, 0 ≤ bgOf S i := fun i => by have := hbg i; rw [expected_eq] at this; simpa using this
  have hE : ∀ x, expected S (matrixOp M) x = counts M (bgOf S) x := fun x => funext fun i => expected_eq S M x i
  rw [hE] at hfloor
  obtain ⟨h1, h2⟩ := emMap_decrease hs.matrix hs.data hbgnn hc hx0 hfloor
  rw [hE, hE, hx']
  refine ⟨h1, ?_⟩
  have h3 : 0 ≤ ∑ j, (∑ i, M i j) * klDiv (emMap M b (bgOf S) x j) (x j) := by
    refine sum_nonneg fun j _ => mul_nonneg (hc j).le (klDiv_nonneg (by rw [← hx']; exact hx0' j) (hx0 j) fun h => ?_)
    unfold emMap
    rw [h, zero_mul]
  linarith

/-- Two pixels, one voxel: a run that meets the hypotheses of C08–C10, for every number of iterations. -/
example : let M : Fin 2 → Fin 1 → ℝ := fun i _ => if i = 0 then 1 else 2
    let a : Args (Fin 1) (Fin 2) := { iterations := 3 }
    let S : Solver (Fin 1) (Fin 2) Unit := ⟨1, none, [], .new .kl none, .new .kl none, none⟩
    MlemSetting M S ![3, 5] a ∧ (∀ n, ∃ r, mlem S (matrixOp M) ![3, 5] { a with iterations := n } = .ok r) ∧
    (∀ i, eps ≤ expected S (matrixOp M) (startVolume a 1) i) ∧ ∀ i, 0 ≤ expected S (matrixOp M) (fun _ => 0) i := by
  refine ⟨⟨?_, ?_, ?_, rfl, rfl, rfl, rfl, rfl, by simp⟩, fun n => ?_, ?_, ?_⟩
  · intro i j; fin_cases i <;> norm_num
  · intro i; fin_cases i <;> norm_num
  · intro j; simp [startVolume]
  · simp [mlem, matrixOp, initBMasks, bind, Except.bind, applyMask, testTerm, isArrayBg, DataTerm.new, assignData,
      Fin.sum_univ_two]
    norm_num
  · intro i; fin_cases i <;> norm_num [expected, addBackground, DataTerm.new, matrixOp, startVolume, eps]
  · intro i; fin_cases i <;> norm_num [expected, addBackground, DataTerm.new, matrixOp]

end Verif
