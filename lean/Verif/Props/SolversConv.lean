import Verif.Lemmas.Solvers
import Verif.Lemmas.ProxGrad
import Verif.Spec.Solvers
import Verif.Props.SolversFixed
import Verif.Props.SolversAccounting
import Verif.Lemmas.Prox

/-! # C07, C59, C60, C61: convergence behaviour of SIRT and FISTA -/

namespace Verif
open Classical DataTerm Finset

variable {ν ι Q : Type} [Fintype ν] [Fintype ι]

omit [Fintype ν] [Fintype ι] in
theorem effMask_eq (a : Args ν ι) (i : ι) : effMask a i = trainWeight a i := by
  unfold effMask trainWeight initBMasks
  cases a.bTestMask <;> cases a.bMask <;> simp

omit [Fintype ν] [Fintype ι] in
theorem effXMask_eq (a : Args ν ι) (j : ν) : effXMask a j = volumeWeight a j := by
  unfold effXMask volumeWeight
  cases a.xMask <;> simp

theorem effMask_range {M : ι → ν → ℝ} {a : Args ν ι} (h : SensibleScale M a) (i : ι) :
    0 ≤ effMask a i ∧ effMask a i ≤ 1 := by
  rw [effMask_eq]
  unfold trainWeight
  cases hb : a.bMask with
  | none =>
    cases ht : a.bTestMask with
    | none => norm_num
    | some t => have := h.test t ht i; constructor <;> simp <;> linarith
  | some m =>
    have h1 := h.bMask m hb i
    cases ht : a.bTestMask with
    | none => simpa using h1
    | some t =>
      have := h.test t ht i
      constructor
      · exact mul_nonneg h1.1 (by linarith)
      · have : (m i) * (1 - t i) ≤ 1 * 1 := mul_le_mul h1.2 (by linarith) (by linarith) (by norm_num)
        simpa using this

theorem effXMask_binary {M : ι → ν → ℝ} {a : Args ν ι} (h : SensibleScale M a) (j : ν) :
    effXMask a j = 0 ∨ effXMask a j = 1 := by
  unfold effXMask
  cases hm : a.xMask with
  | none => simp
  | some m => simpa using h.xMask m hm j

omit [Fintype ν] [Fintype ι] in
theorem trainWeight_ne_zero {a : Args ν ι} {i : ι} (h : effMask a i ≠ 0) : Trains a i := by
  rw [trains_iff]
  intro m hm h0
  apply h
  unfold effMask
  simp [hm, h0]

/-- `SIRT`, unregularized l2 on a matrix: the scaling, and for any data the map of one iteration. -/
theorem sirt_matrix_all {M : ι → ν → ℝ} {S : Solver ν ι Q} {a : Args ν ι} {sigma tau}
    (hr : S.regs = []) (hk : S.term.kind = .l2) (ha : SensibleScale M a)
    (hsc : diagonalScaling (absOrSelf (matrixOp M)).1 (absOrSelf (matrixOp M)).2 S.regs 1 S.relaxation a.xMask
      (initBMasks a.bMask a.bTestMask).1 = .ok (sigma, tau)) :
    ∃ (s : Arr ι) (w : Arr ν), (∀ i, 0 ≤ s i) ∧ (∀ j, 0 < w j) ∧ (∀ i, effMask a i = 0 → s i = 0) ∧
      (∀ j, w j = ∑ i, |M i j| * effMask a i ∨ w j = 1) ∧
      (∀ d : Arr ν, (∀ j, effXMask a j = 0 → d j = 0) →
        ∑ i, s i * (∑ j, M i j * d j) ^ 2 ≤ ∑ j, w j * d j ^ 2) ∧
      RowNormalized M a s ∧
      ∀ (b : Arr ι) (x : Arr ν), (fun j => x j + ((matrixOp M).adj fun i =>
        (S.term.assignData (some (.array b)) (.array sigma)).residual ((matrixOp M).fwd x)
          (initBMasks a.bMask a.bTestMask).1 i * sigma i) j * tau j)
        = fun j => x j + S.relaxation / w j *
          wgrad M s (fun i => b i - S.term.addBackground (fun _ => 0) i) x j := by
  rw [hr] at hsc
  obtain ⟨R, C, hR, hC, hsig, htau, hCc, hRc, hR2, hC2⟩ := scaling_matrix (M := M) hsc (fun i => (effMask_range ha i).1)
    (fun j => by rcases effXMask_binary ha j with h | h <;> rw [h]; norm_num)
  have hrow : ∀ i, ∑ j, |M i j| * effXMask a j ≤ 100000 := fun i => (sum_le_sum fun j _ => by
    rcases effXMask_binary ha j with h | h <;> rw [h] <;> simp).trans (ha.rows i)
  have hcol : ∀ j, ∑ i, |M i j| * effMask a i ≤ 100000 := fun j => (sum_le_sum fun i _ => by
    have := effMask_range ha i
    nlinarith [abs_nonneg (M i j)]).trans (ha.cols j)
  refine ⟨fun i => effMask a i / R i, C, fun i => div_nonneg (effMask_range ha i).1 (hR i).le, hC,
    fun i h => by simp [h], hCc, ?_, fun i => ⟨R i, hR i, by simpa only [effXMask_eq] using hRc i, by simp only [effMask_eq]⟩, ?_⟩
  · intro d hd
    refine pockChambolle M (effXMask a) (effMask a) R C (fun i => (effMask_range ha i).1) (fun j => ?_) hR
      (hR2 hrow) (hC2 hcol) d fun j => ?_
    · rcases effXMask_binary ha j with h | h <;> rw [h]; norm_num
    · rcases effXMask_binary ha j with h | h
      · simp [h, hd j h]
      · simp [h]
  · intro b x
    funext j
    rw [htau j]
    have hres : ∀ i, (S.term.assignData (some (.array b)) (.array sigma)).residual ((matrixOp M).fwd x)
          (initBMasks a.bMask a.bTestMask).1 i * sigma i = effMask a i / R i *
          ((b i - S.term.addBackground (fun _ => 0) i) - ∑ j, M i j * x j) := by
      intro i
      have hK : (S.term.assignData (some (.array b)) (.array sigma)).kind = .l2 := hk
      have hD : (S.term.assignData (some (.array b)) (.array sigma)).data = some (.array b) := rfl
      have hbg : (S.term.assignData (some (.array b)) (.array sigma)).addBackground ((matrixOp M).fwd x) i =
          S.term.addBackground (fun _ => 0) i + ∑ j, M i j * x j := by
        unfold addBackground
        change (match S.term.background with | none => _ | some bg => _) = _
        cases S.term.background <;> simp [matrixOp, add_comm]
      unfold DataTerm.residual
      simp only [hK, hD, hsig i, Attr.get]
      unfold effMask applyMask
      cases (initBMasks a.bMask a.bTestMask).1 <;> simp only [hbg, Option.getD_none, Option.getD_some] <;> ring
    simp only [matrixOp, wgrad] at hres ⊢
    simp_rw [hres]
    ring

/-- `SIRT`, unregularized l2 on a matrix: the map of one iteration, and its scaling. -/
theorem sirt_matrix {M : ι → ν → ℝ} {S : Solver ν ι Q} {b : Arr ι} {a : Args ν ι} {sigma tau}
    (hr : S.regs = []) (hk : S.term.kind = .l2) (ha : SensibleScale M a)
    (hsc : diagonalScaling (absOrSelf (matrixOp M)).1 (absOrSelf (matrixOp M)).2 S.regs 1 S.relaxation a.xMask
      (initBMasks a.bMask a.bTestMask).1 = .ok (sigma, tau)) :
    ∃ (s : Arr ι) (w : Arr ν), (∀ i, 0 ≤ s i) ∧ (∀ j, 0 < w j) ∧ (∀ i, effMask a i = 0 → s i = 0) ∧
      (∀ j, w j = ∑ i, |M i j| * effMask a i ∨ w j = 1) ∧
      (∀ d : Arr ν, (∀ j, effXMask a j = 0 → d j = 0) →
        ∑ i, s i * (∑ j, M i j * d j) ^ 2 ≤ ∑ j, w j * d j ^ 2) ∧
      RowNormalized M a s ∧
      ∀ x : Arr ν, (fun j => x j + ((matrixOp M).adj fun i =>
        (S.term.assignData (some (.array b)) (.array sigma)).residual ((matrixOp M).fwd x)
          (initBMasks a.bMask a.bTestMask).1 i * sigma i) j * tau j)
        = fun j => x j + S.relaxation / w j *
          wgrad M s (fun i => b i - S.term.addBackground (fun _ => 0) i) x j := by
  obtain ⟨s, w, h1, h2, h3, h4, h5, h6, h7⟩ := sirt_matrix_all hr hk ha hsc
  exact ⟨s, w, h1, h2, h3, h4, h5, h6, h7 b⟩

/-- Distances never grow under clipping and masking towards an admissible volume. -/
private theorem clip_dist {M : ι → ν → ℝ} {a : Args ν ι} (hs : SensibleScale M a) {z : Arr ν} (hz : Admissible a z)
    (v : Arr ν) (j : ν) : (clipMask a v j - z j) ^ 2 ≤ effXMask a j * (v j - z j) ^ 2 := by
  obtain ⟨⟨hl, hu⟩, hm⟩ := hz
  have hc : (clip1 (a.lower.map (·.get j)) (a.upper.map (·.get j)) (v j) - z j) ^ 2 ≤ (v j - z j) ^ 2 := by
    apply sq_le_sq.2
    unfold clip1
    cases hlo : a.lower <;> cases hup : a.upper <;> simp only [Option.map_none, Option.map_some]
    · exact le_rfl
    · rename_i u
      have h2 := hu u hup j
      rcases le_total (v j) (u.get j) with h | h
      · rw [min_eq_left h]
      · rw [min_eq_right h, abs_of_nonneg (by linarith), abs_of_nonneg (by linarith)]; linarith
    · rename_i l
      have h2 := hl l hlo j
      rcases le_total (v j) (l.get j) with h | h
      · rw [max_eq_right h, abs_of_nonpos (by linarith), abs_of_nonpos (by linarith)]; linarith
      · rw [max_eq_left h]
    · rename_i l u
      have h1 := hl l hlo j
      have h2 := hu u hup j
      rcases le_total (v j) (l.get j) with h | h
      · rw [max_eq_right h, min_eq_left (by linarith), abs_of_nonpos (by linarith), abs_of_nonpos (by linarith)]; linarith
      · rw [max_eq_left h]
        rcases le_total (v j) (u.get j) with h' | h'
        · rw [min_eq_left h']
        · rw [min_eq_right h', abs_of_nonneg (by linarith), abs_of_nonneg (by linarith)]; linarith
  unfold clipMask applyMask effXMask
  cases hM : a.xMask with
  | none => simpa using hc
  | some m =>
    have h1 := hm m hM j
    rcases hs.xMask m hM j with h | h
    · rw [h, mul_zero] at h1
      simp [h, ← h1]
    · simpa [h] using hc

/-- Variational inequality of the projection. -/
theorem clip_vi {M : ι → ν → ℝ} {a : Args ν ι} (hs : SensibleScale M a) {z : Arr ν} (hz : Admissible a z)
    (v : Arr ν) (j : ν) : (v j - clipMask a v j) * (z j - clipMask a v j) ≤ 0 := by
  obtain ⟨⟨hl, hu⟩, hm⟩ := hz
  have hc : (v j - clip1 (a.lower.map (·.get j)) (a.upper.map (·.get j)) (v j)) *
      (z j - clip1 (a.lower.map (·.get j)) (a.upper.map (·.get j)) (v j)) ≤ 0 := by
    unfold clip1
    cases hlo : a.lower <;> cases hup : a.upper <;> simp only [Option.map_none, Option.map_some]
    · simp
    · rename_i u
      have h2 := hu u hup j
      rcases le_total (v j) (u.get j) with h | h
      · simp [min_eq_left h]
      · rw [min_eq_right h]; exact mul_nonpos_of_nonneg_of_nonpos (by linarith) (by linarith)
    · rename_i l
      have h2 := hl l hlo j
      rcases le_total (v j) (l.get j) with h | h
      · rw [max_eq_right h]; exact mul_nonpos_of_nonpos_of_nonneg (by linarith) (by linarith)
      · simp [max_eq_left h]
    · rename_i l u
      have h1 := hl l hlo j
      have h2 := hu u hup j
      rcases le_total (v j) (l.get j) with h | h
      · rw [max_eq_right h, min_eq_left (by linarith)]
        exact mul_nonpos_of_nonpos_of_nonneg (by linarith) (by linarith)
      · rw [max_eq_left h]
        rcases le_total (v j) (u.get j) with h' | h'
        · simp [min_eq_left h']
        · rw [min_eq_right h']; exact mul_nonpos_of_nonneg_of_nonpos (by linarith) (by linarith)
  unfold clipMask applyMask
  cases hM : a.xMask with
  | none => exact hc
  | some m =>
    have h1 := hm m hM j
    rcases hs.xMask m hM j with h | h
    · rw [h, mul_zero] at h1
      simp [h, ← h1]
    · simpa [h] using hc

omit [Fintype ν] in
theorem misfit_eq_wls [Fintype ν] (M : ι → ν → ℝ) (S : Solver ν ι Q) (b s : Arr ι) (x : Arr ν) :
    misfit S (matrixOp M) b s x = wls M s (fun i => b i - S.term.addBackground (fun _ => 0) i) x := by
  unfold misfit wls
  congr 1
  refine sum_congr rfl fun i _ => ?_
  congr 2
  unfold addBackground
  cases S.term.background <;> simp [matrixOp]
  ring

omit [Fintype ν] [Fintype ι] in
theorem zeroOutside_eff {a : Args ν ι} {x : Arr ν} (h : ZeroOutsideMask a x) (j : ν) (hj : effXMask a j = 0) :
    x j = 0 := by
  unfold effXMask at hj
  cases hm : a.xMask with
  | none => simp [hm] at hj
  | some m => exact h m hm j (by simpa [hm] using hj)

omit [Fintype ν] [Fintype ι] in
theorem admissible_zero {a : Args ν ι} {x : Arr ν} (h : Admissible a x) : ZeroOutsideMask a x := by
  intro m hm j hj
  have := h.2 m hm j
  rw [hj, mul_zero] at this
  exact this.symm

/-- One SIRT step does not increase the distance to a solution. -/
private theorem sirt_fejer_step {M : ι → ν → ℝ} {S : Solver ν ι Q} {b : Arr ι} {a : Args ν ι} {s : Arr ι} {w : Arr ν}
    (hω : 0 ≤ S.relaxation) (hω2 : S.relaxation ≤ 2) (hs : SensibleScale M a) (hs0 : ∀ i, 0 ≤ s i) (hw0 : ∀ j, 0 < w j)
    (hsz : ∀ i, effMask a i = 0 → s i = 0)
    (hPC : ∀ d : Arr ν, (∀ j, effXMask a j = 0 → d j = 0) →
        ∑ i, s i * (∑ j, M i j * d j) ^ 2 ≤ ∑ j, w j * d j ^ 2)
    {x z : Arr ν} (hx : ZeroOutsideMask a x) (hz : Reproduces S (matrixOp M) a b z) (hza : Admissible a z) :
    dist2 w (clipMask a fun j => x j + S.relaxation / w j *
          wgrad M s (fun i => b i - S.term.addBackground (fun _ => 0) i) x j) z ≤ dist2 w x z := by
  have hgrad : ∀ j, wgrad M s (fun i => b i - S.term.addBackground (fun _ => 0) i) x j
      = ∑ i, M i j * (s i * ∑ j, M i j * (z j - x j)) := by
    intro j
    unfold wgrad
    refine sum_congr rfl fun i _ => ?_
    by_cases hi : effMask a i = 0
    · simp [hsz i hi]
    · have hzi := hz i (trainWeight_ne_zero hi)
      have : b i - S.term.addBackground (fun _ => 0) i = ∑ j, M i j * z j := by
        rw [← hzi]
        unfold addBackground
        cases S.term.background <;> simp [matrixOp]
      dsimp only
      rw [this, ← sum_sub_distrib]
      congr 2
      exact sum_congr rfl fun j _ => by ring
  have hf := fejer_step (M := M) (s := s) (w := w) (m := effXMask a) (e := fun j => z j - x j) hω hω2 hs0 hw0
    (effXMask_binary hs) (fun j hj => by
      rw [zeroOutside_eff hx j hj, zeroOutside_eff (admissible_zero hza) j hj, sub_zero]) hPC
  refine le_trans (sum_le_sum fun j _ => mul_le_mul_of_nonneg_left (clip_dist hs hza _ j) (hw0 j).le) ?_
  refine le_trans (le_of_eq ?_) (hf.trans (le_of_eq ?_))
  · refine sum_congr rfl fun j _ => ?_
    rw [hgrad j]
    ring
  · exact sum_congr rfl fun j _ => by ring

/-- C07. SIRT on a matrix (any signs) with the plain l2 term and relaxation in [0, 2] never moves away from a solution:
there are fixed positive weights `w` (the training column sums, or 1 where these are negligible) such that the weighted
distance of the result to every admissible volume that reproduces the training data is at most that of the start. -/
theorem C07_sirt_fejer {M : ι → ν → ℝ} {S : Solver ν ι Q} {b : Arr ι} {a : Args ν ι} {x info S'}
    (h : sirt S (matrixOp M) b a = .ok (x, info, S')) (hr : S.regs = []) (hk : S.term.kind = .l2)
    (hω : 0 ≤ S.relaxation) (hω2 : S.relaxation ≤ 2) (hs : SensibleScale M a)
    (hx0 : ZeroOutsideMask a (startVolume a 0)) :
    ∃ w : Arr ν, ColumnWeights M a w ∧
      ∀ z, Reproduces S (matrixOp M) a b z → Admissible a z → dist2 w x z ≤ dist2 w (startVolume a 0) z := by
  obtain ⟨sigma, tau, tt, hsc, -, he⟩ := sirt_ok h
  simp only [Prod.mk.injEq] at he
  obtain ⟨s, w, hs0, hw0, hsz, hwc, hPC, -, hstep⟩ := sirt_matrix (b := b) hr hk hs hsc
  refine ⟨w, fun j => ⟨hw0 j, by simpa only [effMask_eq] using hwc j⟩, fun z hz hza => ?_⟩
  rw [he.1]
  have key := forRange_inv (n := a.iterations)
    (step := sirtStep (matrixOp M) a S.regs (S.term.assignData (some (.array b)) (.array sigma)) tt
      (initBMasks a.bMask a.bTestMask).1 (initBMasks a.bMask a.bTestMask).2 sigma tau S.tolerance)
    (P := fun st : XState ν => ZeroOutsideMask a st.x ∧ dist2 w st.x z ≤ dist2 w (startVolume a 0) z)
    (s := ⟨startVolume a 0, initialResiduals (S.term.assignData (some (.array b)) (.array sigma)) tt
      (initBMasks a.bMask a.bTestMask).1 (initBMasks a.bMask a.bTestMask).2 S.tolerance
      ((matrixOp M).fwd (startVolume a 0)) (Info.new a.iterations S.tolerance)⟩)
    ⟨hx0, le_rfl⟩ (by
      rintro k st ⟨hst, hd⟩
      rw [sirtStep_cases, hr]
      dsimp only
      split_ifs
      · exact ⟨hst, hd⟩
      · simp only [List.foldl_nil]
        rw [hstep st.x]
        exact ⟨clipMask_zero a _, (sirt_fejer_step hω hω2 hs hs0 hw0 hsz hPC hst hz hza).trans hd⟩)
  exact key.2

/-- The result of SIRT without tolerance as an iterate of one map. -/
theorem sirt_iterate {M : ι → ν → ℝ} {S : Solver ν ι Q} {b : Arr ι} {a : Args ν ι} {n : ℕ} {x info S'} {s : Arr ι} {w : Arr ν}
    {sigma : Arr ι} {tau : Arr ν} (h : sirt S (matrixOp M) b { a with iterations := n } = .ok (x, info, S')) (hr : S.regs = [])
    (hT : S.tolerance = none)
    (hsc : diagonalScaling (absOrSelf (matrixOp M)).1 (absOrSelf (matrixOp M)).2 S.regs 1 S.relaxation a.xMask
      (initBMasks a.bMask a.bTestMask).1 = .ok (sigma, tau))
    (hstep : ∀ x : Arr ν, (fun j => x j + ((matrixOp M).adj fun i =>
        (S.term.assignData (some (.array b)) (.array sigma)).residual ((matrixOp M).fwd x)
          (initBMasks a.bMask a.bTestMask).1 i * sigma i) j * tau j)
        = fun j => x j + S.relaxation / w j *
          wgrad M s (fun i => b i - S.term.addBackground (fun _ => 0) i) x j) :
    x = (fun x => clipMask a fun j => x j + S.relaxation / w j *
          wgrad M s (fun i => b i - S.term.addBackground (fun _ => 0) i) x j)^[n] (startVolume a 0) := by
  obtain ⟨sigma', tau', tt, hsc', -, he⟩ := sirt_ok h
  simp only [Prod.mk.injEq] at he
  have hsc'' : diagonalScaling (absOrSelf (matrixOp M)).1 (absOrSelf (matrixOp M)).2 S.regs 1 S.relaxation a.xMask
      (initBMasks a.bMask a.bTestMask).1 = .ok (sigma', tau') := hsc'
  rw [hsc] at hsc''
  simp only [Except.ok.injEq, Prod.mk.injEq] at hsc''
  obtain ⟨rfl, rfl⟩ := hsc''
  rw [he.1, hT]
  refine forRange_noBreak (π := XState.x) (f := fun x => clipMask a fun j => x j + S.relaxation / w j *
          wgrad M s (fun i => b i - S.term.addBackground (fun _ => 0) i) x j) (fun k st => ?_) (fun k st => ?_) n _
  · rw [sirtStep_cases, recordResiduals_noTol]
  · rw [sirtStep_cases, recordResiduals_noTol, hr]
    simp only [List.foldl_nil, Bool.false_eq_true, if_false]
    rw [← hstep st.x]
    rfl

omit [Fintype ν] [Fintype ι] in
private theorem sensible_of_admissible {M : ι → ν → ℝ} [Fintype ν] [Fintype ι] {a : Args ν ι} (hs : SensibleScale M a) {z : Arr ν}
    (hz : Admissible a z) : SensibleLimits a where
  ordered := fun l u hl hu j => (hz.1.1 l hl j).trans (hz.1.2 u hu j)
  binary := hs.xMask
  lowerZero := fun m l hm hl j hj => by
    have := admissible_zero hz m hm j hj
    have h2 := hz.1.1 l hl j
    linarith
  upperZero := fun m u hm hu j hj => by
    have := admissible_zero hz m hm j hj
    have h2 := hz.1.2 u hu j
    linarith

theorem clipMask_admissible {M : ι → ν → ℝ} {a : Args ν ι} (hs : SensibleScale M a) {z : Arr ν}
    (hz : Admissible a z) (v : Arr ν) : Admissible a (clipMask a v) := by
  refine ⟨clipMask_within (sensible_of_admissible hs hz) v, fun m hm j => ?_⟩
  rcases hs.xMask m hm j with h | h
  · rw [h, clipMask_zero a v m hm j h, zero_mul]
  · rw [h, mul_one]

/-- C59. SIRT on a matrix with the plain l2 term, no regularizer, no tolerance and relaxation in (0, 2], started at an
admissible volume: one more iteration never increases the row-normalised training misfit. The weights are fixed before
the number of iterations. -/
theorem C59_sirt_monotone {M : ι → ν → ℝ} {S : Solver ν ι Q} {b : Arr ι} {a : Args ν ι} {r} 
    (h : sirt S (matrixOp M) b a = .ok r) (hr : S.regs = []) (hk : S.term.kind = .l2)
    (hT : S.tolerance = none) (hω : 0 < S.relaxation) (hω2 : S.relaxation ≤ 2) (hs : SensibleScale M a)
    (hx0 : Admissible a (startVolume a 0)) :
    ∃ s : Arr ι, RowNormalized M a s ∧ ∀ n x x' info info' S' S'',
      sirt S (matrixOp M) b { a with iterations := n } = .ok (x, info, S') →
      sirt S (matrixOp M) b { a with iterations := n + 1 } = .ok (x', info', S'') →
      misfit S (matrixOp M) b s x' ≤ misfit S (matrixOp M) b s x := by
  obtain ⟨sigma, tau, tt, hsc, -, -⟩ := sirt_ok h
  obtain ⟨s, w, hs0, hw0, hsz, hwc, hPC, hRN, hstep⟩ := sirt_matrix (b := b) hr hk hs hsc
  refine ⟨s, hRN, fun n x x' info info' S' S'' h1 h2 => ?_⟩
  have e1 := sirt_iterate h1 hr hT hsc hstep
  have e2 := sirt_iterate h2 hr hT hsc hstep
  rw [Function.iterate_succ_apply', ← e1] at e2
  have hax : Admissible a x := by
    rw [e1]
    cases n with
    | zero => exact hx0
    | succ n => rw [Function.iterate_succ_apply']; exact clipMask_admissible hs hx0 _
  rw [misfit_eq_wls, misfit_eq_wls, e2]
  refine descent hω hω2 hw0 (hPC _ fun j hj => ?_) (sum_nonpos fun j _ => ?_)
  · rw [zeroOutside_eff (clipMask_zero a _) j hj, zeroOutside_eff (admissible_zero hax) j hj, sub_zero]
  · rw [mul_assoc]
    exact mul_nonpos_of_nonneg_of_nonpos (hw0 j).le (clip_vi hs hax (fun j => x j + S.relaxation / w j *
          wgrad M s (fun i => b i - S.term.addBackground (fun _ => 0) i) x j) j)

/-- C60. The same solver with relaxation in (0, 1]: after `n` iterations the misfit exceeds that of any admissible volume
(in particular of a constrained least-squares solution) by at most the squared distance of the start to it divided by
`2 ω n`. -/
theorem C60_sirt_rate {M : ι → ν → ℝ} {S : Solver ν ι Q} {b : Arr ι} {a : Args ν ι} {x info S'} 
    (h : sirt S (matrixOp M) b a = .ok (x, info, S')) (hr : S.regs = []) (hk : S.term.kind = .l2)
    (hT : S.tolerance = none) (hω : 0 < S.relaxation) (hω1 : S.relaxation ≤ 1) (hs : SensibleScale M a)
    (hx0 : Admissible a (startVolume a 0)) (hn : 1 ≤ a.iterations) :
    ∃ s w, RowNormalized M a s ∧ ColumnWeights M a w ∧ ∀ z, Admissible a z →
      misfit S (matrixOp M) b s x - misfit S (matrixOp M) b s z ≤
        dist2 w (startVolume a 0) z / (2 * S.relaxation * a.iterations) := by
  obtain ⟨sigma, tau, tt, hsc, -, -⟩ := sirt_ok h
  obtain ⟨s, w, hs0, hw0, hsz, hwc, hPC, hRN, hstep⟩ := sirt_matrix (b := b) hr hk hs hsc
  refine ⟨s, w, hRN, fun j => ⟨hw0 j, by simpa only [effMask_eq] using hwc j⟩, fun z hz => ?_⟩
  have e1 : x = _ := sirt_iterate (n := a.iterations) h hr hT hsc hstep
  set f := (fun x => clipMask a fun j => x j + S.relaxation / w j *
          wgrad M s (fun i => b i - S.term.addBackground (fun _ => 0) i) x j) with hf
  set W := wls M s (fun i => b i - S.term.addBackground (fun _ => 0) i) with hW
  have key : ∀ n, Admissible a (f^[n] (startVolume a 0)) ∧
      2 * S.relaxation * n * (W (f^[n] (startVolume a 0)) - W z) + dist2 w (f^[n] (startVolume a 0)) z ≤
        dist2 w (startVolume a 0) z := by
    intro n
    induction n with
    | zero => exact ⟨hx0, by simp⟩
    | succ n ih =>
      obtain ⟨ih1, ih2⟩ := ih
      rw [Function.iterate_succ_apply']
      set u := f^[n] (startVolume a 0)
      set v : Arr ν := fun j => u j + S.relaxation / w j *
          wgrad M s (fun i => b i - S.term.addBackground (fun _ => 0) i) u j with hv
      have hfu : f u = clipMask a v := rfl
      have hPC' : ∑ i, s i * (∑ j, M i j * (f u j - u j)) ^ 2 ≤ ∑ j, w j * (f u j - u j) ^ 2 := hPC _ fun j hj => by
        rw [hfu, zeroOutside_eff (clipMask_zero a _) j hj, zeroOutside_eff (admissible_zero ih1) j hj, sub_zero]
      have hd : W (f u) ≤ W u := by
        refine descent hω (by linarith) hw0 hPC' (sum_nonpos fun j _ => ?_)
        rw [mul_assoc]
        exact mul_nonpos_of_nonneg_of_nonpos (hw0 j).le (clip_vi hs ih1 v j)
      have h3 := three_point (G := fun _ => 0) (z := z) (s := s) (t := fun i => b i - S.term.addBackground (fun _ => 0) i)
        hω hω1 hs0 hw0 hPC' (by
          simp only [mul_zero, zero_add]
          refine sum_nonpos fun j _ => ?_
          rw [mul_assoc]
          exact mul_nonpos_of_nonneg_of_nonpos (hw0 j).le (clip_vi hs hz v j))
      refine ⟨clipMask_admissible hs hx0 _, ?_⟩
      push_cast
      have h4 : 2 * S.relaxation * n * (W (f u) - W z) ≤ 2 * S.relaxation * n * (W u - W z) :=
        mul_le_mul_of_nonneg_left (by linarith) (by positivity)
      have h5 : 2 * S.relaxation * (W (f u) - W z) ≤ dist2 w u z - dist2 w (f u) z := by
        have : 2 * S.relaxation * (W (f u) + 0 - W z - 0) ≤ dist2 w u z - dist2 w (f u) z := h3
        simpa using this
      nlinarith
  have hk := (key a.iterations).2
  rw [← e1] at hk
  have hd : 0 ≤ dist2 w x z := sum_nonneg fun j _ => mul_nonneg (hw0 j).le (sq_nonneg _)
  have hpos : (0 : ℝ) < a.iterations := by exact_mod_cast hn
  rw [misfit_eq_wls, misfit_eq_wls, le_div_iff₀ (by positivity)]
  nlinarith

/-! ## FISTA -/

/-- The gradient step of `FISTA`, l2 on a matrix, with data weights `sigma`. -/
theorem fista_gradient {M : ι → ν → ℝ} {S : Solver ν ι Q} {b : Arr ι} {a : Args ν ι} (sigma : Arr ι) (hk : S.term.kind = .l2) (x : Arr ν) (j : ν) :
    ((matrixOp M).adj fun i => (S.term.assignData (some (.array b)) (.scalar 1)).residual ((matrixOp M).fwd x)
      (initBMasks a.bMask a.bTestMask).1 i * sigma i) j =
    wgrad M (fun i => effMask a i * sigma i) (fun i => b i - S.term.addBackground (fun _ => 0) i) x j := by
  have hres : ∀ i, (S.term.assignData (some (.array b)) (.scalar 1)).residual ((matrixOp M).fwd x)
        (initBMasks a.bMask a.bTestMask).1 i * sigma i = effMask a i * sigma i *
        ((b i - S.term.addBackground (fun _ => 0) i) - ∑ j, M i j * x j) := by
    intro i
    have hK : (S.term.assignData (some (.array b)) (.scalar 1)).kind = .l2 := hk
    have hD : (S.term.assignData (some (.array b)) (.scalar 1)).data = some (.array b) := rfl
    have hbg : (S.term.assignData (some (.array b)) (.scalar 1)).addBackground ((matrixOp M).fwd x) i =
        S.term.addBackground (fun _ => 0) i + ∑ j, M i j * x j := by
      unfold addBackground
      change (match S.term.background with | none => _ | some bg => _) = _
      cases S.term.background <;> simp [matrixOp, add_comm]
    unfold DataTerm.residual
    simp only [hK, hD, Attr.get]
    unfold effMask applyMask
    cases (initBMasks a.bMask a.bTestMask).1 <;> simp only [hbg, Option.getD_none, Option.getD_some] <;> ring
  simp only [matrixOp, wgrad] at hres ⊢
  simp_rw [hres]

/-- `FISTA`, l2 on a matrix with the default preconditioning: scaling and gradient step. -/
theorem fista_matrix {M : ι → ν → ℝ} {S : Solver ν ι Q} {b : Arr ι} {a : Args ν ι} {sigma tau rnd}
    (hk : S.term.kind = .l2) (ha : SensibleScale M a)
    (hsc : fistaScaling S (matrixOp M) a true rnd = .ok (sigma, tau)) :
    ∃ (s : Arr ι) (w : Arr ν), (∀ i, 0 ≤ s i) ∧ (∀ j, 0 < w j) ∧ 
      (∀ j, w j = ∑ i, |M i j| * effMask a i ∨ w j = 1) ∧
      (∀ d : Arr ν, (∀ j, effXMask a j = 0 → d j = 0) →
        ∑ i, s i * (∑ j, M i j * d j) ^ 2 ≤ ∑ j, w j * d j ^ 2) ∧
      RowNormalized M a s ∧ (∀ j, tau j = S.relaxation / w j) ∧
      ∀ y : Arr ν, (fun j => y j + tau j * ((matrixOp M).adj fun i =>
        (S.term.assignData (some (.array b)) (.scalar 1)).residual ((matrixOp M).fwd y)
          (initBMasks a.bMask a.bTestMask).1 i * sigma i) j)
        = fun j => y j + S.relaxation / w j *
          wgrad M s (fun i => b i - S.term.addBackground (fun _ => 0) i) y j := by
  unfold fistaScaling at hsc
  simp only [matrixOp, if_true] at hsc
  obtain ⟨R, C, hR, hC, hsig, htau, hCc, hRc, hR2, hC2⟩ := scaling_matrix (M := M) hsc (fun i => (effMask_range ha i).1)
    (fun j => by rcases effXMask_binary ha j with h | h <;> rw [h]; norm_num)
  have hrow : ∀ i, ∑ j, |M i j| * effXMask a j ≤ 100000 := fun i => (sum_le_sum fun j _ => by
    rcases effXMask_binary ha j with h | h <;> rw [h] <;> simp).trans (ha.rows i)
  have hcol : ∀ j, ∑ i, |M i j| * effMask a i ≤ 100000 := fun j => (sum_le_sum fun i _ => by
    have := effMask_range ha i
    nlinarith [abs_nonneg (M i j)]).trans (ha.cols j)
  refine ⟨fun i => effMask a i / R i, C, fun i => div_nonneg (effMask_range ha i).1 (hR i).le, hC,
    hCc, ?_, fun i => ⟨R i, hR i, by simpa only [effXMask_eq] using hRc i, by simp only [effMask_eq]⟩, htau, ?_⟩
  · intro d hd
    refine pockChambolle M (effXMask a) (effMask a) R C (fun i => (effMask_range ha i).1) (fun j => ?_) hR
      (hR2 hrow) (hC2 hcol) d fun j => ?_
    · rcases effXMask_binary ha j with h | h <;> rw [h]; norm_num
    · rcases effXMask_binary ha j with h | h
      · simp [h, hd j h]
      · simp [h]
  · intro x
    funext j
    rw [fista_gradient sigma hk x j, htau j]
    congr 3
    funext i
    rw [hsig i]
    ring

/-- Variational inequality of clip-and-mask after a proximal step. -/
theorem clip_prox_mask {M : ι → ν → ℝ} {a : Args ν ι} (hs : SensibleScale M a) {z : Arr ν} (hz : Admissible a z)
    {g : ν → ℝ → ℝ} (hg : ∀ j, ConvexOn ℝ Set.univ (g j)) {tau v p : Arr ν} (hτ : ∀ j, 0 ≤ tau j)
    (hp : ∀ j y, tau j * g j (p j) + (v j - p j) * (y - p j) ≤ tau j * g j y) (j : ν) :
    tau j * g j (clipMask a p j) + (v j - clipMask a p j) * (z j - clipMask a p j) ≤ tau j * g j (z j) := by
  obtain ⟨⟨hl, hu⟩, hm⟩ := hz
  have hc := clip_prox_vi (hg j) (hτ j) (hp j) (lo := a.lower.map (·.get j)) (hi := a.upper.map (·.get j)) (z := z j)
    (fun l h => by
      cases hlo : a.lower with
      | none => simp [hlo] at h
      | some l' => rw [hlo] at h; simp at h; rw [← h]; exact hl l' hlo j)
    (fun l h => by
      cases hlo : a.upper with
      | none => simp [hlo] at h
      | some l' => rw [hlo] at h; simp at h; rw [← h]; exact hu l' hlo j)
  unfold clipMask applyMask
  cases hM : a.xMask with
  | none => exact hc
  | some m =>
    have h1 := hm m hM j
    rcases hs.xMask m hM j with h | h
    · rw [h, mul_zero] at h1
      simp [h, ← h1]
    · simpa [h] using hc

private theorem tNew_sq (t : ℝ) : fistaTNew none 0 t ^ 2 - fistaTNew none 0 t = t ^ 2 := by
  unfold fistaTNew
  have := Real.sq_sqrt (show (0 : ℝ) ≤ 1 + 4 * t * t by nlinarith [mul_self_nonneg t])
  simp only
  nlinarith

private theorem tNew_ge {t : ℝ} (ht : 0 ≤ t) (k : ℕ) : t + 1 / 2 ≤ fistaTNew none k t := by
  unfold fistaTNew
  have : 2 * t ≤ Real.sqrt (1 + 4 * t * t) := Real.le_sqrt_of_sq_le (by nlinarith)
  simp only
  linarith

/-- The FISTA estimate, for step sizes that fulfil the convergence condition and a step (the proximal step of the regularizer, then limits and mask) that fulfils the
variational inequality of a convex function `G`. -/
theorem fista_core {M : ι → ν → ℝ} {S : Solver ν ι Q} {b : Arr ι} {a : Args ν ι} {pc rnd x info S'}
    (h : fista S (matrixOp M) b a pc rnd = .ok (x, info, S')) (hR : S.restartPeriod = none)
    (hω : 0 < S.relaxation) (hω1 : S.relaxation ≤ 1) (hs : SensibleScale M a) (G : Arr ν → ℝ) {s : Arr ι} {w : Arr ν} (hs0 : ∀ i, 0 ≤ s i) (hw0 : ∀ j, 0 < w j)
    (hPC : ∀ d : Arr ν, (∀ j, effXMask a j = 0 → d j = 0) → ∑ i, s i * (∑ j, M i j * d j) ^ 2 ≤ ∑ j, w j * d j ^ 2)
    (hscale : ∀ sigma tau, fistaScaling S (matrixOp M) a pc rnd = .ok (sigma, tau) → (∀ j, tau j = S.relaxation / w j) ∧
      ∀ y : Arr ν, (fun j => y j + tau j * ((matrixOp M).adj fun i =>
        (S.term.assignData (some (.array b)) (.scalar 1)).residual ((matrixOp M).fwd y)
          (initBMasks a.bMask a.bTestMask).1 i * sigma i) j)
        = fun j => y j + S.relaxation / w j *
          wgrad M s (fun i => b i - S.term.addBackground (fun _ => 0) i) y j)
    (hreg : ∀ v u : Arr ν, Admissible a u →
      S.relaxation * G (clipMask a (match S.regs with | r :: _ => r.proxPrimal v (fun j => S.relaxation / w j) | [] => v)) +
        ∑ j, w j * (v j - clipMask a (match S.regs with | r :: _ => r.proxPrimal v (fun j => S.relaxation / w j) | [] => v) j) *
          (u j - clipMask a (match S.regs with | r :: _ => r.proxPrimal v (fun j => S.relaxation / w j) | [] => v) j) ≤ S.relaxation * G u)
    {z : Arr ν} (hz : Admissible a z) :
      (misfit S (matrixOp M) b s x + G x) - (misfit S (matrixOp M) b s z + G z) ≤
        2 * dist2 w (startVolume a 0) z / (S.relaxation * (info.iterations + 1) ^ 2) ∨ info.iterations = 0 := by
  obtain ⟨sigma, tau, tt, hsc, -, he⟩ := fista_ok h
  simp only [Prod.mk.injEq] at he
  obtain ⟨htau, hstep⟩ := hscale sigma tau hsc
  obtain rfl : tau = fun j => S.relaxation / w j := funext htau
  set ω := S.relaxation with hωd
  set t0 : Arr ι := fun i => b i - S.term.addBackground (fun _ => 0) i with ht0
  set Φ : Arr ν → ℝ := fun x => wls M s t0 x + G x with hΦ
  set D0 := dist2 w (startVolume a 0) z with hD0
  -- the invariant
  let I : FState ν → Prop := fun st =>
    ZeroOutsideMask a st.x ∧ ZeroOutsideMask a st.y ∧ 1 ≤ st.t ∧ (st.t = 1 ∨ Admissible a st.x) ∧
    (st.info.iterations + 2) / 2 ≤ st.t ∧ (st.info.iterations ≠ 0 → ((st.info.iterations + 1) / 2 : ℝ) ^ 2 ≤ st.t ^ 2 - st.t) ∧
    2 * ω * (st.t ^ 2 - st.t) * (Φ st.x - Φ z) + ∑ j, w j * (st.t * st.y j - (st.t - 1) * st.x j - z j) ^ 2 ≤ D0
  have hI : I (forRange (fistaStep (matrixOp M) a S.regs S.restartPeriod (S.term.assignData (some (.array b)) (.scalar 1)) tt
      (initBMasks a.bMask a.bTestMask).1 (initBMasks a.bMask a.bTestMask).2 sigma (fun j => ω / w j) S.tolerance) a.iterations
      ⟨applyMask a.xMask (a.x0.getD fun _ => 0), applyMask a.xMask (a.x0.getD fun _ => 0), 1,
        initialResiduals (S.term.assignData (some (.array b)) (.scalar 1)) tt
          (initBMasks a.bMask a.bTestMask).1 (initBMasks a.bMask a.bTestMask).2 S.tolerance
          ((matrixOp M).fwd (applyMask a.xMask (a.x0.getD fun _ => 0))) (Info.new a.iterations S.tolerance)⟩) := by
    refine forRange_inv (P := I) ?_ ?_
    · have hit : (initialResiduals (S.term.assignData (some (.array b)) (.scalar 1)) tt
          (initBMasks a.bMask a.bTestMask).1 (initBMasks a.bMask a.bTestMask).2 S.tolerance
          ((matrixOp M).fwd (applyMask a.xMask (a.x0.getD fun _ => 0))) (Info.new a.iterations S.tolerance)).iterations = 0 := by
        unfold initialResiduals
        split_ifs
        · cases (initBMasks a.bMask a.bTestMask).2 <;> rfl
        · rfl
      have hz0 : ZeroOutsideMask a (applyMask a.xMask (a.x0.getD fun _ => 0)) := by
        intro m hm j hj
        simp [applyMask, hm, hj]
      refine ⟨hz0, hz0, le_rfl, Or.inl rfl, ?_, ?_, ?_⟩
      · rw [hit]; norm_num
      · rw [hit]; simp
      · simp only [one_pow, sub_self, mul_zero, zero_mul, zero_add, one_mul, sub_zero]
        refine sum_le_sum fun j _ => mul_le_mul_of_nonneg_left ?_ (hw0 j).le
        unfold applyMask startVolume
        cases hM : a.xMask with
        | none => exact le_rfl
        | some m =>
          rcases hs.xMask m hM j with h0 | h0
          · have := admissible_zero hz m hM j h0
            simp only [h0, mul_zero, this, sub_self]
            nlinarith [sq_nonneg ((a.x0.getD fun _ => 0) j - 0)]
          · simp [h0]
    · rintro k st ⟨hx, hy, ht1, hta, htk, -, hinv⟩
      set v : Arr ν := fun j => st.y j + ω / w j * wgrad M s t0 st.y j with hv
      set p : Arr ν := (match S.regs with | r :: _ => r.proxPrimal v (fun j => ω / w j) | [] => v) with hp
      set x' := clipMask a p with hx'
      set t' := fistaTNew none 0 st.t with ht'
      set y' : Arr ν := fun j => x' j + (st.t - 1) / t' * (x' j - st.x j) with hy'
      obtain ⟨st', hst', e1, e2, e3, e4⟩ : ∃ st', (fistaStep (matrixOp M) a S.regs S.restartPeriod
          (S.term.assignData (some (.array b)) (.scalar 1)) tt (initBMasks a.bMask a.bTestMask).1
          (initBMasks a.bMask a.bTestMask).2 sigma (fun j => ω / w j) S.tolerance k st).1 = st' ∧ st'.x = x' ∧ st'.y = y' ∧ st'.t = t' ∧
          st'.info.iterations = st.info.iterations + 1 := by
        refine ⟨_, rfl, ?_, ?_, ?_, ?_⟩
        · unfold fistaStep
          dsimp only
          rw [hstep st.y]
          rfl
        · unfold fistaStep
          dsimp only
          rw [hstep st.y, hR]
          rfl
        · unfold fistaStep
          dsimp only
          rw [hR]
          rfl
        · unfold fistaStep recordResiduals
          dsimp only
          split_ifs
          · cases (initBMasks a.bMask a.bTestMask).2 <;> rfl
          · rfl
      rw [hst']
      have hx'z : ZeroOutsideMask a x' := clipMask_zero a p
      have hy'z : ZeroOutsideMask a y' := fun m hm j hj => by simp only [hy', hx'z m hm j hj, hx m hm j hj]; ring
      have ht'sq : t' ^ 2 - t' = st.t ^ 2 := tNew_sq st.t
      have ht'ge : st.t + 1 / 2 ≤ t' := tNew_ge (by linarith) 0
      have hPC' : ∑ i, s i * (∑ j, M i j * (x' j - st.y j)) ^ 2 ≤ ∑ j, w j * (x' j - st.y j) ^ 2 := hPC _ fun j hj => by
        rw [zeroOutside_eff hx'z j hj, zeroOutside_eff hy j hj, sub_zero]
      have hVI : ∀ u, Admissible a u → 2 * ω * (Φ x' - Φ u) ≤ wdist w st.y u - wdist w x' u := by
        intro u hu
        have h3 := three_point (G := G) (z := u) hω hω1 hs0 hw0 hPC' (t := t0) (hreg v u hu)
        calc 2 * ω * (Φ x' - Φ u) = 2 * ω * (wls M s t0 x' + G x' - wls M s t0 u - G u) := by simp only [hΦ]; ring
          _ ≤ _ := h3
      refine ⟨e1 ▸ hx'z, e2 ▸ hy'z, by rw [e3]; linarith, Or.inr (e1 ▸ clipMask_admissible hs hz p), ?_, ?_, ?_⟩
      · rw [e3, e4]; push_cast; linarith
      · intro _
        rw [e3, e4, ht'sq]
        push_cast
        have : (0 : ℝ) ≤ st.info.iterations := Nat.cast_nonneg _
        exact pow_le_pow_left₀ (by linarith) (by linarith) 2
      · rw [e1, e2, e3, ht'sq]
        have hid : ∑ j, w j * (t' * y' j - (t' - 1) * x' j - z j) ^ 2 =
            ∑ j, w j * (st.t * x' j - (st.t - 1) * st.x j - z j) ^ 2 := by
          refine sum_congr rfl fun j _ => ?_
          have hne : t' ≠ 0 := by linarith
          congr 2
          simp only [hy']
          field_simp
          ring
        rw [hid]
        have hq : ∑ j, w j * (st.t * st.y j - (st.t - 1) * st.x j - z j) ^ 2 -
            ∑ j, w j * (st.t * x' j - (st.t - 1) * st.x j - z j) ^ 2 =
            st.t * (st.t - 1) * (wdist w st.y st.x - wdist w x' st.x) + st.t * (wdist w st.y z - wdist w x' z) := by
          unfold wdist
          rw [← sum_sub_distrib, ← sum_sub_distrib, ← sum_sub_distrib, mul_sum, mul_sum, ← sum_add_distrib]
          exact sum_congr rfl fun j _ => by ring
        have ha1 := mul_le_mul_of_nonneg_left (hVI z hz) (show 0 ≤ st.t by linarith)
        have ha2 : st.t * (st.t - 1) * (2 * ω * (Φ x' - Φ st.x)) ≤
            st.t * (st.t - 1) * (wdist w st.y st.x - wdist w x' st.x) := by
          rcases hta with h1 | h1
          · simp [h1]
          · exact mul_le_mul_of_nonneg_left (hVI st.x h1) (mul_nonneg (by linarith) (by linarith))
        nlinarith
  rcases Nat.eq_zero_or_pos info.iterations with h0 | h0
  · exact Or.inr h0
  left
  obtain ⟨-, -, -, -, -, hk2, hfin⟩ := hI
  rw [← he.1] at hfin
  have hii := he.2.1
  have hk3 := hk2 (by rw [← hii]; omega)
  rw [← hii] at hk3
  set st := forRange (fistaStep (matrixOp M) a S.regs S.restartPeriod (S.term.assignData (some (.array b)) (.scalar 1)) tt
      (initBMasks a.bMask a.bTestMask).1 (initBMasks a.bMask a.bTestMask).2 sigma (fun j => ω / w j) S.tolerance) a.iterations
      ⟨applyMask a.xMask (a.x0.getD fun _ => 0), applyMask a.xMask (a.x0.getD fun _ => 0), 1,
        initialResiduals (S.term.assignData (some (.array b)) (.scalar 1)) tt
          (initBMasks a.bMask a.bTestMask).1 (initBMasks a.bMask a.bTestMask).2 S.tolerance
          ((matrixOp M).fwd (applyMask a.xMask (a.x0.getD fun _ => 0))) (Info.new a.iterations S.tolerance)⟩
  have hsq : 0 ≤ ∑ j, w j * (st.t * st.y j - (st.t - 1) * x j - z j) ^ 2 :=
    sum_nonneg fun j _ => mul_nonneg (hw0 j).le (sq_nonneg _)
  have hD : 0 ≤ D0 := sum_nonneg fun j _ => mul_nonneg (hw0 j).le (sq_nonneg _)
  have hN : (0 : ℝ) < info.iterations := by exact_mod_cast h0
  rw [misfit_eq_wls, misfit_eq_wls]
  change Φ x - Φ z ≤ _
  rw [le_div_iff₀ (by positivity)]
  rcases le_total (Φ x - Φ z) 0 with hv | hv
  · have : (Φ x - Φ z) * (ω * (info.iterations + 1) ^ 2) ≤ 0 := mul_nonpos_of_nonpos_of_nonneg hv (by positivity)
    linarith
  · have h9 : ω * (Φ x - Φ z) * ((info.iterations + 1) / 2) ^ 2 ≤ ω * (Φ x - Φ z) * (st.t ^ 2 - st.t) :=
      mul_le_mul_of_nonneg_left hk3 (mul_nonneg hω.le hv)
    nlinarith


/-- The FISTA estimate, for any list of at most one regularizer whose proximal step is that of `g`. -/
private theorem fista_rate {M : ι → ν → ℝ} {S : Solver ν ι Q} {b : Arr ι} {a : Args ν ι} {rnd x info S'}
    (h : fista S (matrixOp M) b a true rnd = .ok (x, info, S')) (hk : S.term.kind = .l2) (hR : S.restartPeriod = none)
    (hω : 0 < S.relaxation) (hω1 : S.relaxation ≤ 1) (hs : SensibleScale M a) {g : ν → ℝ → ℝ}
    (hg : ∀ j, ConvexOn ℝ Set.univ (g j))
    (hreg : ∀ (v tau : Arr ν), (∀ j, 0 < tau j) → ∀ j y,
      tau j * g j ((match S.regs with | r :: _ => r.proxPrimal v tau | [] => v) j) +
        (v j - (match S.regs with | r :: _ => r.proxPrimal v tau | [] => v) j) *
          (y - (match S.regs with | r :: _ => r.proxPrimal v tau | [] => v) j) ≤ tau j * g j y) :
    ∃ s w, RowNormalized M a s ∧ ColumnWeights M a w ∧ ∀ z, Admissible a z → 
      (misfit S (matrixOp M) b s x + ∑ j, g j (x j)) - (misfit S (matrixOp M) b s z + ∑ j, g j (z j)) ≤
        2 * dist2 w (startVolume a 0) z / (S.relaxation * (info.iterations + 1) ^ 2) ∨ info.iterations = 0 := by
  obtain ⟨sigma, tau, -, hsc, -⟩ := fista_ok h
  obtain ⟨s, w, hs0, hw0, hwc, hPC, hRN, htau, hstep⟩ := fista_matrix (b := b) hk hs hsc
  refine ⟨s, w, hRN, fun j => ⟨hw0 j, by simpa only [effMask_eq] using hwc j⟩, fun z hz => ?_⟩
  refine fista_core h hR hω hω1 hs (fun x => ∑ j, g j (x j)) hs0 hw0 hPC (fun sigma' tau' hsc' => ?_) (fun v u hu => ?_) hz
  · rw [hsc] at hsc'
    simp only [Except.ok.injEq, Prod.mk.injEq] at hsc'
    obtain ⟨rfl, rfl⟩ := hsc'
    exact ⟨htau, hstep⟩
  · rw [mul_sum, mul_sum, ← sum_add_distrib]
    refine sum_le_sum fun j _ => ?_
    have htpos : ∀ j, 0 < S.relaxation / w j := fun j => div_pos hω (hw0 j)
    have h4 := clip_prox_mask hs hu hg (fun j => (htpos j).le) (hreg v (fun j => S.relaxation / w j) htpos) j
    have h5 := mul_le_mul_of_nonneg_left h4 (hw0 j).le
    have hne := (hw0 j).ne'
    generalize clipMask a (match S.regs with | r :: _ => r.proxPrimal v (fun j => S.relaxation / w j) | [] => v) = x' at h5 ⊢
    have h6 : ∀ c : ℝ, w j * (S.relaxation / w j * c) = S.relaxation * c := fun c => by field_simp
    rw [mul_add, h6, h6] at h5
    refine le_trans (le_of_eq ?_) h5
    ring

omit [Fintype ν] in
theorem fista_iterated [Fintype ν] {S : Solver ν ι Q} {A : Operator ν ι} {b : Arr ι} {a : Args ν ι} {pc rnd x info S'}
    (h : fista S A b a pc rnd = .ok (x, info, S')) (hn : 1 ≤ a.iterations) : info.iterations ≠ 0 := by
  have hA := C05_fista_accounting h
  intro h0
  have := hA.earlyStop (by omega)
  omega

/-- C61. FISTA (default preconditioning, no restart, relaxation in (0, 1]) on a matrix with the plain l2 term and no
regularizer: after `k` recorded iterations, whether or not the tolerance stopped it, the row-normalised training misfit
exceeds that of any admissible volume by at most `2 dist² / (ω (k+1)²)`. -/
theorem C61_fista_rate {M : ι → ν → ℝ} {S : Solver ν ι Q} {b : Arr ι} {a : Args ν ι} {rnd x info S'}
    (h : fista S (matrixOp M) b a true rnd = .ok (x, info, S')) (hr : S.regs = []) (hk : S.term.kind = .l2)
    (hR : S.restartPeriod = none) (hω : 0 < S.relaxation) (hω1 : S.relaxation ≤ 1) (hs : SensibleScale M a)
    (hn : 1 ≤ a.iterations) :
    ∃ s w, RowNormalized M a s ∧ ColumnWeights M a w ∧ ∀ z, Admissible a z →
      misfit S (matrixOp M) b s x - misfit S (matrixOp M) b s z ≤
        2 * dist2 w (startVolume a 0) z / (S.relaxation * (info.iterations + 1) ^ 2) := by
  obtain ⟨s, w, h1, h2, h3⟩ := fista_rate h hk hR hω hω1 hs (g := fun _ _ => 0) (fun _ => convexOn_const _ convex_univ) (by
    intro v tau _ j y
    simp [hr])
  refine ⟨s, w, h1, h2, fun z hz => ?_⟩
  rcases h3 z hz with h4 | h4
  · simpa using h4
  · exact absurd h4 (fista_iterated h hn)

/-- C61, with one regularizer whose `apply_proximal_primal` is the voxel-wise proximal map of convex functions `g`
(e.g. `Regularizer_l1`, see C24): the same rate for misfit plus `∑ g`. -/
theorem C61_fista_prox_rate {M : ι → ν → ℝ} {S : Solver ν ι Q} {b : Arr ι} {a : Args ν ι} {rnd x info S'}
    (h : fista S (matrixOp M) b a true rnd = .ok (x, info, S')) {reg : Reg ν Q} (hr : S.regs = [reg])
    {g : ν → ℝ → ℝ} (hg : ∀ j, ConvexOn ℝ Set.univ (g j)) (hprox : ProxOf reg g) (hk : S.term.kind = .l2)
    (hR : S.restartPeriod = none) (hω : 0 < S.relaxation) (hω1 : S.relaxation ≤ 1) (hs : SensibleScale M a)
    (hn : 1 ≤ a.iterations) :
    ∃ s w, RowNormalized M a s ∧ ColumnWeights M a w ∧ ∀ z, Admissible a z →
      (misfit S (matrixOp M) b s x + ∑ j, g j (x j)) - (misfit S (matrixOp M) b s z + ∑ j, g j (z j)) ≤
        2 * dist2 w (startVolume a 0) z / (S.relaxation * (info.iterations + 1) ^ 2) := by
  obtain ⟨s, w, h1, h2, h3⟩ := fista_rate h hk hR hω hω1 hs hg (by
    intro v tau ht j y
    simp only [hr]
    exact prox_vi (hg j) (ht j).le (hprox v tau ht j) y)
  refine ⟨s, w, h1, h2, fun z hz => ?_⟩
  rcases h3 z hz with h4 | h4
  · exact h4
  · exact absurd h4 (fista_iterated h hn)

/-! ## The hypotheses are met -/

noncomputable def demoM : Fin 2 → Fin 1 → ℝ := fun i _ => if i = 0 then 1 else -2
noncomputable def demoArgs : Args (Fin 1) (Fin 2) :=
  { iterations := 7, lower := some (.scalar 0), upper := some (.scalar 5) }

theorem demo_scale : SensibleScale demoM demoArgs where
  bMask := by simp [demoArgs]
  test := by simp [demoArgs]
  xMask := by simp [demoArgs]
  rows := by intro i; fin_cases i <;> simp [demoM]; norm_num
  cols := by intro i; simp [demoM, Fin.sum_univ_two]; norm_num

theorem demo_admissible : Admissible demoArgs (startVolume demoArgs 0) := by
  refine ⟨⟨?_, ?_⟩, by simp [demoArgs]⟩
  · rintro l h j; simp [demoArgs] at h; simp [← h, startVolume, demoArgs, Attr.get]
  · rintro l h j; simp [demoArgs] at h; simp [← h, startVolume, demoArgs, Attr.get]

/-- SIRT and FISTA runs meeting all hypotheses of C07, C59, C60, C61 (matrix with both signs, inconsistent data,
limits). -/
example : let S : Solver (Fin 1) (Fin 2) Unit := ⟨1 / 2, none, [], .new .l2 none, .new .l2 none, none⟩
    S.term.kind = .l2 ∧ SensibleScale demoM demoArgs ∧ Admissible demoArgs (startVolume demoArgs 0) ∧
    (∀ n, ∃ r, sirt S (matrixOp demoM) ![3, 5] { demoArgs with iterations := n } = .ok r) ∧
    ∃ r, fista S (matrixOp demoM) ![3, 5] demoArgs true (fun _ => 1) = .ok r := by
  refine ⟨rfl, demo_scale, demo_admissible, fun n => ?_, ?_⟩
  · obtain ⟨p, hp⟩ := matrix_scaling_ok (Q := Unit) (M := demoM) 1 (1 / 2) ⟨0, 0, by simp [demoM]⟩
    exact sirt_runs hp rfl
  · obtain ⟨p, hp⟩ := matrix_scaling_ok (Q := Unit) (M := demoM) 1 (1 / 2) ⟨0, 0, by simp [demoM]⟩
    exact fista_runs (p := p) (by simpa [fistaScaling, matrixOp, demoArgs, initBMasks] using hp) rfl

/-- A solution exists for the consistent data of a signed matrix (hypothesis of C07). -/
example : let S : Solver (Fin 1) (Fin 2) Unit := ⟨1 / 2, none, [], .new .l2 none, .new .l2 none, none⟩
    Reproduces S (matrixOp demoM) demoArgs ![3, -6] (fun _ => 3) ∧ Admissible demoArgs (fun _ => 3) := by
  refine ⟨?_, ⟨?_, ?_⟩, by simp [demoArgs]⟩
  · intro i _
    fin_cases i <;> simp [DataTerm.new, addBackground, matrixOp, demoM]; norm_num
  · rintro l h j; simp [demoArgs] at h; simp [← h, Attr.get]
  · rintro l h j; simp [demoArgs] at h; norm_num [← h, Attr.get]

end Verif
