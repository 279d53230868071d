import Verif.Props.DwlReg

/-! # The decimated wavelet regularizer with many levels: the primal-dual solver does not converge -/

namespace Verif
open Classical DataTerm Finset Filter Topology Verif.Spec

/-! ## Two-dimensional Haar wavelets: the step sizes -/

theorem haar_l1 : l1norm haarBank.decLo = Real.sqrt 2 := by
  simp only [l1norm, haarBank, Fin.sum_univ_two]
  rw [abs_of_nonneg (by positivity)]
  have := Real.mul_self_sqrt (show (0 : ℝ) ≤ 2 by norm_num)
  field_simp
  linarith

theorem haar_l1_sq : l1norm haarBank.decLo ^ 2 = 2 := by
  rw [haar_l1, Real.sq_sqrt (by norm_num)]

theorem two_prod (l : Fin 2 → Bool) : (∏ k, if l k then l1norm haarBank.recHi else l1norm haarBank.recLo) = 2 := by
  obtain ⟨-, e2, e3, e4⟩ := haar_orthogonal.norms
  rw [e3, e4]
  simp only [ite_self, prod_const, card_univ, Fintype.card_fin]
  exact haar_l1_sq

/-- The published weight, for two-dimensional Haar wavelets. -/
theorem haar2_tau (level : ℕ) : dwlTau haarBank 2 level = 9 - 5 / 2 ^ level := by
  obtain ⟨-, e2, e3, e4⟩ := haar_orthogonal.norms
  have hc : Fintype.card {l : Fin 2 → Bool // l ≠ approxLabel 2} = 3 := by decide
  unfold dwlTau
  rw [Fintype.sum_option, Fintype.sum_prod_type]
  simp only [bandMult, reduceCtorEq, if_false, if_true, two_prod]
  simp only [e3, haar_l1_sq, sum_const, card_univ, hc, nsmul_eq_mul]
  have : ∀ N : ℕ, ∑ i : Fin N, ((3 : ℕ) : ℝ) * (((2 : ℝ) ^ 2 - 1 + 0) / (2 * 2 ^ (i : ℕ))) = 9 - 9 / 2 ^ N := by
    intro N
    induction N with
    | zero => simp
    | succ N ih =>
      rw [Fin.sum_univ_castSucc]
      simp only [Fin.val_castSucc, Fin.val_last]
      rw [ih, pow_succ]
      field_simp
      ring
  rw [this]
  field_simp
  ring

theorem haar2_step_none (level : ℕ) : dwlSteps haarBank 2 level none = 2 ^ level := by
  simp [dwlSteps, decFuncMult, haar_l1_sq]

/-- Up to three levels the condition of `C157_step_contract_partial` is met. -/
theorem haar2_contract {level : ℕ} (h : level ≤ 3) : (l1norm haarBank.decLo ^ 2) ^ level ≤ dwlTau haarBank 2 level := by
  rw [haar_l1_sq, haar2_tau]
  interval_cases level <;> norm_num

/-- Non-vacuity of `C229_converges_limits_partial`: images of eight by twelve pixels between 0 and 20, Haar wavelets with two levels. -/
example (b : Arr (Idx ![8, 12])) : ∃ (S : Solver (Idx ![8, 12]) (Idx ![8, 12]) (Arr (DwlDual (level := 2) .periodization 2 (id : Fin 2 → Fin 2) ![8, 12])))
    (xs : ℕ → Arr (Idx ![8, 12])), (∀ N, ∃ info S', pdhg S (matrixOp fun i j => if i = j then 1 else 0) b
      { iterations := N, lower := some (.scalar 0), upper := some (.scalar 20) } true (fun _ => 1) = .ok (xs N, info, S')) ∧
    ∃ x, IsSolution S (fun i j => if i = j then 1 else 0) { iterations := 0, lower := some (.scalar 0), upper := some (.scalar 20) } b
      [dwlPenalty haarBank .periodization true 2 id ![8, 12] 3] x ∧ Tendsto xs atTop (𝓝 x) := by
  let S : Solver (Idx ![8, 12]) (Idx ![8, 12]) (Arr (DwlDual (level := 2) .periodization 2 (id : Fin 2 → Fin 2) ![8, 12])) :=
    ⟨95 / 100, none, [dwlReg haarBank .periodization true 2 id ![8, 12] 3], .new .l2 none, .new .l2 none, none⟩
  let a : Args (Idx ![8, 12]) (Idx ![8, 12]) := { iterations := 0, lower := some (.scalar 0), upper := some (.scalar 20) }
  have hm : AdjointMode .periodization 2 (id : Fin 2 → Fin 2) ![8, 12] :=
    Or.inr ⟨rfl, Function.injective_id, fun i => by fin_cases i <;> decide⟩
  have hc : (l1norm haarBank.decLo ^ 2) ^ 2 ≤ dwlTau haarBank 2 2 := haar2_contract (by norm_num)
  obtain ⟨p, hp⟩ := scaling_regs_ok (M := fun i j : Idx ![8, 12] => if i = j then (1 : ℝ) else 0)
    ⟨fun k => ⟨0, by fin_cases k <;> simp⟩, fun k => ⟨0, by fin_cases k <;> simp⟩, by simp⟩ S a ⟨rfl, rfl, rfl⟩ (by
    intro r hr t j
    simp only [S, List.mem_singleton] at hr
    subst hr
    exact (C157_step_contract_partial haar_orthogonal ⟨1, rfl⟩ true hm hc 3).nonneg j) fun _ => 1
  have h : ∀ N, ∃ r, pdhg S (matrixOp fun i j => if i = j then 1 else 0) b { a with iterations := N } true (fun _ => 1) = .ok r := fun N =>
    pdhg_runs (p := p) hp rfl
  choose r hr using h
  have hrun : ∀ N, ∃ info S', pdhg S (matrixOp fun i j => if i = j then 1 else 0) b { a with iterations := N } true (fun _ => 1) =
    .ok ((r N).1, info, S') := fun N => ⟨(r N).2.1, (r N).2.2, hr N⟩
  refine ⟨S, fun N => (r N).1, hrun, ?_⟩
  exact C229_converges_limits_partial haar_orthogonal ⟨1, rfl⟩ true hm hc (by norm_num) (S := S) (a := a) rfl trivial (by simp [S, DataTerm.new]) rfl
    (by norm_num [S]) (by norm_num [S])
    ⟨by simp [a], by simp [a], by simp [a], by intro i; simp [abs_ite], by intro i; simp [abs_ite]⟩ (fun i => Or.inr (by simp [trainWeight, a]))
    (by intro j; rw [haar2_tau]; simp [abs_ite]; norm_num) rfl rfl ⟨by rintro l u ⟨⟩ ⟨⟩ j; simp [Attr.get], by simp [a], by simp [a], by simp [a]⟩ hrun

/-! ## Constant images -/

variable {L : ℕ} {κ : Type} [Fintype κ] [DecidableEq κ] {m : ℕ} {n : κ → ℕ}

theorem dwtAxis_flat (f : Fin L → ℝ) (N : ℕ) (a : κ) (c : ℝ) : dwtAxis f .periodization N a (fun _ => c) = fun _ => (∑ j, f j) * c := by
  funext q
  simp only [dwtAxis, extPos]
  rw [sum_mul]

theorem dwtApprox_congr (w : FilterBank L) (axes : Fin m → κ) (n : κ → ℕ) {x x' : Img κ} (h : ∀ p ∈ box n, x p = x' p) (i : ℕ) :
    ∀ q ∈ box (levelShape .periodization L axes n i), dwtApprox w .periodization axes n x i q = dwtApprox w .periodization axes n x' i q := by
  induction i with
  | zero => exact h
  | succ i ih =>
    intro q hq
    rw [← lettered_box .periodization L axes (approxLabel m) n i] at hq
    exact dbandDec_congr w (Or.inr rfl) _ _ ih q hq

theorem dwtOp_congr (w : FilterBank L) (level : ℕ) (axes : Fin m → κ) (n : κ → ℕ) {x x' : Img κ} (h : ∀ p ∈ box n, x p = x' p) (b : Band m level) :
    ∀ q ∈ box (dwtBandShape .periodization L axes n b), dwtOp w .periodization level axes n x b q = dwtOp w .periodization level axes n x' b q := by
  rcases b with _ | ⟨i, l⟩
  · exact dwtApprox_congr w axes n h level
  · intro q hq
    refine dbandDec_congr w (Or.inr rfl) _ _ (dwtApprox_congr w axes n h i) q ?_
    rw [lettered_box]
    exact hq

theorem haar_sum_lo : ∑ j, haarBank.decLo j = Real.sqrt 2 := by
  simp only [haarBank, Fin.sum_univ_two]
  have := Real.mul_self_sqrt (show (0 : ℝ) ≤ 2 by norm_num)
  field_simp
  linarith

theorem haar_sum_hi : ∑ j, haarBank.decHi j = 0 := by
  simp [haarBank, Fin.sum_univ_two]

theorem dband_flat (l : List (κ × Bool)) (n : κ → ℕ) (c : ℝ) :
    dbandDec haarBank .periodization l n (fun _ => c) = fun _ => (l.map fun e => if e.2 then 0 else Real.sqrt 2).prod * c := by
  induction l generalizing n c with
  | nil => simp [dbandDec]
  | cons e l ih =>
    obtain ⟨a, b⟩ := e
    simp only [dbandDec, dwtAxis_flat, ih, List.map_cons, List.prod_cons]
    funext _
    cases b
    · simp only [FilterBank.dec, Bool.false_eq_true, if_false, haar_sum_lo]; ring
    · simp only [FilterBank.dec, if_true, haar_sum_hi]; ring

abbrev ax2 : Fin 2 → Fin 2 := id

theorem approx_flat (n : Fin 2 → ℕ) (c : ℝ) (i : ℕ) : dwtApprox haarBank .periodization ax2 n (fun _ => c) i = fun _ => 2 ^ i * c := by
  induction i with
  | zero => simp [dwtApprox]
  | succ i ih =>
    simp only [dwtApprox, ih, dband_flat]
    funext _
    simp only [lettered, approxLabel, List.ofFn_succ, List.ofFn_zero, List.map_cons, List.map_nil, List.prod_cons, List.prod_nil, Bool.false_eq_true, if_false]
    have := Real.mul_self_sqrt (show (0 : ℝ) ≤ 2 by norm_num)
    rw [mul_one, this, pow_succ]
    ring

theorem detail_flat (n : Fin 2 → ℕ) (c : ℝ) (i : ℕ) (l : Fin 2 → Bool) (hl : l ≠ approxLabel 2) :
    dbandDec haarBank .periodization (lettered ax2 l) (levelShape .periodization 2 ax2 n i) (fun _ => c) = fun _ => 0 := by
  rw [dband_flat]
  funext _
  obtain ⟨k, hk⟩ := Function.ne_iff.1 hl
  have : (0 : ℝ) ∈ (lettered ax2 l).map fun e => if e.2 then 0 else Real.sqrt 2 := by
    rw [List.mem_map]
    refine ⟨(k, l k), ?_, ?_⟩
    · rw [lettered, List.mem_ofFn]
      exact ⟨k, rfl⟩
    · have : l k = true := by simpa [approxLabel] using hk
      simp [this]
  rw [List.prod_eq_zero this, zero_mul]

theorem op_flat (n : Fin 2 → ℕ) (level : ℕ) (c : ℝ) (b : Band 2 level) :
    dwtOp haarBank .periodization level ax2 n (fun _ => c) b = fun _ => if b = none then 2 ^ level * c else 0 := by
  rcases b with _ | ⟨i, l⟩
  · simp [dwtOp, approx_flat]
  · simp only [dwtOp, approx_flat, detail_flat n _ i l.1 l.2, reduceCtorEq, if_false]

variable {level : ℕ} {n2 : Fin 2 → ℕ}

/-- Coefficients with the same value everywhere in the approximation, and no details. -/
noncomputable def flat (level : ℕ) (n : Fin 2 → ℕ) (d : ℝ) : Arr (DwlDual (level := level) .periodization 2 ax2 n) := fun q => if q.1 = none then d else 0

theorem arr_flat (c : ℝ) : dwtArr haarBank .periodization level ax2 n2 (fun _ => c) = flat level n2 (2 ^ level * c) := by
  funext q
  simp only [dwtArr, ofImg, flat]
  rw [dwtOp_congr haarBank level ax2 n2 (x' := fun _ => c) (toImg_const c) q.1 _ (idx_mem_box q.2), op_flat]

theorem arrT_flat (d : ℝ) : dwtArrT haarBank .periodization level ax2 n2 (flat level n2 d) = fun _ => d / 2 ^ level := by
  funext p
  have key := C226_orthogonal haar_orthogonal ⟨1, rfl⟩ .periodization level ax2 n2 (fun _ => d / 2 ^ level) _ (idx_mem_box p)
  rw [← key]
  simp only [dwtArrT, ofImg, dwtOpT]
  have e : (fun (i : ℕ) (l : Fin 2 → Bool) (p : Fin 2 → ℤ) => if h : i < level ∧ l ≠ approxLabel 2 then
      toImg (dwtBandShape .periodization 2 ax2 n2 (some (⟨i, h.1⟩, ⟨l, h.2⟩))) (fun p => flat level n2 d ⟨some (⟨i, h.1⟩, ⟨l, h.2⟩), p⟩) p else 0) =
      fun i l p => if h : i < level ∧ l ≠ approxLabel 2 then
        dwtOp haarBank .periodization level ax2 n2 (fun _ => d / 2 ^ level) (some (⟨i, h.1⟩, ⟨l, h.2⟩)) p else 0 := by
    funext i l p
    by_cases h : i < level ∧ l ≠ approxLabel 2
    · rw [dif_pos h, dif_pos h, op_flat]
      simp [toImg, flat]
    · rw [dif_neg h, dif_neg h]
  rw [e]
  refine idwtFrom_congr _ _ _ _ _ level (fun q hq => ?_) _ (idx_mem_box p)
  rw [op_flat, if_pos rfl]
  have := toImg_const (n := dwtBandShape (level := level) .periodization 2 ax2 n2 none) d q hq
  simp only [flat, if_true]
  rw [this]
  field_simp

/-! ## A cycle of the primal-dual solver -/

theorem update_flat (weight d c : ℝ) : (dwlReg haarBank .periodization true level ax2 n2 weight).updateDual (flat level n2 d) (fun _ => c) =
    flat level n2 (d + 2 ^ level * (2 ^ level * c)) := by
  funext q
  have := congrFun (arr_flat (level := level) (n2 := n2) c) q
  simp only [dwtArr] at this
  simp only [dwlReg, Bool.true_eq_false, false_and, if_false, this, flat]
  split_ifs with h
  · rw [h, haar2_step_none]
  · ring

theorem prox_flat (weight d : ℝ) : (dwlReg haarBank .periodization true level ax2 n2 weight).proxDual (flat level n2 d) =
    flat level n2 (d / max |d| weight * weight) := by
  funext q
  simp only [dwlReg, proxDual, DataTerm.new, assignData, applyThreshold, innerNorm, subSigmaData, Attr.get, flat]
  split_ifs
  · rfl
  · simp

theorem primal_flat (weight d : ℝ) : (dwlReg haarBank .periodization true level ax2 n2 weight).updatePrimal (flat level n2 d) =
    (fun _ => d / 2 ^ level, flat level n2 d) := by
  have := arrT_flat (level := level) (n2 := n2) d
  simp only [dwtArrT] at this
  simp only [dwlReg, this]

/-- One iteration on constant images: `x`, its extrapolation, the dual of the data term and that of the approximation. -/
noncomputable def cycStep (s : ℝ × ℝ × ℝ × ℝ) : ℝ × ℝ × ℝ × ℝ :=
  let e := s.2.2.2 + 2 ^ 5 * (2 ^ 5 * s.2.1)
  let d := e / max |e| 1723665408 * 1723665408
  let p := (s.2.2.1 + s.2.1 * (95 / 100) - 948367 * (95 / 100)) * (1 / (1 + 95 / 100))
  let x := s.1 - (p + d / 2 ^ 5) * (95 / 100 / (1 + 283 / 32))
  (x, x + (x - s.1), p, d)

theorem cyc0 : cycStep (853519, 853519, 0, 0) = (-1777905, -4409329, -46208, 874003456) := by
  simp only [cycStep]
  norm_num [abs_of_pos, max_def]

theorem cyc1 : cycStep (-1777905, -4409329, -46208, 874003456) = (3674639, 9127183, -2633856, -1723665408) := by
  simp only [cycStep]
  norm_num [abs_of_pos, max_def]

theorem cyc2 : cycStep (3674639, 9127183, -2633856, -1723665408) = (-1777905, -7230449, 2633856, 1723665408) := by
  simp only [cycStep]
  norm_num [abs_of_pos, max_def]

theorem cyc3 : cycStep (-1777905, -7230449, 2633856, 1723665408) = (3674639, 9127183, -2633856, -1723665408) := by
  simp only [cycStep]
  norm_num [abs_of_pos, max_def]

theorem cyc_even (N : ℕ) : cycStep^[2 * N + 2] (853519, 853519, 0, 0) = (3674639, 9127183, -2633856, -1723665408) ∧
    cycStep^[2 * N + 3] (853519, 853519, 0, 0) = (-1777905, -7230449, 2633856, 1723665408) := by
  induction N with
  | zero => simp only [Function.iterate_succ_apply, Function.iterate_zero_apply, Nat.mul_zero, cyc0, cyc1, cyc2, and_self]
  | succ N ih =>
    have h1 : cycStep^[2 * (N + 1) + 2] (853519, 853519, 0, 0) = (3674639, 9127183, -2633856, -1723665408) := by
      rw [show 2 * (N + 1) + 2 = (2 * N + 3) + 1 by ring, Function.iterate_succ_apply', ih.2, cyc3]
    refine ⟨h1, ?_⟩
    rw [show 2 * (N + 1) + 3 = (2 * (N + 1) + 2) + 1 by ring, Function.iterate_succ_apply', h1, cyc2]

/-- Images of 32 by 32 pixels. -/
abbrev n32 : Fin 2 → ℕ := fun _ => 32

noncomputable def cycM : Idx n32 → Idx n32 → ℝ := fun i j => if i = j then 1 else 0

noncomputable def cycS : Solver (Idx n32) (Idx n32) (Arr (DwlDual (level := 5) .periodization 2 ax2 n32)) :=
  ⟨95 / 100, none, [dwlReg haarBank .periodization true 5 ax2 n32 1723665408], .new .l2 none, .new .l2 none, none⟩

noncomputable def cycA (N : ℕ) : Args (Idx n32) (Idx n32) := { iterations := N, x0 := some fun _ => 853519 }

theorem max_flat (c : ℝ) : npMax (fun _ : Idx n32 => c) = c := by
  unfold npMax
  exact ciSup_const

theorem fix_flat {c : ℝ} (hc : 0 < c) : fixSmall (fun _ : Idx n32 => c) = fun _ => c := by
  funext i
  simp only [fixSmall, max_flat]
  rw [div_self hc.ne', if_neg (by norm_num)]

theorem cyc_scaling (N : ℕ) (rnd : Arr (Idx n32)) : pdhgScaling cycS (matrixOp cycM) (cycA N) true rnd =
    .ok (fun _ => 95 / 100, fun _ => 95 / 100 / (1 + 283 / 32)) := by
  have e1 : (fun j : Idx n32 => |∑ i, |cycM i j| * 1|) = fun _ => 1 := by
    funext j; simp [cycM, abs_ite]
  have e2 : (fun i : Idx n32 => |∑ j, |cycM i j| * 1|) = fun _ => 1 := by
    funext j; simp [cycM, abs_ite]
  have e3 : (dwlReg haarBank .periodization true 5 ax2 n32 1723665408).sigmaTau = fun _ _ => 283 / 32 := by
    simp only [dwlReg, haar2_tau]
    norm_num
  simp only [pdhgScaling, matrixOp, if_true, cycA, initBMasks, diagonalScaling, applyMask, e1, e2, cycS, List.foldl_cons, List.foldl_nil, e3, max_flat]
  rw [if_neg (by norm_num), if_neg (by norm_num), fix_flat (by norm_num), fix_flat (by norm_num)]
  simp

theorem cyc_run (N : ℕ) (rnd : Arr (Idx n32)) : ∃ info S',
    pdhg cycS (matrixOp cycM) (fun _ => 948367) (cycA N) true rnd = .ok (fun _ => (cycStep^[N] (853519, 853519, 0, 0)).1, info, S') := by
  obtain ⟨r, hr⟩ := pdhg_runs (S := cycS) (b := fun _ => 948367) (cyc_scaling N rnd) rfl
  obtain ⟨sigma, tau, tt, h1, -, h3⟩ := pdhg_ok hr
  rw [cyc_scaling] at h1
  simp only [Except.ok.injEq, Prod.mk.injEq] at h1
  obtain ⟨rfl, rfl⟩ := h1
  refine ⟨r.2.1, r.2.2, ?_⟩
  rw [hr]
  suffices r.1 = fun _ => (cycStep^[N] (853519, 853519, 0, 0)).1 by rw [← this]
  rw [h3]
  dsimp only
  have hf : ∀ k (s : PDState (Idx n32) (Idx n32) (Arr (DwlDual (level := 5) .periodization 2 ax2 n32))) (t : ℝ × ℝ × ℝ × ℝ),
      (s.x = (fun _ => t.1) ∧ s.xRelax = (fun _ => t.2.1) ∧ s.p = (fun _ => t.2.2.1) ∧ s.q = [flat 5 n32 t.2.2.2]) →
      let s' := pdhgStep (matrixOp cycM) (cycA N) cycS.regs (cycS.term.assignData (some (.array fun _ => 948367)) (.array fun _ => 95 / 100)) tt
        (initBMasks (cycA N).bMask (cycA N).bTestMask).1 (initBMasks (cycA N).bMask (cycA N).bTestMask).2 (fun _ => 95 / 100 / (1 + 283 / 32))
        cycS.tolerance k s
      (s'.1.x = (fun _ => (cycStep t).1) ∧ s'.1.xRelax = (fun _ => (cycStep t).2.1) ∧ s'.1.p = (fun _ => (cycStep t).2.2.1) ∧
        s'.1.q = [flat 5 n32 (cycStep t).2.2.2]) ∧ s'.2 = false := by
    rintro k s t ⟨hx, hr, hp, hq⟩
    have hfwd : ∀ c : ℝ, (matrixOp cycM).fwd (fun _ => c) = fun _ => c := fun c => by funext i; simp [matrixOp, cycM]
    have hadj : ∀ c : ℝ, (matrixOp cycM).adj (fun _ => c) = fun _ => c := fun c => by funext i; simp [matrixOp, cycM]
    have hpp : (cycS.term.assignData (some (.array fun _ => 948367)) (.array fun _ => 95 / 100)).proxDual
        ((cycS.term.assignData (some (.array fun _ => 948367)) (.array fun _ => 95 / 100)).updateDual (fun _ => t.2.2.1) fun _ => t.2.1) =
        fun _ => (cycStep t).2.2.1 := by
      funext i
      simp only [cycS, DataTerm.new, assignData, proxDual, DataTerm.updateDual, subSigmaData, computeSigmaData, computeSigma1, Attr.get, cycStep, Attr.map₂, Attr.map]
      norm_num
    have hqq : updateRegDuals cycS.regs s.q s.xRelax = [flat 5 n32 (cycStep t).2.2.2] := by
      rw [hq, hr]
      simp only [cycS, updateRegDuals, update_flat, prox_flat, cycStep]
    have hup : ∀ d (u : ℝ), addRegUpdates cycS.regs [flat 5 n32 d] (fun _ => u) = (fun _ => u + d / 2 ^ 5, [flat 5 n32 d]) := by
      intro d u
      simp only [cycS, addRegUpdates, primal_flat]
    have hm : ∀ c : ℝ, clipMask (cycA N) (fun _ => c) = fun _ => c := fun c => by
      funext j; simp [clipMask, cycA, applyMask, clip1]
    rw [hr] at hqq
    intro s'
    have hmask : ∀ y : Arr (Idx n32), applyMask (initBMasks (cycA N).bMask (cycA N).bTestMask).1 y = y := fun y => rfl
    have halias : (matrixOp cycM).aliasBack = none := rfl
    simp only [s', pdhgStep, hr, hp, hfwd, hpp, hmask, hqq, hadj, hup, hx, hm, halias]
    refine ⟨⟨?_, ?_, ?_, ?_⟩, recordResiduals_noTol⟩
    · first | trivial | rfl
    · first | trivial | rfl
    · first | trivial | rfl
    · first | trivial | rfl
  have hq0 : cycS.regs.map (·.initDual) = [flat 5 n32 0] := by
    simp only [cycS, List.map_cons, List.map_nil, List.cons.injEq, and_true]
    funext q
    simp [dwlReg, flat]
  have hrel := forRange_rel (n := N) (step := pdhgStep (matrixOp cycM) (cycA N) cycS.regs
        (cycS.term.assignData (some (.array fun _ => 948367)) (.array fun _ => 95 / 100)) tt
        (initBMasks (cycA N).bMask (cycA N).bTestMask).1 (initBMasks (cycA N).bMask (cycA N).bTestMask).2 (fun _ => 95 / 100 / (1 + 283 / 32))
        cycS.tolerance) (step' := fun _ t => (cycStep t, false))
    (R := fun s t => s.x = (fun _ => t.1) ∧ s.xRelax = (fun _ => t.2.1) ∧ s.p = (fun _ => t.2.2.1) ∧ s.q = [flat 5 n32 t.2.2.2])
    (s' := (853519, 853519, 0, 0))
    (s := ⟨(cycA N).x0.getD fun _ => 0, (cycA N).x0.getD fun _ => 0,
      (cycS.term.assignData (some (.array fun _ => 948367)) (.array fun _ => 95 / 100)).initializeDual, cycS.regs.map (·.initDual),
      initialResiduals (cycS.term.assignData (some (.array fun _ => 948367)) (.array fun _ => 95 / 100)) tt
        (initBMasks (cycA N).bMask (cycA N).bTestMask).1 (initBMasks (cycA N).bMask (cycA N).bTestMask).2 cycS.tolerance
        ((matrixOp cycM).fwd ((cycA N).x0.getD fun _ => 0)) (Info.new (cycA N).iterations cycS.tolerance)⟩) ⟨rfl, rfl, rfl, hq0⟩ hf
  have hit := forRange_noBreak (step := fun _ t => (cycStep t, false)) id cycStep (fun _ _ => rfl) (fun _ _ => rfl) N (853519, 853519, 0, 0)
  simp only [id] at hit
  rw [hit] at hrel
  exact hrel.1

/-- The zero image is the solution. -/
theorem cyc_solution (a : Args (Idx n32) (Idx n32)) (ha : a = cycA 0) :
    IsSolution cycS cycM a (fun _ => 948367) [dwlPenalty haarBank .periodization true 5 ax2 n32 1723665408] fun _ => 0 := by
  subst ha
  have hf : ∀ x, Feasible cycS cycM (cycA 0) (fun _ => 948367) x := fun x => ⟨⟨⟨by simp [cycA], by simp [cycA]⟩, by simp [cycA]⟩, fun i _ => trivial⟩
  have hm : AdjointMode .periodization 5 ax2 n32 := Or.inr ⟨rfl, Function.injective_id, fun _ => ⟨1, rfl⟩⟩
  refine ⟨hf _, fun z _ => ?_⟩
  have hadj := dwtArr_adjoint haar_orthogonal hm z (flat 5 n32 (948367 * 2 ^ 5))
  rw [arrT_flat] at hadj
  have hle : dot (dwtArr haarBank .periodization 5 ax2 n32 z) (flat 5 n32 (948367 * 2 ^ 5)) ≤
      ∑ q, 1723665408 * |dwtArr haarBank .periodization 5 ax2 n32 z q| := by
    unfold dot
    refine sum_le_sum fun q _ => ?_
    simp only [flat]
    have := le_abs_self (dwtArr haarBank .periodization 5 ax2 n32 z q)
    have := abs_nonneg (dwtArr haarBank .periodization 5 ax2 n32 z q)
    split_ifs <;> linarith
  rw [hadj] at hle
  have h0 : dwtArr haarBank .periodization 5 ax2 n32 (fun _ => 0) = flat 5 n32 0 := by rw [arr_flat]; simp
  have hobj : ∀ x : Arr (Idx n32), objective cycS cycM (cycA 0) (fun _ => 948367) [dwlPenalty haarBank .periodization true 5 ax2 n32 1723665408] x =
      ∑ i, (x i - 948367) ^ 2 / 2 + ∑ q, 1723665408 * |dwtArr haarBank .periodization 5 ax2 n32 x q| := by
    intro x
    simp only [objective, cycS, DataTerm.new, addBackground, pixelFunctional, fL2, trainWeight, cycA, cycM, dwlPenalty, List.map_cons, List.map_nil,
      List.sum_cons, List.sum_nil, Bool.true_eq_false, false_and, if_false]
    simp
  rw [hobj, hobj, h0]
  have h1 : ∑ q, (1723665408 : ℝ) * |flat 5 n32 0 q| = 0 := sum_eq_zero fun q _ => by simp [flat]
  rw [h1, add_zero]
  have h2 : ∑ i : Idx n32, ((0 : ℝ) - 948367) ^ 2 / 2 ≤ ∑ i, ((z i - 948367) ^ 2 / 2 + z i * (948367 * 2 ^ 5 / 2 ^ 5)) := by
    refine sum_le_sum fun i _ => ?_
    nlinarith [sq_nonneg (z i)]
  rw [sum_add_distrib] at h2
  unfold dot at hle
  linarith

/-- C229 fails with five levels: for images of 32 by 32 pixels, the identity as operator, l2 data term, Haar wavelets, the default relaxation and mode
"periodization", for which the transpose is the adjoint, the problem has a solution, but the returned volumes alternate between two images. -/
theorem C229_levels_violated :
    ¬ ∀ (L d m level : ℕ) (w : FilterBank L) (n : Fin d → ℕ) (axes : Fin m → Fin d) (weight : ℝ)
      (S : Solver (Idx n) (Idx n) (Arr (DwlDual (level := level) .periodization L axes n))) (M : Idx n → Idx n → ℝ) (b x0 : Arr (Idx n))
      (a : Args (Idx n) (Idx n)) (rnd : Arr (Idx n)) (xs : ℕ → Arr (Idx n)), OrthogonalWavelet w → Even L → AdjointMode .periodization level axes n → 0 < weight →
      S.regs = [dwlReg w .periodization true level axes n weight] → S.term = .new .l2 none → S.tolerance = none → S.relaxation = 95 / 100 →
      a = { iterations := 0, x0 := some x0 } → SensibleScale M a →
      (∃ x, IsSolution S M a b [dwlPenalty w .periodization true level axes n weight] x) →
      (∀ N, ∃ info S', pdhg S (matrixOp M) b { a with iterations := N } true rnd = .ok (xs N, info, S')) →
      ∃ x, IsSolution S M a b [dwlPenalty w .periodization true level axes n weight] x ∧ Tendsto xs atTop (𝓝 x) := by
  intro H
  obtain ⟨x, -, hx⟩ := H 2 2 2 5 haarBank n32 ax2 1723665408 cycS cycM (fun _ => 948367) (fun _ => 853519) (cycA 0) (fun _ => 1)
    (fun N _ => (cycStep^[N] (853519, 853519, 0, 0)).1) haar_orthogonal ⟨1, rfl⟩ (Or.inr ⟨rfl, Function.injective_id, fun _ => ⟨1, rfl⟩⟩) (by norm_num)
    rfl rfl rfl rfl rfl ⟨by simp [cycA], by simp [cycA], by simp [cycA], by intro i; simp [cycM, abs_ite], by intro i; simp [cycM, abs_ite]⟩
    ⟨_, cyc_solution _ rfl⟩ (fun N => cyc_run N _)
  have hp := (tendsto_pi_nhds.1 hx) fun _ => 0
  have h1 := hp.comp (tendsto_atTop_mono (fun N : ℕ => (by omega : N ≤ 2 * N + 2)) tendsto_id)
  have h2 := hp.comp (tendsto_atTop_mono (fun N : ℕ => (by omega : N ≤ 2 * N + 3)) tendsto_id)
  simp only [Function.comp_def, (cyc_even _).1, (cyc_even _).2] at h1 h2
  have e := (tendsto_nhds_unique h1 tendsto_const_nhds).symm.trans (tendsto_nhds_unique h2 tendsto_const_nhds)
  norm_num at e

end Verif
