import Verif.Lemmas.Solvers
import Verif.Spec.Solvers
import Verif.Props.SolversBasic

/-! # C06: exact solutions are fixed points -/

namespace Verif
open Classical DataTerm

variable {ν ι Q : Type} [Fintype ν] [Fintype ι]

omit [Fintype ν] [Fintype ι] in
theorem clipMask_fixed {a : Args ν ι} {x : Arr ν} (h : Admissible a x) : clipMask a x = x := by
  funext j
  obtain ⟨⟨hl, hu⟩, hm⟩ := h
  have hc : clip1 (a.lower.map (·.get j)) (a.upper.map (·.get j)) (x j) = x j := by
    cases hlo : a.lower with
    | none =>
      cases hup : a.upper with
      | none => rfl
      | some u => simp [clip1, hu u hup j]
    | some l =>
      cases hup : a.upper with
      | none => simp [clip1, hl l hlo j]
      | some u => simp [clip1, hl l hlo j, hu u hup j]
  unfold clipMask applyMask
  cases hM : a.xMask with
  | none => exact hc
  | some m => simp only [hc]; exact hm m hM j

omit [Fintype ν] [Fintype ι] in
theorem applyMask_fixed {a : Args ν ι} {x : Arr ν} (h : Admissible a x) : applyMask a.xMask x = x := by
  funext j
  unfold applyMask
  cases hM : a.xMask with
  | none => rfl
  | some m => exact h.2 m hM j

/-- Residuals of exact solutions vanish: l2-type terms. -/
private theorem residual_zero {S : Solver ν ι Q} {A : Operator ν ι} {a : Args ν ι} {b : Arr ι} {x : Arr ν}
    (h : Reproduces S A a b x) (sigma : Attr ι)
    (hk : (∃ w, S.term.kind = .wl2 w) ∨ S.term.kind = .l2 ∨ (∃ e, S.term.kind = .l2b e)) :
    (S.term.assignData (some (.array b)) sigma).residual (A.fwd x) (initBMasks a.bMask a.bTestMask).1 = fun _ => 0 := by
  funext i
  have hz : applyMask (initBMasks a.bMask a.bTestMask).1
      (fun i => b i - (S.term.assignData (some (.array b)) sigma).addBackground (A.fwd x) i) i = 0 := by
    by_cases hi : Trains a i
    · have h1 := h i hi
      have h2 : (S.term.assignData (some (.array b)) sigma).addBackground (A.fwd x) i = b i := h1
      unfold applyMask
      cases (initBMasks a.bMask a.bTestMask).1 <;> simp [h2]
    · rw [trains_iff] at hi
      push Not at hi
      obtain ⟨m, hm, hz⟩ := hi
      simp [applyMask, hm, hz]
  have hK : (S.term.assignData (some (.array b)) sigma).kind = S.term.kind := rfl
  have hD : (S.term.assignData (some (.array b)) sigma).data = some (.array b) := rfl
  unfold DataTerm.residual
  rcases hk with ⟨w, hk⟩ | hk | ⟨e, hk⟩
  · simp only [hK, hk, hD]
    unfold applyMask at hz ⊢
    cases hm : (initBMasks a.bMask a.bTestMask).1 with
    | none => simp only [hm] at hz; simp [Attr.get, hz]
    | some m =>
      simp only [hm] at hz
      simp only [Attr.get]
      rcases mul_eq_zero.1 hz with h | h <;> simp [h]
  · simp only [hK, hk, hD]
    exact hz
  · simp only [hK, hk, hD]
    change softThreshold (applyMask (initBMasks a.bMask a.bTestMask).1
      (fun i => b i - (S.term.assignData (some (.array b)) sigma).addBackground (A.fwd x) i) i) _ = 0
    rw [hz]
    simp [softThreshold, npSign]

/-- C06, SIRT: an admissible start volume that reproduces the training data is returned unchanged, for any operator with
`Aᵀ 0 = 0`, any number of iterations, relaxation and tolerance (l2, weighted l2 and l2b data terms, no regularizer). -/
theorem C06_sirt_fixed {S : Solver ν ι Q} {A : Operator ν ι} {b : Arr ι} {a : Args ν ι} {x info S'}
    (h : sirt S A b a = .ok (x, info, S')) (hr : S.regs = []) (hA : A.adj (fun _ => 0) = fun _ => 0)
    (hk : (∃ w, S.term.kind = .wl2 w) ∨ S.term.kind = .l2 ∨ (∃ e, S.term.kind = .l2b e))
    (hx : Reproduces S A a b (startVolume a 0)) (ha : Admissible a (startVolume a 0)) : x = startVolume a 0 := by
  obtain ⟨sigma, tau, tt, -, -, he⟩ := sirt_ok h
  simp only [Prod.mk.injEq] at he
  rw [he.1]
  refine forRange_inv (P := fun s : XState ν => s.x = startVolume a 0) rfl fun k s hs => ?_
  rw [sirtStep_cases]
  dsimp only
  split_ifs
  · exact hs
  · rw [hr, hs, residual_zero hx _ hk]
    simp only [List.foldl_nil, zero_mul, hA, add_zero]
    exact clipMask_fixed ha

/-- C06, FISTA. -/
theorem C06_fista_fixed {S : Solver ν ι Q} {A : Operator ν ι} {b : Arr ι} {a : Args ν ι} {pc rnd x info S'}
    (h : fista S A b a pc rnd = .ok (x, info, S')) (hr : S.regs = []) (hA : A.adj (fun _ => 0) = fun _ => 0)
    (hk : (∃ w, S.term.kind = .wl2 w) ∨ S.term.kind = .l2 ∨ (∃ e, S.term.kind = .l2b e))
    (hx : Reproduces S A a b (startVolume a 0)) (ha : Admissible a (startVolume a 0)) : x = startVolume a 0 := by
  obtain ⟨sigma, tau, tt, -, -, he⟩ := fista_ok h
  simp only [Prod.mk.injEq] at he
  rw [he.1]
  have hm : applyMask a.xMask (a.x0.getD fun _ => 0) = startVolume a 0 := applyMask_fixed ha
  refine (forRange_inv (P := fun s : FState ν => s.x = startVolume a 0 ∧ s.y = startVolume a 0) ⟨hm, hm⟩
    fun k s hs => ?_).1
  obtain ⟨h1, h2⟩ := hs
  have hn : (fistaStep A a S.regs S.restartPeriod (S.term.assignData (some (.array b)) (.scalar 1)) tt
      (initBMasks a.bMask a.bTestMask).1 (initBMasks a.bMask a.bTestMask).2 sigma tau S.tolerance k s).1.x
      = startVolume a 0 := by
    unfold fistaStep
    dsimp only
    rw [h2, residual_zero hx _ hk, hr]
    simp only [zero_mul, hA, mul_zero, add_zero]
    exact clipMask_fixed ha
  refine ⟨hn, ?_⟩
  funext j
  have : (fistaStep A a S.regs S.restartPeriod (S.term.assignData (some (.array b)) (.scalar 1)) tt
      (initBMasks a.bMask a.bTestMask).1 (initBMasks a.bMask a.bTestMask).2 sigma tau S.tolerance k s).1.y j =
      (fistaStep A a S.regs S.restartPeriod (S.term.assignData (some (.array b)) (.scalar 1)) tt
      (initBMasks a.bMask a.bTestMask).1 (initBMasks a.bMask a.bTestMask).2 sigma tau S.tolerance k s).1.x j +
      fistaMomentum S.restartPeriod k s.t * ((fistaStep A a S.regs S.restartPeriod
        (S.term.assignData (some (.array b)) (.scalar 1)) tt
      (initBMasks a.bMask a.bTestMask).1 (initBMasks a.bMask a.bTestMask).2 sigma tau S.tolerance k s).1.x j - s.x j) := rfl
  rw [this, hn, h1]
  ring

/-- Dual variables of exact solutions stay zero, for every data term. -/
private theorem dual_zero {S : Solver ν ι Q} {A : Operator ν ι} {a : Args ν ι} {b : Arr ι} {x : Arr ν}
    (h : Reproduces S A a b x) (sigma : Arr ι) (hpos : ∀ i, S.term.kind = .kl → 0 ≤ sigma i ∧ 0 ≤ b i) :
    applyMask (initBMasks a.bMask a.bTestMask).1 ((S.term.assignData (some (.array b)) (.array sigma)).proxDual
      ((S.term.assignData (some (.array b)) (.array sigma)).updateDual (fun _ => 0) (A.fwd x))) = fun _ => 0 := by
  funext i
  by_cases hi : Trains a i
  · have hu : (S.term.assignData (some (.array b)) (.array sigma)).updateDual (fun _ => 0) (A.fwd x) i = sigma i * b i := by
      have := h i hi
      unfold updateDual
      unfold addBackground at this
      have hb : (S.term.assignData (some (.array b)) (.array sigma)).background = S.term.background := rfl
      have hs : (S.term.assignData (some (.array b)) (.array sigma)).sigma = .array sigma := rfl
      rw [hb, hs]
      cases hbg : S.term.background with
      | none => simp only [hbg] at this; simp only [this, zero_add]; simp [Attr.get, mul_comm]
      | some g => simp only [hbg] at this; simp only [this, zero_add]; simp [Attr.get, mul_comm]
    have hK : (S.term.assignData (some (.array b)) (.array sigma)).kind = S.term.kind := rfl
    have hD : (S.term.assignData (some (.array b)) (.array sigma)).data = some (.array b) := rfl
    have hz : (S.term.assignData (some (.array b)) (.array sigma)).proxDual
      ((S.term.assignData (some (.array b)) (.array sigma)).updateDual (fun _ => 0) (A.fwd x)) (.scalar 1) i = 0 := by
      cases hk : S.term.kind with
      | kl =>
        obtain ⟨hs0, hb0⟩ := hpos i hk
        have hsd : (S.term.assignData (some (.array b)) (.array sigma)).sigmaData =
            some (.array fun i => 4 * sigma i * max (b i) 0) := by simp [assignData, computeSigmaData, hk, Attr.map₂]
        unfold proxDual
        simp only [hK, hk, hsd, hu, Attr.get, max_eq_left hb0]
        rw [show (sigma i * b i - 1) ^ 2 + 4 * sigma i * b i = (sigma i * b i + 1) ^ 2 by ring, Real.sqrt_sq (by positivity)]
        ring
      | _ =>
        have hsub : (S.term.assignData (some (.array b)) (.array sigma)).subSigmaData
            ((S.term.assignData (some (.array b)) (.array sigma)).updateDual (fun _ => 0) (A.fwd x)) i = 0 := by
          have hsd : (S.term.assignData (some (.array b)) (.array sigma)).sigmaData =
            some (.array fun i => sigma i * b i) := by simp [assignData, computeSigmaData, hk, Attr.map₂]
          unfold subSigmaData
          simp [hD, hsd, hu, Attr.get]
        unfold proxDual
        simp only [hK, hk, applyThreshold]
        try split
        all_goals simp [hsub, softThreshold, npSign]
    unfold applyMask
    cases (initBMasks a.bMask a.bTestMask).1 <;> simp [hz]
  · rw [trains_iff] at hi
    push Not at hi
    obtain ⟨m, hm, hz⟩ := hi
    simp [applyMask, hm, hz]

/-- C06, PDHG: for every data term (for Kullback-Leibler with non-negative data and steps), any step sizes. -/
theorem C06_pdhg_fixed {S : Solver ν ι Q} {A : Operator ν ι} {b : Arr ι} {a : Args ν ι} {pc rnd x info S'}
    (h : pdhg S A b a pc rnd = .ok (x, info, S')) (hr : S.regs = []) (hA : A.adj (fun _ => 0) = fun _ => 0)
    (hpos : S.term.kind = .kl → (∀ i, 0 ≤ b i) ∧ ∀ sigma tau, pdhgScaling S A a pc rnd = .ok (sigma, tau) → ∀ i, 0 ≤ sigma i)
    (hx : Reproduces S A a b (startVolume a 0)) (ha : Admissible a (startVolume a 0)) : x = startVolume a 0 := by
  obtain ⟨sigma, tau, tt, hsc, -, he⟩ := pdhg_ok h
  simp only [Prod.mk.injEq] at he
  rw [he.1]
  refine (forRange_inv (P := fun s : PDState ν ι Q => s.x = startVolume a 0 ∧ s.xRelax = startVolume a 0 ∧
    s.p = fun _ => 0) ⟨rfl, rfl, rfl⟩ fun k s hs => ?_).1
  obtain ⟨h1, h2, h3⟩ := hs
  have hp := dual_zero hx sigma (fun i hk => ⟨(hpos hk).2 sigma tau hsc i, (hpos hk).1 i⟩)
  unfold pdhgStep
  dsimp only
  rw [h3, h2, hp, hr, hA]
  simp only [updateRegDuals, addRegUpdates, zero_mul, sub_zero, h1, clipMask_fixed ha, sub_self, add_zero]
  refine ⟨trivial, trivial, ?_⟩
  cases A.aliasBack <;> rfl

/-- C06, MLEM: a start volume that reproduces positive data exactly is returned unchanged (no data masks). -/
theorem C06_mlem_fixed {S : Solver ν ι Q} {A : Operator ν ι} {b : Arr ι} {a : Args ν ι} {x info S'}
    (h : mlem S A b a = .ok (x, info, S')) (hb : a.bMask = none) (ht : a.bTestMask = none) (hpos : ∀ i, eps ≤ b i)
    (hx : Reproduces S A a b (startVolume a 1)) (ha : Admissible a (startVolume a 1)) : x = startVolume a 1 := by
  obtain ⟨tt, info0, htau, -, -, -, he⟩ := mlem_ok h
  simp only [Prod.mk.injEq] at he
  rw [he.1]
  have hm : applyMask a.xMask (a.x0.getD fun _ => 1) = startVolume a 1 := applyMask_fixed ha
  have htr : ∀ i, Trains a i := fun i => ⟨by simp [hb], by simp [ht]⟩
  have hbm : (initBMasks a.bMask a.bTestMask).1 = none := by simp [hb, ht, initBMasks]
  refine forRange_inv (P := fun s : XState ν => s.x = startVolume a 1) hm fun k s hs => ?_
  have hdiv : (fun i => b i / max ((S.term.assignData (some (.array b)) (.scalar 1)).addBackground (A.fwd s.x) i) eps)
      = fun _ => 1 := by
    funext i
    have h1 : (S.term.assignData (some (.array b)) (.scalar 1)).addBackground (A.fwd s.x) i = b i := by
      rw [hs]; exact hx i (htr i)
    have : 0 < b i := lt_of_lt_of_le (by norm_num [eps]) (hpos i)
    rw [h1, max_eq_left (hpos i), div_self this.ne']
  have hx' : clipMask a (fun j => s.x j * (A.adj (fun i => b i / max ((S.term.assignData (some (.array b))
      (.scalar 1)).addBackground (A.fwd s.x) i) eps) j / A.adj (applyMask (initBMasks a.bMask a.bTestMask).1 fun _ => 1) j))
      = startVolume a 1 := by
    rw [hdiv, hbm]
    have : (fun j => s.x j * (A.adj (fun _ => 1) j / A.adj (applyMask none fun _ => 1) j)) = startVolume a 1 := by
      funext j
      have h1 : A.adj (applyMask none fun _ => 1) j ≠ 0 := by have := htau j; rwa [hbm] at this
      change s.x j * (A.adj (applyMask none fun _ => 1) j / A.adj (applyMask none fun _ => 1) j) = _
      rw [div_self h1, mul_one, hs]
    rw [this]
    exact clipMask_fixed ha
  unfold mlemStep
  cases S.tolerance with
  | none => exact hx'
  | some t => dsimp only; split_ifs <;> first | exact hs | exact hx'

/-- Non-vacuity of C06: one voxel, value 3 seen by two pixels, limits [0, 5]. -/
example : let A : Operator (Fin 1) (Fin 2) := matrixOp fun i _ => if i = 0 then 1 else 2
    let a : Args (Fin 1) (Fin 2) := { iterations := 7, x0 := some fun _ => 3, lower := some (.scalar 0), upper := some (.scalar 5) }
    let S : Solver (Fin 1) (Fin 2) Unit := ⟨1, none, [], .new .l2 none, .new .l2 none, none⟩
    Reproduces S A a ![3, 6] (startVolume a 0) ∧ Admissible a (startVolume a 0) ∧ A.adj (fun _ => 0) = (fun _ => 0) ∧
    ∃ r, sirt S A ![3, 6] a = .ok r := by
  refine ⟨?_, ⟨⟨?_, ?_⟩, ?_⟩, ?_, ?_⟩
  · intro i _
    fin_cases i <;> simp [DataTerm.new, addBackground, matrixOp, startVolume]; norm_num
  · rintro l ⟨⟩ j; norm_num [Attr.get, startVolume]
  · rintro l ⟨⟩ j; norm_num [Attr.get, startVolume]
  · simp
  · simp [matrixOp]
  · have h1 : (⨆ _ : Fin 1, (3 : ℝ)) = 3 := by simp
    have h2 : (⨆ i : Fin 2, |if i = 0 then (1 : ℝ) else 2|) ≠ 0 := by
      have : (1 : ℝ) ≤ ⨆ i : Fin 2, |if i = 0 then (1 : ℝ) else 2| := by
        have := le_ciSup (f := fun i : Fin 2 => |if i = 0 then (1 : ℝ) else 2|) (Set.finite_range _).bddAbove 0
        simpa using this
      linarith
    simp [sirt, diagonalScaling, npMax, absOrSelf, matrixOp, initBMasks, bind, Except.bind, applyMask, testTerm,
      Fin.sum_univ_two]
    norm_num [h2]

end Verif
