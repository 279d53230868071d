import Verif.Model.Regularizers
import Verif.Lemmas.Solvers
import Verif.Lemmas.DataTerms
import Verif.Props.PdhgRegs

/-!
# C209, C210: update masks and zero weights of regularizers
-/

namespace Verif

open Classical DataTerm

variable {ν ι Q δ : Type} [Fintype ν] [Fintype ι] [Fintype δ]

/-! ## Regularizers without effect -/

/-- A regularizer that changes neither the step sizes nor the volume. -/
def Spec.NoEffect (r : Reg ν Q) : Prop := (∀ t j, r.sigmaTau t j = 0) ∧ ∀ q j, (r.updatePrimal q).1 j = 0

/-- `l'` is `l` without some regularizers that have no effect. -/
inductive Spec.Without : List (Reg ν Q) → List (Reg ν Q) → Prop
  | nil : Without [] []
  | keep (r : Reg ν Q) {l l' : List (Reg ν Q)} : Without l l' → Without (r :: l) (r :: l')
  | drop (r : Reg ν Q) {l l' : List (Reg ν Q)} : Spec.NoEffect r → Without l l' → Without (r :: l) l'

/-- The duals of the remaining regularizers are the same. -/
inductive DualsMatch : List (Reg ν Q) → List Q → List (Reg ν Q) → List Q → Prop
  | nil : DualsMatch [] [] [] []
  | keep (r : Reg ν Q) (q : Q) {l l' : List (Reg ν Q)} {k k' : List Q} : DualsMatch l k l' k' → DualsMatch (r :: l) (q :: k) (r :: l') (q :: k')
  | drop (r : Reg ν Q) (q : Q) {l l' : List (Reg ν Q)} {k k' : List Q} : Spec.NoEffect r → DualsMatch l k l' k' →
      DualsMatch (r :: l) (q :: k) l' k'

theorem dualsMatch_init {l l' : List (Reg ν Q)} (h : Spec.Without l l') :
    DualsMatch l (l.map (·.initDual)) l' (l'.map (·.initDual)) := by
  induction h with
  | nil => exact .nil
  | keep r _ ih => exact .keep r _ ih
  | drop r hr _ ih => exact .drop r _ hr ih

theorem dualsMatch_update {l l' : List (Reg ν Q)} {k k' : List Q} (h : DualsMatch l k l' k') (x : Arr ν) :
    DualsMatch l (updateRegDuals l k x) l' (updateRegDuals l' k' x) := by
  induction h with
  | nil => exact .nil
  | keep r q _ ih => exact .keep r _ ih
  | drop r q hr _ ih => exact .drop r _ hr ih

theorem dualsMatch_add {l l' : List (Reg ν Q)} {k k' : List Q} (h : DualsMatch l k l' k') (u : Arr ν) :
    (addRegUpdates l k u).1 = (addRegUpdates l' k' u).1 ∧ DualsMatch l (addRegUpdates l k u).2 l' (addRegUpdates l' k' u).2 := by
  induction h generalizing u with
  | nil => exact ⟨rfl, .nil⟩
  | keep r q _ ih =>
    obtain ⟨h1, h2⟩ := ih (fun j => u j + (r.updatePrimal q).1 j)
    exact ⟨h1, .keep r _ h2⟩
  | drop r q hr _ ih =>
    have e : (fun j => u j + (r.updatePrimal q).1 j) = u := by funext j; rw [hr.2 q j, add_zero]
    obtain ⟨h1, h2⟩ := ih (fun j => u j + (r.updatePrimal q).1 j)
    refine ⟨h1.trans (by rw [e]), ?_⟩
    have h3 := DualsMatch.drop r (r.updatePrimal q).2 hr h2
    rw [e] at h3
    simp only [addRegUpdates]
    rw [e]
    exact h3

theorem without_tau {l l' : List (Reg ν Q)} (h : Spec.Without l l') (t : Arr ν) :
    l.foldl (fun t r => fun j => t j + r.sigmaTau t j) t = l'.foldl (fun t r => fun j => t j + r.sigmaTau t j) t := by
  induction h generalizing t with
  | nil => rfl
  | keep r _ ih => exact ih _
  | drop r hr _ ih =>
    simp only [List.foldl_cons]
    have e : (fun j => t j + r.sigmaTau t j) = t := by funext j; rw [hr.1, add_zero]
    rw [e]
    exact ih t

theorem without_scaling {S S' : Solver ν ι Q} (h : Spec.Without S.regs S'.regs) (hr : S'.relaxation = S.relaxation) (A : Operator ν ι)
    (a : Args ν ι) (pc : Bool) (rnd : Arr ι) : pdhgScaling S A a pc rnd = pdhgScaling S' A a pc rnd := by
  unfold pdhgScaling diagonalScaling lipschitzScaling
  simp only [without_tau h, hr]

theorem pdhgStep_without (A : Operator ν ι) (hA : ∀ f, A.aliasBack = some f → ∀ p, f (A.adj p) = p) (a : Args ν ι)
    {l l' : List (Reg ν Q)} (term termTest : DataTerm ι) (bm tm : Option (Arr ι)) (tau : Arr ν) (tol : Option ℝ) (ii : ℕ)
    (s s' : PDState ν ι Q) (hx : s.x = s'.x) (hr : s.xRelax = s'.xRelax) (hp : s.p = s'.p) (hi : s.info = s'.info)
    (hq : DualsMatch l s.q l' s'.q) :
    let n := pdhgStep A a l term termTest bm tm tau tol ii s
    let n' := pdhgStep A a l' term termTest bm tm tau tol ii s'
    n.1.x = n'.1.x ∧ n.1.xRelax = n'.1.xRelax ∧ n.1.p = n'.1.p ∧ n.1.info = n'.1.info ∧ DualsMatch l n.1.q l' n'.1.q ∧ n.2 = n'.2 := by
  unfold pdhgStep
  simp only [hx, hr, hp, hi]
  have h1 := dualsMatch_update hq s'.xRelax
  generalize updateRegDuals l s.q s'.xRelax = k at h1 ⊢
  generalize hk' : updateRegDuals l' s'.q s'.xRelax = k' at h1 ⊢
  obtain ⟨h2, h3⟩ := dualsMatch_add h1 (A.adj (applyMask bm (term.proxDual (term.updateDual s'.p (A.fwd s'.xRelax)))))
  rw [h2]
  refine ⟨rfl, rfl, ?_, rfl, h3, rfl⟩
  cases hal : A.aliasBack with
  | none => rfl
  | some f =>
    simp only
    by_cases hl : l = []
    · subst hl
      cases h1
      simp
    · by_cases hl' : l' = []
      · subst hl'
        rw [if_neg hl, if_pos rfl]
        have : k' = [] := by
          clear h2 h3 hk'
          generalize hem : ([] : List (Reg ν Q)) = em at h1
          induction h1 with
          | nil => rfl
          | keep r q _ _ => cases hem
          | drop r q _ hm ih =>
            have : ∀ {l l' : List (Reg ν Q)} {k k' : List Q}, DualsMatch l k l' k' → l' = [] → k' = [] := by
              intro l l' k k' hm
              induction hm with
              | nil => intro _; rfl
              | keep r q _ _ => intro h; cases h
              | drop r q _ _ ih => exact ih
            exact this hm hem.symm
        subst this
        simp only [addRegUpdates]
        exact hA f hal _
      · rw [if_neg hl, if_neg hl']

/-- **C209.** PDHG gives the same volume, residuals and number of iterations with and without the regularizers that have no effect, for every
operator, data and arguments. -/
theorem C209_no_effect (S : Solver ν ι Q) (regs : List (Reg ν Q)) (h : Spec.Without S.regs regs) (A : Operator ν ι)
    (hA : ∀ f, A.aliasBack = some f → ∀ p, f (A.adj p) = p) (b : Arr ι) (a : Args ν ι) (pc : Bool) (rnd : Arr ι) :
    (pdhg S A b a pc rnd).map (fun r => (r.1, r.2.1)) = (pdhg { S with regs := regs } A b a pc rnd).map (fun r => (r.1, r.2.1)) := by
  have hs := without_scaling (S := S) (S' := { S with regs := regs }) h rfl A a pc rnd
  unfold pdhg
  rw [← hs]
  rcases initBMasks a.bMask a.bTestMask with ⟨bm, tm⟩
  simp only [bind, Except.bind]
  cases pdhgScaling S A a pc rnd with
  | error e => rfl
  | ok st =>
    obtain ⟨sigma, tau⟩ := st
    simp only
    cases testTerm tm (S.term.assignData (some (.array b)) (.array sigma)) S.termTest b (.array sigma) with
    | error e => rfl
    | ok tt =>
      simp only [Except.map]
      have := forRange_rel (n := a.iterations)
        (step := pdhgStep A a S.regs (S.term.assignData (some (.array b)) (.array sigma)) tt bm tm tau S.tolerance)
        (step' := pdhgStep A a regs (S.term.assignData (some (.array b)) (.array sigma)) tt bm tm tau S.tolerance)
        (R := fun s s' => s.x = s'.x ∧ s.xRelax = s'.xRelax ∧ s.p = s'.p ∧ s.info = s'.info ∧ DualsMatch S.regs s.q regs s'.q)
        (s := ⟨a.x0.getD fun _ => 0, a.x0.getD fun _ => 0, (S.term.assignData (some (.array b)) (.array sigma)).initializeDual,
          S.regs.map (·.initDual), initialResiduals (S.term.assignData (some (.array b)) (.array sigma)) tt bm tm S.tolerance
            (A.fwd (a.x0.getD fun _ => 0)) (Info.new a.iterations S.tolerance)⟩)
        (s' := ⟨a.x0.getD fun _ => 0, a.x0.getD fun _ => 0, (S.term.assignData (some (.array b)) (.array sigma)).initializeDual,
          regs.map (·.initDual), initialResiduals (S.term.assignData (some (.array b)) (.array sigma)) tt bm tm S.tolerance
            (A.fwd (a.x0.getD fun _ => 0)) (Info.new a.iterations S.tolerance)⟩)
        ⟨rfl, rfl, rfl, rfl, dualsMatch_init h⟩ (by
          rintro k s s' ⟨e1, e2, e3, e4, e5⟩
          obtain ⟨f1, f2, f3, f4, f5, f6⟩ := pdhgStep_without A hA a _ tt bm tm tau S.tolerance k s s' e1 e2 e3 e4 e5
          exact ⟨⟨f1, f2, f3, f4, f5⟩, f6⟩)
      rw [this.1, this.2.2.2.1]


/-! ## Update masks -/

omit [Fintype ν] [Fintype δ] in
theorem updatePrimal_masked [Fintype ν] [Fintype δ] (r : RegState ν δ) (m : Arr ν) (hm : r.updMask = some m) (d : Arr δ) (j : ν) (hj : m j = 0) :
    (r.updatePrimal d).1 j = 0 := by
  unfold RegState.updatePrimal
  simp only [hm]
  split <;> simp [applyMask, hj]

omit [Fintype ν] in
theorem updatePrimal_unmasked [Fintype ν] (r : RegState ν δ) (m : Arr ν) (hm : r.updMask = some m) (d : Arr δ) (j : ν) (hj : m j = 1) :
    (r.updatePrimal d).1 j = (({ r with updMask := none } : RegState ν δ).updatePrimal d).1 j := by
  unfold RegState.updatePrimal
  simp only [hm]
  split <;> simp [applyMask, hj]

section
variable {κ : Type} [Fintype κ] [DecidableEq κ] {n : κ → ℕ} {k : ℕ}

/-- The regularizers on a grid with a gradient, a Laplacian or no transform, with the given update mask. -/
inductive Spec.MaskedReg (m : Option (Arr (Idx n))) : {δ : Type} → [Fintype δ] → RegState (Idx n) δ → Prop
  | grad (mode : PadMode) (axes : Fin k → κ) (w : Attr (Idx n)) (norm : DataTerm (Fin k × Idx n)) : MaskedReg m (gradReg mode axes w m norm)
  | lap (mode : PadMode) (axes : Fin k → κ) (w : Attr (Idx n)) : MaskedReg m (lapReg mode axes w m)
  | l1 (w : Attr (Idx n)) (norm : DataTerm (Idx n)) : MaskedReg m (l1Reg w m norm)

/-- **C209.** Pixels outside of the update mask are not moved by the regularizer, and their step sizes are not reduced; those in the mask are
moved as without the mask. -/
theorem C209_mask_pixels (m : Arr (Idx n)) {δ : Type} [Fintype δ] (r : RegState (Idx n) δ) (h : Spec.MaskedReg (k := k) (some m) r) :
    (∀ j, m j = 0 → r.toReg.sigmaTau (fun _ => 0) j = 0 ∧ ∀ d, (r.toReg.updatePrimal d).1 j = 0) ∧
    ∃ r' : RegState (Idx n) δ, Spec.MaskedReg (k := k) none r' ∧
      ∀ j, m j = 1 → r.toReg.sigmaTau (fun _ => 0) j = r'.toReg.sigmaTau (fun _ => 0) j ∧
        (∀ d, (r.toReg.updatePrimal d).1 j = (r'.toReg.updatePrimal d).1 j) ∧ ∀ d x, r.toReg.proxDual (r.toReg.updateDual d x) =
          r'.toReg.proxDual (r'.toReg.updateDual d x) := by
  cases h with
  | grad mode axes w norm =>
    refine ⟨fun j hj => ⟨by simp [RegState.toReg, gradReg, applyMask, hj], fun d => updatePrimal_masked _ m rfl d j hj⟩,
      gradReg mode axes w none norm, .grad mode axes w norm, fun j hj => ⟨by simp [RegState.toReg, gradReg, applyMask, hj],
        fun d => updatePrimal_unmasked _ m rfl d j hj, fun d x => rfl⟩⟩
  | lap mode axes w =>
    refine ⟨fun j hj => ⟨by simp [RegState.toReg, lapReg, applyMask, hj], fun d => updatePrimal_masked _ m rfl d j hj⟩,
      lapReg mode axes w none, .lap mode axes w, fun j hj => ⟨by simp [RegState.toReg, lapReg, applyMask, hj],
        fun d => updatePrimal_unmasked _ m rfl d j hj, fun d x => rfl⟩⟩
  | l1 w norm =>
    refine ⟨fun j hj => ⟨by simp [RegState.toReg, l1Reg, applyMask, hj], fun d => updatePrimal_masked _ m rfl d j hj⟩,
      l1Reg w none norm, .l1 w norm, fun j hj => ⟨by simp [RegState.toReg, l1Reg, applyMask, hj],
        fun d => updatePrimal_unmasked _ m rfl d j hj, fun d x => rfl⟩⟩

/-- **C209.** With an empty update mask, PDHG gives what it gives without the regularizer. -/
theorem C209_empty_mask {ι : Type} [Fintype ι] {δ : Type} [Fintype δ] (r : RegState (Idx n) δ)
    (h : Spec.MaskedReg (k := k) (some fun _ => 0) r) (S : Solver (Idx n) ι (Arr δ)) (hS : S.regs = [r.toReg]) (A : Operator (Idx n) ι)
    (hA : ∀ f, A.aliasBack = some f → ∀ p, f (A.adj p) = p) (b : Arr ι) (a : Args (Idx n) ι) (pc : Bool) (rnd : Arr ι) :
    (pdhg S A b a pc rnd).map (fun r => (r.1, r.2.1)) = (pdhg { S with regs := ([] : List (Reg (Idx n) (Arr δ))) } A b a pc rnd).map (fun r => (r.1, r.2.1)) := by
  refine C209_no_effect S [] ?_ A hA b a pc rnd
  rw [hS]
  obtain ⟨h1, -⟩ := C209_mask_pixels (fun _ => 0) r h
  exact .drop _ ⟨fun t j => (h1 j rfl).1, fun q j => (h1 j rfl).2 q⟩ .nil

end

/-! ## C210: weights of zero -/

/-- **C210, proved part (1).** With positive weights the values of the duals are always numbers. -/
theorem C210_positive_weights_partial (r : RegState ν δ) (hw : ∀ j, 0 < r.weight.get j) (d : Arr δ) : r.proxDualFinite d := by
  intro _ i h
  have := le_max_right (r.norm.innerNorm (r.norm.applyThreshold (r.norm.subSigmaData d)) i) (r.weight.get (r.pix i))
  rw [h] at this
  exact absurd (hw (r.pix i)) (not_lt.2 this)

section
variable {κ : Type} [Fintype κ] [DecidableEq κ] {n : κ → ℕ} {k : ℕ}

/-- **C210, proved part (2).** Smooth regularizers of the gradient (with any norm that is not of the l1 family, such as the default l2 norm)
with weight zero do not change the results of PDHG. -/
theorem C210_smooth_zero_partial {ι : Type} [Fintype ι] (mode : PadMode) (axes : Fin k → κ) (m : Option (Arr (Idx n)))
    (norm : DataTerm (Fin k × Idx n)) (hn : norm.kind.isL1 = false) (S : Solver (Idx n) ι (Arr (Fin k × Idx n)))
    (hS : S.regs = [(gradReg mode axes (.scalar 0) m norm).toReg]) (A : Operator (Idx n) ι)
    (hA : ∀ f, A.aliasBack = some f → ∀ p, f (A.adj p) = p) (b : Arr ι) (a : Args (Idx n) ι) (pc : Bool) (rnd : Arr ι) :
    (∀ d, (gradReg mode axes (.scalar 0) m norm).proxDualFinite d) ∧
    (pdhg S A b a pc rnd).map (fun r => (r.1, r.2.1)) = (pdhg { S with regs := ([] : List (Reg (Idx n) (Arr (Fin k × Idx n)))) } A b a pc rnd).map (fun r => (r.1, r.2.1)) := by
  have hk : (norm.assignData none (.scalar (1 / 2))).kind = norm.kind := rfl
  constructor
  · intro d h
    simp only [gradReg, hk, hn] at h
    cases h
  · refine C209_no_effect S [] ?_ A hA b a pc rnd
    rw [hS]
    refine .drop _ ⟨fun t j => ?_, fun q j => ?_⟩ .nil
    · simp only [RegState.toReg, gradReg, hn]
      cases m <;> simp [applyMask, Attr.get]
    · simp only [RegState.toReg, RegState.updatePrimal, gradReg, hk, hn]
      simp [Attr.get]

/-- A zero weight at one pixel makes the first update of the dual fail for the default start volume. -/
theorem zero_weight_fails (mode : PadMode) (axes : Fin k → κ) (hk : 0 < k) (w : Attr (Idx n)) (m : Option (Arr (Idx n)))
    (norm : DataTerm (Fin k × Idx n)) (hn : norm.kind = .l1 ∨ ∃ g, norm.kind = .l12 g) (j : Idx n) (hj : w.get j = 0) :
    ¬ (gradReg mode axes w m norm).proxDualFinite ((gradReg mode axes w m norm).updateDual (fun _ => 0) fun _ => 0) := by
  intro h
  have hz : gradient (n := n) mode axes (fun _ => 0) = fun _ => 0 := by
    have := gradient_lin (n := n) mode axes 0 0 (fun _ => 0) (fun _ => 0)
    simpa using this
  have h1 : (gradReg mode axes w m norm).norm.kind.isL1 = true := by
    show norm.kind.isL1 = true
    rcases hn with h | ⟨g, h⟩ <;> rw [h] <;> rfl
  apply h h1 (⟨0, hk⟩, j)
  have h2 : (gradReg mode axes w m norm).weight.get ((gradReg mode axes w m norm).pix (⟨0, hk⟩, j)) = 0 := hj
  rw [h2]
  have h3 : (gradReg mode axes w m norm).updateDual (fun _ => 0) (fun _ => 0) = fun _ => 0 := by
    funext q
    simp [RegState.updateDual, gradReg, hz]
  rw [h3]
  have h4 : (gradReg mode axes w m norm).norm.subSigmaData (fun _ => 0) = fun _ => 0 := rfl
  have h5 : (gradReg mode axes w m norm).norm.kind = norm.kind := rfl
  rw [h4]
  rcases hn with h | ⟨g, h⟩
  · simp [DataTerm.innerNorm, DataTerm.applyThreshold, h5, h]
  · simp [DataTerm.innerNorm, DataTerm.applyThreshold, h5, h, axisNorm]

/-- **C210 (violated).** It is false that a weight of zero means no regularization: for the total variation (l1 or l12 norm) the first update
of the dual, from the default start volume, is `0 / 0`. -/
theorem C210_zero_weight_violated :
    ¬ ∀ (mode : PadMode) (axes : Fin 1 → Fin 1) (w : Attr (Idx fun _ : Fin 1 => 3)) (norm : DataTerm (Fin 1 × Idx fun _ : Fin 1 => 3)),
      (norm.kind = .l1 ∨ ∃ g, norm.kind = .l12 g) → (∀ j, 0 ≤ w.get j) →
      (gradReg mode axes w none norm).proxDualFinite ((gradReg mode axes w none norm).updateDual (fun _ => 0) fun _ => 0) := by
  intro h
  exact zero_weight_fails .edge (fun i : Fin 1 => i) Nat.one_pos (.scalar 0) none (DataTerm.new (.l12 fun q => (q.2 0).val) none)
    (Or.inr ⟨_, rfl⟩) (fun _ => 0) rfl (h .edge (fun i => i) (.scalar 0) _ (Or.inr ⟨_, rfl⟩) (fun _ => le_refl _))

end

/-- **C210, proved part (3).** The l1 regularizer with weight zero does not change the results of FISTA. -/
theorem C210_fista_l1_zero_partial (S : Solver ν ι Q) (r : Reg ν Q) (m : Option (Arr ν))
    (hr : r.proxPrimal = l1ProxPrimal (.scalar 0) m) (hS : S.regs = [r]) (A : Operator ν ι) (b : Arr ι) (a : Args ν ι) (pc : Bool)
    (rnd : Arr ι) :
    (fista S A b a pc rnd).map (fun r => (r.1, r.2.1)) = (fista { S with regs := ([] : List (Reg ν Q)) } A b a pc rnd).map (fun r => (r.1, r.2.1)) := by
  have hs0 : ∀ v : ℝ, softThreshold v 0 = v := by
    intro v
    unfold softThreshold
    simp only [sub_zero, abs_nonneg, max_eq_left]
    unfold npSign
    split_ifs with h1 h2
    · rw [abs_of_pos h1, one_mul]
    · rw [abs_of_neg h2]; ring
    · have : v = 0 := le_antisymm (not_lt.1 h1) (not_lt.1 h2)
      rw [this, zero_mul]
  have hid : ∀ x t, r.proxPrimal x t = x := by
    intro x t
    rw [hr]
    funext j
    cases m with
    | none => simp [l1ProxPrimal, Attr.get, hs0]
    | some m => simp [l1ProxPrimal, Attr.get, hs0]; ring
  have hstep : ∀ term tt bm tm sigma tau tol ii s,
      fistaStep A a S.regs S.restartPeriod term tt bm tm sigma tau tol ii s =
        fistaStep A a ([] : List (Reg ν Q)) S.restartPeriod term tt bm tm sigma tau tol ii s := by
    intro term tt bm tm sigma tau tol ii s
    rw [hS]
    unfold fistaStep
    simp only [hid]
  have hsc : fistaScaling S A a pc rnd = fistaScaling { S with regs := ([] : List (Reg ν Q)) } A a pc rnd := rfl
  unfold fista
  rw [← hsc]
  rcases initBMasks a.bMask a.bTestMask with ⟨bm, tm⟩
  simp only [bind, Except.bind]
  cases fistaScaling S A a pc rnd with
  | error e => rfl
  | ok st =>
    obtain ⟨sigma, tau⟩ := st
    simp only
    cases testTerm tm (S.term.assignData (some (.array b)) (.scalar 1)) S.termTest b (.scalar 1) with
    | error e => rfl
    | ok tt =>
      simp only [Except.map]
      have : fistaStep A a S.regs S.restartPeriod (S.term.assignData (some (.array b)) (.scalar 1)) tt bm tm sigma tau S.tolerance =
          fistaStep A a ([] : List (Reg ν Q)) S.restartPeriod (S.term.assignData (some (.array b)) (.scalar 1)) tt bm tm sigma tau S.tolerance := by
        funext ii s
        exact hstep _ _ _ _ _ _ _ _ _
      rw [this]

end Verif
