import Verif.Lemmas.Solvers
import Verif.Props.Regularizers

/-! # C271: the order of the regularizers does not matter -/

namespace Verif
open Classical DataTerm

variable {ν ι Q : Type} [Fintype ν] [Fintype ι]

/-- What `initialize_sigma_tau` returns depends on the shape of its argument only. -/
def TauOfShape (r : Reg ν Q) : Prop := ∀ t t', r.sigmaTau t = r.sigmaTau t'

/-- The volume and the info of a run. -/
def outcome (r : Except Err (Arr ν × Info × Solver ν ι Q)) : Except Err (Arr ν × Info) := r.map fun p => (p.1, p.2.1)

/-! ## Step sizes -/

omit [Fintype ν] in
private theorem fold_tau {rs : List (Reg ν Q)} (h : ∀ r ∈ rs, TauOfShape r) (t : Arr ν) :
    rs.foldl (fun t r => fun j => t j + r.sigmaTau t j) t = fun j => t j + (rs.map fun r => r.sigmaTau (fun _ => 0) j).sum := by
  induction rs generalizing t with
  | nil => simp
  | cons r rs ih =>
    rw [List.foldl_cons, ih fun r' hr' => h r' (List.mem_cons_of_mem _ hr')]
    funext j
    rw [h r (List.mem_cons_self ..) t fun _ => 0, List.map_cons, List.sum_cons, add_assoc]

omit [Fintype ν] in
private theorem fold_tau_perm {rs rs' : List (Reg ν Q)} (hp : rs.Perm rs') (h : ∀ r ∈ rs, TauOfShape r) (t : Arr ν) :
    rs.foldl (fun t r => fun j => t j + r.sigmaTau t j) t = rs'.foldl (fun t r => fun j => t j + r.sigmaTau t j) t := by
  rw [fold_tau h, fold_tau fun r hr => h r (hp.mem_iff.2 hr)]
  funext j
  rw [(hp.map _).sum_eq]

private theorem scaling_perm {rs rs' : List (Reg ν Q)} (hp : rs.Perm rs') (h : ∀ r ∈ rs, TauOfShape r) (f : Arr ν → Arr ι) (g : Arr ι → Arr ν) (p q : ℝ)
    (xm : Option (Arr ν)) (bm : Option (Arr ι)) : diagonalScaling f g rs p q xm bm = diagonalScaling f g rs' p q xm bm := by
  unfold diagonalScaling
  simp only [fold_tau_perm hp h]

private theorem lipschitz_perm {rs rs' : List (Reg ν Q)} (hp : rs.Perm rs') (h : ∀ r ∈ rs, TauOfShape r) (A : Operator ν ι) (rnd : Arr ι) (p q : ℝ) :
    lipschitzScaling A rnd rs p q = lipschitzScaling A rnd rs' p q := by
  unfold lipschitzScaling
  simp only [fold_tau_perm hp h]

private theorem pdhgScaling_perm {S : Solver ν ι Q} {rs' : List (Reg ν Q)} (hp : S.regs.Perm rs') (h : ∀ r ∈ S.regs, TauOfShape r) (A : Operator ν ι)
    (a : Args ν ι) (pc : Bool) (rnd : Arr ι) : pdhgScaling S A a pc rnd = pdhgScaling { S with regs := rs' } A a pc rnd := by
  unfold pdhgScaling
  simp only [scaling_perm hp h, lipschitz_perm hp h]

/-! ## Dual variables -/

omit [Fintype ν] in
private theorem updateRegDuals_zip (rs : List (Reg ν Q)) (qs : List Q) (hl : qs.length = rs.length) (x : Arr ν) :
    (updateRegDuals rs qs x).length = rs.length ∧
      rs.zip (updateRegDuals rs qs x) = (rs.zip qs).map fun z => (z.1, z.1.proxDual (z.1.updateDual z.2 x)) := by
  induction rs generalizing qs with
  | nil => cases qs <;> simp_all [updateRegDuals]
  | cons r rs ih =>
    cases qs with
    | nil => simp at hl
    | cons q qs =>
      have := ih qs (by simpa using hl)
      simp [updateRegDuals, this.1, this.2]

omit [Fintype ν] in
private theorem addRegUpdates_zip (rs : List (Reg ν Q)) (qs : List Q) (hl : qs.length = rs.length) (u : Arr ν) :
    (addRegUpdates rs qs u).1 = (fun j => u j + ((rs.zip qs).map fun z => (z.1.updatePrimal z.2).1 j).sum) ∧
      (addRegUpdates rs qs u).2.length = rs.length ∧
      rs.zip (addRegUpdates rs qs u).2 = (rs.zip qs).map fun z => (z.1, (z.1.updatePrimal z.2).2) := by
  induction rs generalizing qs u with
  | nil => cases qs <;> simp_all [addRegUpdates]
  | cons r rs ih =>
    cases qs with
    | nil => simp at hl
    | cons q qs =>
      have := ih qs (by simpa using hl) fun j => u j + (r.updatePrimal q).1 j
      simp only [addRegUpdates, List.zip_cons_cons, List.map_cons, List.sum_cons, List.length_cons, this.1, this.2.1, this.2.2, and_true]
      funext j
      ring

/-- Two states that differ in the order of the regularizers and of their dual variables. -/
private def SameUpToOrder (rs rs' : List (Reg ν Q)) (s s' : PDState ν ι Q) : Prop :=
  s.x = s'.x ∧ s.xRelax = s'.xRelax ∧ s.p = s'.p ∧ s.info = s'.info ∧ s.q.length = rs.length ∧ s'.q.length = rs'.length ∧ (rs.zip s.q).Perm (rs'.zip s'.q)

private theorem step_perm {rs rs' : List (Reg ν Q)} (hp : rs.Perm rs') (A : Operator ν ι) (a : Args ν ι) (term tt : DataTerm ι) (bm tm : Option (Arr ι))
    (tau : Arr ν) (tol : Option ℝ) (k : ℕ) (s s' : PDState ν ι Q) (h : SameUpToOrder rs rs' s s') :
    SameUpToOrder rs rs' (pdhgStep A a rs term tt bm tm tau tol k s).1 (pdhgStep A a rs' term tt bm tm tau tol k s').1 ∧
      (pdhgStep A a rs term tt bm tm tau tol k s).2 = (pdhgStep A a rs' term tt bm tm tau tol k s').2 := by
  obtain ⟨x, xr, p, q, i⟩ := s
  obtain ⟨x', xr', p', q', i'⟩ := s'
  obtain ⟨rfl, rfl, rfl, rfl, hl, hl', hq⟩ := h
  dsimp only at hl hl' hq
  obtain ⟨d1, d2⟩ := updateRegDuals_zip rs q hl xr
  obtain ⟨d1', d2'⟩ := updateRegDuals_zip rs' q' hl' xr
  have hd : (rs.zip (updateRegDuals rs q xr)).Perm (rs'.zip (updateRegDuals rs' q' xr)) := by rw [d2, d2']; exact hq.map _
  have hu : ∀ u : Arr ν, (addRegUpdates rs (updateRegDuals rs q xr) u).1 = (addRegUpdates rs' (updateRegDuals rs' q' xr) u).1 := by
    intro u
    rw [(addRegUpdates_zip rs _ d1 u).1, (addRegUpdates_zip rs' _ d1' u).1]
    funext j
    rw [(hd.map _).sum_eq]
  have hv : ∀ u : Arr ν, (rs.zip (addRegUpdates rs (updateRegDuals rs q xr) u).2).Perm (rs'.zip (addRegUpdates rs' (updateRegDuals rs' q' xr) u).2) := by
    intro u
    rw [(addRegUpdates_zip rs _ d1 u).2.2, (addRegUpdates_zip rs' _ d1' u).2.2]
    exact hd.map _
  have hnil : (rs = []) = (rs' = []) := propext ⟨fun h => by subst h; exact hp.nil_eq.symm, fun h => by subst h; exact hp.eq_nil⟩
  unfold pdhgStep
  dsimp only
  simp only [hu, hnil]
  refine ⟨⟨rfl, rfl, rfl, rfl, ?_, ?_, ?_⟩, trivial⟩
  · exact (addRegUpdates_zip rs _ d1 _).2.1
  · exact (addRegUpdates_zip rs' _ d1' _).2.1
  · exact hv _

/-- C271 for PDHG, with any operator, data term, options and preconditioning: regularizers given in another order yield the same volume and the same info (or the same error). -/
theorem C271_pdhg {S : Solver ν ι Q} {rs' : List (Reg ν Q)} (hp : S.regs.Perm rs') (h : ∀ r ∈ S.regs, TauOfShape r) (A : Operator ν ι) (b : Arr ι)
    (a : Args ν ι) (pc : Bool) (rnd : Arr ι) : outcome (pdhg { S with regs := rs' } A b a pc rnd) = outcome (pdhg S A b a pc rnd) := by
  have hsc := pdhgScaling_perm hp h A a pc rnd
  unfold pdhg
  rcases hm : initBMasks a.bMask a.bTestMask with ⟨bm, tm⟩
  simp only [Bind.bind, Except.bind, ← hsc]
  rcases pdhgScaling S A a pc rnd with e | ⟨sigma, tau⟩
  · rfl
  · dsimp only
    rcases testTerm tm (S.term.assignData (some (.array b)) (.array sigma)) S.termTest b (.array sigma) with e | tt
    · rfl
    · dsimp only
      have key := forRange_rel (n := a.iterations) (R := SameUpToOrder S.regs rs')
        (s := ⟨a.x0.getD fun _ => 0, a.x0.getD fun _ => 0, (S.term.assignData (some (.array b)) (.array sigma)).initializeDual, S.regs.map (·.initDual),
          initialResiduals (S.term.assignData (some (.array b)) (.array sigma)) tt bm tm S.tolerance (A.fwd (a.x0.getD fun _ => 0)) (Info.new a.iterations S.tolerance)⟩)
        (s' := ⟨a.x0.getD fun _ => 0, a.x0.getD fun _ => 0, (S.term.assignData (some (.array b)) (.array sigma)).initializeDual, rs'.map (·.initDual),
          initialResiduals (S.term.assignData (some (.array b)) (.array sigma)) tt bm tm S.tolerance (A.fwd (a.x0.getD fun _ => 0)) (Info.new a.iterations S.tolerance)⟩)
        ⟨rfl, rfl, rfl, rfl, by simp, by simp, by
          have e : ∀ l : List (Reg ν Q), l.zip (l.map (·.initDual)) = l.map fun r => (r, r.initDual) := fun l => by
            induction l with
            | nil => rfl
            | cons r l ih => simp [ih]
          dsimp only
          rw [e, e]
          exact hp.map _⟩
        (step_perm hp A a (S.term.assignData (some (.array b)) (.array sigma)) tt bm tm tau S.tolerance)
      simp only [outcome, Except.map, key.1, key.2.2.2.1]

omit [Fintype ι] [Fintype ν] in
private theorem fold_sub (rs : List (Reg ν Q)) (f : Reg ν Q → Arr ν) (u : Arr ν) :
    rs.foldl (fun u r => fun j => u j - f r j) u = fun j => u j - (rs.map fun r => f r j).sum := by
  induction rs generalizing u with
  | nil => simp
  | cons r rs ih =>
    rw [List.foldl_cons, ih]
    funext j
    rw [List.map_cons, List.sum_cons]
    ring

/-- C271 for SIRT. -/
theorem C271_sirt {S : Solver ν ι Q} {rs' : List (Reg ν Q)} (hp : S.regs.Perm rs') (h : ∀ r ∈ S.regs, TauOfShape r) (A : Operator ν ι) (b : Arr ι)
    (a : Args ν ι) : outcome (sirt { S with regs := rs' } A b a) = outcome (sirt S A b a) := by
  have hstep : ∀ (term tt : DataTerm ι) (bm tm : Option (Arr ι)) (sigma : Arr ι) (tau : Arr ν),
      sirtStep A a rs' term tt bm tm sigma tau S.tolerance = sirtStep A a S.regs term tt bm tm sigma tau S.tolerance := by
    intro term tt bm tm sigma tau
    funext k s
    rw [sirtStep_cases, sirtStep_cases]
    simp only [fold_sub _ fun r => (r.updatePrimal (r.proxDual (r.updateDual r.initDual s.x))).1]
    have e : ∀ j, (rs'.map fun r => (r.updatePrimal (r.proxDual (r.updateDual r.initDual s.x))).1 j).sum =
        (S.regs.map fun r => (r.updatePrimal (r.proxDual (r.updateDual r.initDual s.x))).1 j).sum := fun j => (hp.symm.map _).sum_eq
    simp only [e]
  unfold sirt
  simp only [← scaling_perm hp h, hstep]
  rcases hm : initBMasks a.bMask a.bTestMask with ⟨bm, tm⟩
  simp only [Bind.bind, Except.bind]
  rcases diagonalScaling (absOrSelf A).1 (absOrSelf A).2 S.regs 1 S.relaxation a.xMask bm with e | ⟨sigma, tau⟩
  · rfl
  · dsimp only
    rcases testTerm tm (S.term.assignData (some (.array b)) (.array sigma)) S.termTest b (.array sigma) with e | tt <;> rfl

omit [Fintype ν] in
/-- The hypothesis holds for every regularizer built on the base class (here: any transform, norm, weight and update mask). -/
theorem C271_regs {δ : Type} [Fintype δ] (r : RegState ν δ) (prox : Arr ν → Arr ν → Arr ν) : TauOfShape (r.toReg prox) := fun _ _ => rfl

/-- Non-vacuity: PDHG and SIRT with two different regularizers of the base class (any transforms, norms and weights), in both orders. -/
example {δ : Type} [Fintype δ] (r1 r2 : RegState ν δ) (S : Solver ν ι (Arr δ)) (hS : S.regs = [r1.toReg, r2.toReg]) (A : Operator ν ι) (b : Arr ι) (a : Args ν ι)
    (pc : Bool) (rnd : Arr ι) :
    outcome (pdhg { S with regs := [r2.toReg, r1.toReg] } A b a pc rnd) = outcome (pdhg S A b a pc rnd) ∧
      outcome (sirt { S with regs := [r2.toReg, r1.toReg] } A b a) = outcome (sirt S A b a) := by
  have hp : S.regs.Perm [r2.toReg, r1.toReg] := by rw [hS]; exact List.Perm.swap ..
  have h : ∀ r ∈ S.regs, TauOfShape r := by
    intro r hr
    rw [hS] at hr
    simp only [List.mem_cons, List.not_mem_nil, or_false] at hr
    rcases hr with rfl | rfl <;> exact C271_regs _ _
  exact ⟨C271_pdhg hp h A b a pc rnd, C271_sirt hp h A b a⟩

end Verif
