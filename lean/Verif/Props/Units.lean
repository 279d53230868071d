import Verif.Props.Slices
import Verif.Props.Superposition
import Verif.Props.Regularizers
import Verif.Props.PdhgRegs

/-! # C275: the unit of the data does not matter -/

namespace Verif
open Classical DataTerm

variable {ν ι δ Q : Type} [Fintype ν] [Fintype ι]

/-- `α x`. -/
def scaled {X : Type} (α : ℝ) (x : Arr X) : Arr X := fun i => α * x i

/-- The arguments in another unit: start and limits are multiplied by `α`. -/
noncomputable def Args.inUnit (α : ℝ) (a : Args ν ι) : Args ν ι :=
  { a with x0 := a.x0.map (scaled α), lower := a.lower.map (Attr.map (α * ·)), upper := a.upper.map (Attr.map (α * ·)) }

/-- The solver in another unit: the background of the data term is multiplied by `α`; `rs` are the regularizers in that unit. -/
noncomputable def Solver.inUnit (α : ℝ) (S : Solver ν ι Q) (rs : List (Reg ν Q)) : Solver ν ι Q :=
  { S with regs := rs, term := { S.term with background := S.term.background.map (Attr.map (α * ·)) } }

/-- `r'` is the regularizer `r` in another unit; `c` converts its dual variables. -/
structure RegInUnit (α : ℝ) (c : Q → Q) (r' r : Reg ν Q) : Prop where
  sigmaTau : r'.sigmaTau = r.sigmaTau
  initDual : r'.initDual = c r.initDual
  updateDual : ∀ q x, r'.updateDual (c q) (scaled α x) = c (r.updateDual q x)
  proxDual : ∀ q, r'.proxDual (c q) = c (r.proxDual q)
  updatePrimal1 : ∀ q, (r'.updatePrimal (c q)).1 = scaled α (r.updatePrimal q).1
  updatePrimal2 : ∀ q, (r'.updatePrimal (c q)).2 = c (r.updatePrimal q).2
  proxPrimal : ∀ x t, r'.proxPrimal (scaled α x) t = scaled α (r.proxPrimal x t)

/-- Data terms whose residual is the difference of data and projection (perhaps weighted): all but the l2 ball and Kullback-Leibler. -/
def DifferenceResidual (t : DataTerm ι) : Prop := match t.kind with | .l2b _ | .kl => False | _ => True

/-- l2 or weighted l2. -/
def L2Kind (t : DataTerm ι) : Prop := t.kind = .l2 ∨ ∃ w, t.kind = .wl2 w

theorem linear_scaled {X Y : Type} {F : Arr X → Arr Y} (h : IsLinear F) (α : ℝ) (x : Arr X) : F (scaled α x) = scaled α (F x) := by
  have h1 := h α 0 x x
  have e : (fun i => α * x i + 0 * x i) = scaled α x := by funext i; simp [scaled]
  rw [← e, h1]
  funext i
  simp [scaled]

private theorem mask_scaled {X : Type} (m : Option (Arr X)) (α : ℝ) (x : Arr X) : applyMask m (scaled α x) = scaled α (applyMask m x) := by
  funext i
  cases m <;> simp only [applyMask, scaled]
  ring

omit [Fintype ν] in
private theorem clipMask_scaled {α : ℝ} (hα : 0 ≤ α) (a : Args ν ι) (x : Arr ν) : clipMask (a.inUnit α) (scaled α x) = scaled α (clipMask a x) := by
  have hget : ∀ (t : Attr ν) j, (t.map (α * ·)).get j = α * t.get j := fun t j => by cases t <;> rfl
  unfold clipMask
  rw [← mask_scaled]
  congr 1
  funext j
  simp only [Args.inUnit, scaled, clip1, Option.map_map]
  cases a.lower <;> cases a.upper <;> simp [hget, mul_max_of_nonneg _ _ hα, mul_min_of_nonneg _ _ hα]

omit [Fintype ν] [Fintype ι] in
private theorem attr_array_get (v : Arr ι) (i : ι) : (Attr.array v).get i = v i := rfl

private theorem residual_scaled {t : DataTerm ι} (ht : DifferenceResidual t) (s : Attr ι) (b : Arr ι) (m : Option (Arr ι)) (α : ℝ) (p : Arr ι) :
    (({ t with background := t.background.map (Attr.map (α * ·)) } : DataTerm ι).assignData (some (.array (scaled α b))) s).residual (scaled α p) m =
      scaled α ((t.assignData (some (.array b)) s).residual p m) := by
  have hget : ∀ (t : Attr ι) j, (t.map (α * ·)).get j = α * t.get j := fun t j => by cases t <;> rfl
  funext i
  rcases t with ⟨kind, bg, d, sigma, sd, s1, se, oe⟩
  cases kind <;> simp only [DifferenceResidual] at ht <;> cases bg <;> cases m <;>
    simp only [DataTerm.residual, DataTerm.assignData, DataTerm.addBackground, applyMask, scaled, attr_array_get, Option.map_some, Option.map_none, hget] <;> ring

private theorem dual_scaled {t : DataTerm ι} (ht : L2Kind t) (s : Arr ι) (b : Arr ι) (α : ℝ) (d p : Arr ι) :
    (({ t with background := t.background.map (Attr.map (α * ·)) } : DataTerm ι).assignData (some (.array (scaled α b))) (.array s)).proxDual
      ((({ t with background := t.background.map (Attr.map (α * ·)) } : DataTerm ι).assignData (some (.array (scaled α b))) (.array s)).updateDual (scaled α d) (scaled α p)) =
      scaled α ((t.assignData (some (.array b)) (.array s)).proxDual ((t.assignData (some (.array b)) (.array s)).updateDual d p)) := by
  have hget : ∀ (t : Attr ι) j, (t.map (α * ·)).get j = α * t.get j := fun t j => by cases t <;> rfl
  funext i
  rcases ht with hk | ⟨w, hk⟩ <;> cases hbg : t.background <;>
    simp only [DataTerm.proxDual, DataTerm.updateDual, DataTerm.subSigmaData, DataTerm.assignData, DataTerm.computeSigmaData, hk, hbg, scaled, attr_array_get, Attr.map₂,
      Option.map_some, Option.map_none, hget] <;> ring

private theorem testTerm_scaled (α : ℝ) (tm : Option (Arr ι)) (t tt : DataTerm ι) (b b' : Arr ι) (s s' : Attr ι) :
    (testTerm tm (({ t with background := t.background.map (Attr.map (α * ·)) } : DataTerm ι).assignData (some (.array b')) s) tt b' s').map (fun _ => ()) =
      (testTerm tm (t.assignData (some (.array b)) s) tt b s').map fun _ => () := by
  have e : isArrayBg (({ t with background := t.background.map (Attr.map (α * ·)) } : DataTerm ι).assignData (some (.array b')) s).background =
      isArrayBg (t.assignData (some (.array b)) s).background := by
    unfold DataTerm.assignData isArrayBg
    rcases t.background with _ | (_ | _) <;> rfl
  unfold testTerm prepareTest
  simp only [e]
  split_ifs <;> rfl

omit [Fintype ν] in
private theorem tau_scaled {α : ℝ} {c : Q → Q} {rs' rs : List (Reg ν Q)} (h : List.Forall₂ (RegInUnit α c) rs' rs) (t : Arr ν) :
    rs'.foldl (fun t r => fun j => t j + r.sigmaTau t j) t = rs.foldl (fun t r => fun j => t j + r.sigmaTau t j) t := by
  induction h generalizing t with
  | nil => rfl
  | cons hr _ ih => rw [List.foldl_cons, List.foldl_cons, ih, hr.sigmaTau]

private theorem scaling_scaled {α : ℝ} {c : Q → Q} {rs' rs : List (Reg ν Q)} (h : List.Forall₂ (RegInUnit α c) rs' rs) (F : Arr ν → Arr ι) (G : Arr ι → Arr ν)
    (p q : ℝ) (xm : Option (Arr ν)) (bm : Option (Arr ι)) : diagonalScaling F G rs' p q xm bm = diagonalScaling F G rs p q xm bm := by
  unfold diagonalScaling
  simp only [tau_scaled h]

private theorem lipschitz_scaled {α : ℝ} {c : Q → Q} {rs' rs : List (Reg ν Q)} (h : List.Forall₂ (RegInUnit α c) rs' rs) (A : Operator ν ι) (rnd : Arr ι) (p q : ℝ) :
    lipschitzScaling A rnd rs' p q = lipschitzScaling A rnd rs p q := by
  unfold lipschitzScaling
  simp only [tau_scaled h]

omit [Fintype ν] in
private theorem foldSirt_scaled {α : ℝ} {c : Q → Q} {rs' rs : List (Reg ν Q)} (h : List.Forall₂ (RegInUnit α c) rs' rs) (x u : Arr ν) :
    (rs'.foldl (fun u r => fun j => u j - (r.updatePrimal (r.proxDual (r.updateDual r.initDual (scaled α x)))).1 j) (scaled α u)) =
      scaled α (rs.foldl (fun u r => fun j => u j - (r.updatePrimal (r.proxDual (r.updateDual r.initDual x))).1 j) u) := by
  induction h generalizing u with
  | nil => rfl
  | cons hr _ ih =>
    rw [List.foldl_cons, List.foldl_cons, ← ih]
    congr 1
    funext j
    rw [hr.initDual, hr.updateDual, hr.proxDual, hr.updatePrimal1]
    simp only [scaled]
    ring

omit [Fintype ν] in
private theorem updateRegDuals_scaled {α : ℝ} {c : Q → Q} {rs' rs : List (Reg ν Q)} (h : List.Forall₂ (RegInUnit α c) rs' rs) (qs : List Q) (x : Arr ν) :
    updateRegDuals rs' (qs.map c) (scaled α x) = (updateRegDuals rs qs x).map c := by
  induction h generalizing qs with
  | nil => cases qs <;> rfl
  | cons hr _ ih =>
    cases qs with
    | nil => rfl
    | cons q qs => simp only [updateRegDuals, List.map_cons, ih, hr.proxDual, hr.updateDual]

omit [Fintype ν] in
private theorem addRegUpdates_scaled {α : ℝ} {c : Q → Q} {rs' rs : List (Reg ν Q)} (h : List.Forall₂ (RegInUnit α c) rs' rs) (qs : List Q) (u : Arr ν) :
    addRegUpdates rs' (qs.map c) (scaled α u) = (scaled α (addRegUpdates rs qs u).1, (addRegUpdates rs qs u).2.map c) := by
  induction h generalizing qs u with
  | nil => cases qs <;> rfl
  | cons hr _ ih =>
    cases qs with
    | nil => rfl
    | cons q qs =>
      have e : ∀ r' r, RegInUnit α c r' r → (fun j => scaled α u j + (r'.updatePrimal (c q)).1 j) = scaled α fun j => u j + (r.updatePrimal q).1 j := by
        intro r' r hr
        funext j
        rw [hr.updatePrimal1]
        simp only [scaled]
        ring
      simp only [addRegUpdates, List.map_cons, e _ _ hr, ih, hr.updatePrimal2]

omit [Fintype ν] [Fintype ι] in
private theorem start_scaled (α : ℝ) (x0 : Option (Arr ν)) : (x0.map (scaled α)).getD (fun _ => 0) = scaled α (x0.getD fun _ => 0) := by
  cases x0 with
  | none => funext j; simp [scaled]
  | some x => rfl

/-- SIRT: data, background, start and limits multiplied by `α ≥ 0` (with the regularizers in the new unit) multiply the result by `α`. -/
theorem C275_sirt {α : ℝ} (hα : 0 ≤ α) {c : Q → Q} {S : Solver ν ι Q} {rs : List (Reg ν Q)} (hr : List.Forall₂ (RegInUnit α c) rs S.regs)
    (htol : S.tolerance = none) (hterm : DifferenceResidual S.term) {A : Operator ν ι} (hf : IsLinear A.fwd) (hadj : IsLinear A.adj) (b : Arr ι) (a : Args ν ι) :
    volume (sirt (S.inUnit α rs) A (scaled α b) (a.inUnit α)) = (volume (sirt S A b a)).map (scaled α) := by
  unfold sirt volume
  simp only [show (S.inUnit α rs).regs = rs from rfl, show (S.inUnit α rs).relaxation = S.relaxation from rfl, show (a.inUnit α).xMask = a.xMask from rfl,
    show (a.inUnit α).bMask = a.bMask from rfl, show (a.inUnit α).bTestMask = a.bTestMask from rfl, scaling_scaled hr]
  rcases hm : initBMasks a.bMask a.bTestMask with ⟨bm, tm⟩
  dsimp only
  rcases diagonalScaling (absOrSelf A).1 (absOrSelf A).2 S.regs 1 S.relaxation a.xMask bm with e | ⟨σ, τ⟩
  · rfl
  · have ht' := testTerm_scaled α tm S.term S.termTest b (scaled α b) (.array σ) (.array σ)
    simp only [Bind.bind, Except.bind, Except.map]
    revert ht'
    simp only [show (S.inUnit α rs).term = { S.term with background := S.term.background.map (Attr.map (α * ·)) } from rfl,
      show (S.inUnit α rs).termTest = S.termTest from rfl]
    rcases testTerm tm (({ S.term with background := S.term.background.map (Attr.map (α * ·)) } : DataTerm ι).assignData (some (.array (scaled α b))) (.array σ)) S.termTest
      (scaled α b) (.array σ) with e1 | t1 <;>
    rcases testTerm tm (S.term.assignData (some (.array b)) (.array σ)) S.termTest b (.array σ) with e2 | t2 <;>
    intro ht' <;> simp only [Except.map, reduceCtorEq, Except.error.injEq] at ht'
    · rw [ht']
    · simp only [Except.ok.injEq]
      refine forRange_rel (R := fun (s s' : XState ν) => s.x = scaled α s'.x) (start_scaled α a.x0) ?_
      rintro k ⟨x, i⟩ ⟨x', i'⟩ hx
      dsimp only at hx
      subst hx
      simp only [show (S.inUnit α rs).tolerance = none from htol, htol, sirtStep_cases, recordResiduals_noTol, Bool.false_eq_true, if_false, and_true]
      rw [linear_scaled hf, residual_scaled hterm]
      have e : ∀ u : Arr ι, (fun i => scaled α u i * σ i) = scaled α fun i => u i * σ i := fun u => by funext i; simp only [scaled]; ring
      rw [e, linear_scaled hadj, foldSirt_scaled hr]
      have e' : ∀ u : Arr ν, (fun j => scaled α x' j + scaled α u j * τ j) = scaled α fun j => x' j + u j * τ j := fun u => by funext i; simp only [scaled]; ring
      rw [e', clipMask_scaled hα]

/-- FISTA, with any step sizes. -/
theorem C275_fista {α : ℝ} (hα : 0 ≤ α) {c : Q → Q} {S : Solver ν ι Q} {rs : List (Reg ν Q)} (hr : List.Forall₂ (RegInUnit α c) rs S.regs)
    (htol : S.tolerance = none) (hterm : DifferenceResidual S.term) {A : Operator ν ι} (hf : IsLinear A.fwd) (hadj : IsLinear A.adj) (b : Arr ι) (a : Args ν ι)
    (pc : Bool) (rnd : Arr ι) :
    volume (fista (S.inUnit α rs) A (scaled α b) (a.inUnit α) pc rnd) = (volume (fista S A b a pc rnd)).map (scaled α) := by
  have hsc : fistaScaling (S.inUnit α rs) A (a.inUnit α) pc rnd = fistaScaling S A a pc rnd := rfl
  unfold fista volume
  rw [hsc]
  simp only [show (a.inUnit α).xMask = a.xMask from rfl,
    show (a.inUnit α).bMask = a.bMask from rfl, show (a.inUnit α).bTestMask = a.bTestMask from rfl]
  rcases hm : initBMasks a.bMask a.bTestMask with ⟨bm, tm⟩
  dsimp only
  rcases fistaScaling S A a pc rnd with e | ⟨σ, τ⟩
  · rfl
  · have ht' := testTerm_scaled α tm S.term S.termTest b (scaled α b) (.scalar 1) (.scalar 1)
    simp only [Bind.bind, Except.bind, Except.map]
    revert ht'
    simp only [show (S.inUnit α rs).term = { S.term with background := S.term.background.map (Attr.map (α * ·)) } from rfl,
      show (S.inUnit α rs).termTest = S.termTest from rfl]
    rcases testTerm tm (({ S.term with background := S.term.background.map (Attr.map (α * ·)) } : DataTerm ι).assignData (some (.array (scaled α b))) (.scalar 1)) S.termTest
      (scaled α b) (.scalar 1) with e1 | t1 <;>
    rcases testTerm tm (S.term.assignData (some (.array b)) (.scalar 1)) S.termTest b (.scalar 1) with e2 | t2 <;>
    intro ht' <;> simp only [Except.map, reduceCtorEq, Except.error.injEq] at ht'
    · rw [ht']
    · simp only [Except.ok.injEq]
      have hx0 : applyMask a.xMask ((a.inUnit α).x0.getD fun _ => 0) = scaled α (applyMask a.xMask (a.x0.getD fun _ => 0)) := by
        rw [← mask_scaled]; congr 1; exact start_scaled α a.x0
      refine (forRange_rel (R := fun (s s' : FState ν) => s.x = scaled α s'.x ∧ s.y = scaled α s'.y ∧ s.t = s'.t) ?_ ?_).1
      · exact ⟨hx0, hx0, rfl⟩
      rintro k ⟨x, y, t, i⟩ ⟨x', y', t', i'⟩ ⟨hx, hy, ht⟩
      dsimp only at hx hy ht
      subst hx hy ht
      simp only [show (S.inUnit α rs).tolerance = none from htol, htol]
      obtain ⟨u1, u2, u3, u4⟩ := fistaStep_proxHead A (a.inUnit α) rs S.restartPeriod (({ S.term with background := S.term.background.map (Attr.map (α * ·)) } : DataTerm ι).assignData
        (some (.array (scaled α b))) (.scalar 1)) t1 bm tm σ τ k ⟨scaled α x', scaled α y', t, i⟩
      obtain ⟨v1, v2, v3, v4⟩ := fistaStep_proxHead A a S.regs S.restartPeriod (S.term.assignData (some (.array b)) (.scalar 1)) t2 bm tm σ τ k ⟨x', y', t, i'⟩
      dsimp only at u1 u2 u3 u4 v1 v2 v3 v4
      have hprox : ∀ z : Arr ν, proxHead rs τ (scaled α z) = scaled α (proxHead S.regs τ z) := by
        intro z
        cases hr' : S.regs with
        | nil => rw [hr'] at hr; cases hr; rfl
        | cons r l => rw [hr'] at hr; cases hr with | cons h _ => exact h.proxPrimal z τ
      have e : ∀ u : Arr ι, (fun i => scaled α u i * σ i) = scaled α fun i => u i * σ i := fun u => by funext i; simp only [scaled]; ring
      have e' : ∀ u : Arr ν, (fun j => scaled α y' j + τ j * scaled α u j) = scaled α fun j => y' j + τ j * u j := fun u => by funext i; simp only [scaled]; ring
      rw [linear_scaled hf, residual_scaled hterm, e, linear_scaled hadj, e', hprox, clipMask_scaled hα, ← v1] at u1
      refine ⟨⟨u1, ?_, u3.trans v3.symm⟩, u4.trans v4.symm⟩
      refine u2.trans ?_
      rw [u1, v2]
      funext j
      simp only [scaled]
      ring

/-- PDHG for l2 and weighted l2 terms, with any step sizes. -/
theorem C275_pdhg {α : ℝ} (hα : 0 ≤ α) {c : Q → Q} {S : Solver ν ι Q} {rs : List (Reg ν Q)} (hr : List.Forall₂ (RegInUnit α c) rs S.regs)
    (htol : S.tolerance = none) (hterm : L2Kind S.term) {A : Operator ν ι} (hf : IsLinear A.fwd) (hadj : IsLinear A.adj) (halias : A.aliasBack = none)
    (b : Arr ι) (a : Args ν ι) (pc : Bool) (rnd : Arr ι) :
    volume (pdhg (S.inUnit α rs) A (scaled α b) (a.inUnit α) pc rnd) = (volume (pdhg S A b a pc rnd)).map (scaled α) := by
  have hsc : pdhgScaling (S.inUnit α rs) A (a.inUnit α) pc rnd = pdhgScaling S A a pc rnd := by
    unfold pdhgScaling
    simp only [show (S.inUnit α rs).regs = rs from rfl, show (S.inUnit α rs).relaxation = S.relaxation from rfl, scaling_scaled hr, lipschitz_scaled hr]
    rfl
  unfold pdhg volume
  rw [hsc]
  simp only [show (S.inUnit α rs).regs = rs from rfl, show (a.inUnit α).bMask = a.bMask from rfl, show (a.inUnit α).bTestMask = a.bTestMask from rfl]
  rcases hm : initBMasks a.bMask a.bTestMask with ⟨bm, tm⟩
  dsimp only
  rcases pdhgScaling S A a pc rnd with e | ⟨σ, τ⟩
  · rfl
  · have ht' := testTerm_scaled α tm S.term S.termTest b (scaled α b) (.array σ) (.array σ)
    simp only [Bind.bind, Except.bind, Except.map]
    revert ht'
    simp only [show (S.inUnit α rs).term = { S.term with background := S.term.background.map (Attr.map (α * ·)) } from rfl,
      show (S.inUnit α rs).termTest = S.termTest from rfl]
    rcases testTerm tm (({ S.term with background := S.term.background.map (Attr.map (α * ·)) } : DataTerm ι).assignData (some (.array (scaled α b))) (.array σ)) S.termTest
      (scaled α b) (.array σ) with e1 | t1 <;>
    rcases testTerm tm (S.term.assignData (some (.array b)) (.array σ)) S.termTest b (.array σ) with e2 | t2 <;>
    intro ht' <;> simp only [Except.map, reduceCtorEq, Except.error.injEq] at ht'
    · rw [ht']
    · simp only [Except.ok.injEq]
      have hinit : rs.map (·.initDual) = (S.regs.map (·.initDual)).map c := by
        have : ∀ {l' l : List (Reg ν Q)}, List.Forall₂ (RegInUnit α c) l' l → l'.map (·.initDual) = (l.map (·.initDual)).map c := by
          intro l' l h
          induction h with
          | nil => rfl
          | cons hr _ ih => rw [List.map_cons, List.map_cons, List.map_cons, ih, hr.initDual]
        exact this hr
      refine (forRange_rel (R := fun (s s' : PDState ν ι Q) => s.x = scaled α s'.x ∧ s.xRelax = scaled α s'.xRelax ∧ s.p = scaled α s'.p ∧ s.q = s'.q.map c)
        ⟨start_scaled α a.x0, start_scaled α a.x0, by funext i; simp [scaled, DataTerm.initializeDual], hinit⟩ ?_).1
      rintro k ⟨x, xr, p, q, i⟩ ⟨x', xr', p', q', i'⟩ ⟨h1, h2, h3, h4⟩
      dsimp only at h1 h2 h3 h4
      subst h1 h2 h3 h4
      simp only [show (S.inUnit α rs).tolerance = none from htol, htol]
      have e' : ∀ u : Arr ν, (fun j => scaled α x' j - scaled α u j * τ j) = scaled α fun j => x' j - u j * τ j := fun u => by funext i; simp only [scaled]; ring
      unfold pdhgStep
      simp only [halias, recordResiduals_noTol, linear_scaled hf, dual_scaled hterm, mask_scaled, linear_scaled hadj, updateRegDuals_scaled hr, addRegUpdates_scaled hr, e',
        clipMask_scaled hα, and_true, true_and]
      funext j
      simp only [scaled]
      ring

/-! ## The regularizers -/

theorem softThreshold_scaled {α : ℝ} (hα : 0 < α) (v t : ℝ) : softThreshold (α * v) (α * t) = α * softThreshold v t := by
  unfold softThreshold
  have e1 : npSign (α * v) = npSign v := by
    unfold npSign
    simp only [mul_pos_iff_of_pos_left hα, mul_neg_iff, hα, hα.not_gt, true_and, false_and, or_false]
  rw [e1, abs_mul, abs_of_pos hα, ← mul_sub, show (0 : ℝ) = α * 0 by ring, ← mul_max_of_nonneg _ _ hα.le, mul_zero]
  ring

/-- Regularizers with an l1 or l12 norm (total variation, wavelets, l1, ...): in the new unit the weight is multiplied by `α`. -/
theorem C275_regs [Fintype δ] {α : ℝ} (hα : 0 < α) (r : RegState ν δ) (hnorm : r.norm.kind = .l1 ∨ ∃ g, r.norm.kind = .l12 g) (hdata : r.norm.data = none)
    (hf : IsLinear r.fwd) (hadj : IsLinear r.adj) (hback : ∀ f, r.aliasBack = some f → IsLinear f) (prox' prox : Arr ν → Arr ν → Arr ν)
    (hp : ∀ x t, prox' (scaled α x) t = scaled α (prox x t)) :
    RegInUnit α (scaled α) (({ r with weight := r.weight.map (α * ·) } : RegState ν δ).toReg prox') (r.toReg prox) := by
  have hget : ∀ (t : Attr ν) j, (t.map (α * ·)).get j = α * t.get j := fun t j => by cases t <;> rfl
  have hl1 : r.norm.kind.isL1 = true := by rcases hnorm with h | ⟨g, h⟩ <;> rw [h] <;> rfl
  have hupd : ∀ q : Arr δ, applyMask r.updMask (r.adj (scaled α q)) = scaled α (applyMask r.updMask (r.adj q)) := fun q => by
    rw [linear_scaled hadj, mask_scaled]
  refine ⟨rfl, ?_, fun q x => ?_, fun q => ?_, fun q => ?_, fun q => ?_, hp⟩
  · funext i
    simp [RegState.toReg, scaled]
  · funext i
    show (scaled α q) i + r.sigma * r.fwd (scaled α x) i = α * (q i + r.sigma * r.fwd x i)
    rw [linear_scaled hf]
    simp only [scaled]
    ring
  · funext i
    simp only [RegState.toReg, RegState.proxDual, hl1, if_true]
    have hsub : ∀ d : Arr δ, r.norm.subSigmaData d = d := fun d => by
      funext j; unfold DataTerm.subSigmaData; rw [hdata]
    rcases hnorm with h | ⟨g, h⟩
    · simp only [DataTerm.proxDual, h, hsub, DataTerm.applyThreshold, DataTerm.innerNorm, attr_array_get, hget, scaled, abs_mul, abs_of_pos hα]
      rw [← mul_max_of_nonneg _ _ hα.le, mul_div_mul_left _ _ hα.ne']
      ring
    · have hn : axisNorm g (scaled α q) i = α * axisNorm g q i := by
        unfold axisNorm scaled
        simp only [mul_pow, ← Finset.mul_sum]
        rw [Real.sqrt_mul (sq_nonneg α), Real.sqrt_sq hα.le]
      simp only [DataTerm.proxDual, h, hsub, DataTerm.applyThreshold, DataTerm.innerNorm, attr_array_get, hget, hn]
      simp only [scaled]
      rw [← mul_max_of_nonneg _ _ hα.le, mul_div_mul_left _ _ hα.ne']
      ring
  · simp only [RegState.toReg, RegState.updatePrimal, hl1, if_true]
    exact hupd q
  · simp only [RegState.toReg, RegState.updatePrimal, hl1, if_true, hupd]
    cases h : r.aliasBack with
    | none => rfl
    | some f => exact linear_scaled (hback f h) α _

/-- The l1 regularizer with its proximal operator (for FISTA). -/
theorem C275_l1 {α : ℝ} (hα : 0 < α) (weight : Attr ν) (updMask : Option (Arr ν)) (norm : DataTerm ν) (hnorm : norm.kind = .l1) :
    RegInUnit α (scaled α) ((l1Reg (weight.map (α * ·)) updMask norm).toReg (l1ProxPrimal (weight.map (α * ·)) updMask))
      ((l1Reg weight updMask norm).toReg (l1ProxPrimal weight updMask)) := by
  have hget : ∀ (t : Attr ν) j, (t.map (α * ·)).get j = α * t.get j := fun t j => by cases t <;> rfl
  refine C275_regs hα (l1Reg weight updMask norm) (.inl hnorm) rfl (fun _ _ _ _ => rfl) (fun _ _ _ _ => rfl) (fun f h => ?_) _ _ fun x t => ?_
  · simp only [l1Reg, Option.some.injEq] at h
    subst h
    exact fun _ _ _ _ => rfl
  · funext j
    unfold l1ProxPrimal
    cases updMask with
    | none =>
      simp only [scaled, hget]
      rw [show t j * (α * weight.get j) = α * (t j * weight.get j) by ring, softThreshold_scaled hα]
    | some m =>
      simp only [scaled, hget]
      rw [show t j * (α * weight.get j) = α * (t j * weight.get j) by ring, show α * x j * m j = α * (x j * m j) by ring, softThreshold_scaled hα]
      ring

/-- Non-vacuity: PDHG with the l1 regularizer of weight `w` for data in one unit, and of weight `1000 w` for the same data in thousandths. -/
example (S : Solver ν ι (Arr ν)) (w : ℝ) (hS : S.regs = [(l1Reg (.scalar w) none (.new .l1 none)).toReg]) (htol : S.tolerance = none) (hterm : S.term.kind = .l2)
    {A : Operator ν ι} (hf : IsLinear A.fwd) (hadj : IsLinear A.adj) (halias : A.aliasBack = none) (b : Arr ι) (a : Args ν ι) (rnd : Arr ι) :
    volume (pdhg (S.inUnit 1000 [(l1Reg (.scalar (1000 * w)) none (.new .l1 none)).toReg]) A (scaled 1000 b) (a.inUnit 1000) true rnd) =
      (volume (pdhg S A b a true rnd)).map (scaled 1000) := by
  refine C275_pdhg (by norm_num) (c := scaled 1000) ?_ htol (.inl hterm) hf hadj halias b a true rnd
  rw [hS]
  refine .cons ?_ .nil
  exact C275_regs (by norm_num) (l1Reg (.scalar w) none (.new .l1 none)) (.inl rfl) rfl (fun _ _ _ _ => rfl) (fun _ _ _ _ => rfl)
    (fun f h => by simp only [l1Reg, Option.some.injEq] at h; subst h; exact fun _ _ _ _ => rfl) _ _ fun _ _ => rfl

/-- Total variation: `Regularizer_TV` etc. with weight `α w` for weight `w` (default gradient, any axes, paddings and update masks). -/
theorem C275_tv {κ : Type} [Fintype κ] [DecidableEq κ] {n : κ → ℕ} {m : ℕ} {α : ℝ} (hα : 0 < α) (mode : PadMode) (axes : Fin m → κ) (weight : Attr (Idx n))
    (updMask : Option (Arr (Idx n))) (norm : DataTerm (Fin m × Idx n)) (hnorm : norm.kind = .l1 ∨ ∃ g, norm.kind = .l12 g) :
    RegInUnit α (scaled α) (gradReg mode axes (weight.map (α * ·)) updMask norm).toReg (gradReg mode axes weight updMask norm).toReg := by
  have hadj : IsLinear (gradientAdjoint (n := n) mode axes) := by
    intro a b x y
    funext q
    have hl : ∀ i s, padGet mode (fun p => a * x (i, p) + b * y (i, p)) q s = a * padGet mode (fun p => x (i, p)) q s + b * padGet mode (fun p => y (i, p)) q s :=
      fun i s => padGet_lin mode a b _ _ q s
    simp only [gradientAdjoint, divergence, hl]
    rw [mul_neg, mul_neg, ← neg_add, Finset.mul_sum, Finset.mul_sum, ← Finset.sum_add_distrib]
    congr 1
    exact Finset.sum_congr rfl fun i _ => by ring
  have hl1 : norm.kind.isL1 = true := by rcases hnorm with h | ⟨g, h⟩ <;> rw [h] <;> rfl
  have e : gradReg mode axes (weight.map (α * ·)) updMask norm = { gradReg mode axes weight updMask norm with weight := weight.map (α * ·) } := by
    unfold gradReg
    simp only [hl1, if_true]
  rw [e]
  exact C275_regs hα (gradReg mode axes weight updMask norm) hnorm rfl (gradient_lin mode axes) hadj (fun f h => by simp [gradReg] at h) _ _ fun _ _ => rfl

/-! ## MLEM -/

private theorem mlem_tiny (S : Solver (Fin 1) (Fin 1) Q) (hbg : S.term.background = none) (htol : S.tolerance = none) (n : ℕ) (hn : 1 ≤ n) (d : ℝ) (hd0 : 0 ≤ d)
    (hd : d ≤ eps) {r} (h : mlem S (matrixOp fun _ _ => 1) (fun _ => d) { iterations := n } = .ok r) : r.1 0 = d * (d / eps) ^ (n - 1) := by
  obtain ⟨tt, i0, _, _, _, _, e⟩ := mlem_ok h
  rw [e]
  have he : 0 < eps := by unfold eps; norm_num
  have he1 : eps ≤ 1 := by unfold eps; norm_num
  have hstep : ∀ k (s : XState (Fin 1)), (mlemStep (matrixOp fun _ _ => (1 : ℝ)) ({ iterations := n } : Args (Fin 1) (Fin 1)) (S.term.assignData (some (.array fun _ => d)) (.scalar 1)) tt (fun _ => d)
      (initBMasks none none).1 (initBMasks none none).2 ((matrixOp fun _ _ => (1 : ℝ)).adj (applyMask (initBMasks (none : Option (Arr (Fin 1))) none).1 fun _ => 1)) S.tolerance k s).1.x 0 =
        s.x 0 * (d / max (s.x 0) eps) ∧ (mlemStep (matrixOp fun _ _ => (1 : ℝ)) ({ iterations := n } : Args (Fin 1) (Fin 1)) (S.term.assignData (some (.array fun _ => d)) (.scalar 1)) tt (fun _ => d)
      (initBMasks none none).1 (initBMasks none none).2 ((matrixOp fun _ _ => (1 : ℝ)).adj (applyMask (initBMasks (none : Option (Arr (Fin 1))) none).1 fun _ => 1)) S.tolerance k s).2 = false := by
    intro k s
    rw [htol]
    unfold mlemStep
    simp [matrixOp, clipMask, applyMask, clip1, initBMasks, DataTerm.addBackground, DataTerm.assignData, hbg]
  have key := forRange_noBreak (step := mlemStep (matrixOp fun _ _ => (1 : ℝ)) ({ iterations := n } : Args (Fin 1) (Fin 1)) (S.term.assignData (some (.array fun _ => d)) (.scalar 1)) tt (fun _ => d)
      (initBMasks none none).1 (initBMasks none none).2 ((matrixOp fun _ _ => (1 : ℝ)).adj (applyMask (initBMasks (none : Option (Arr (Fin 1))) none).1 fun _ => 1)) S.tolerance)
    (fun s => s.x 0) (fun x => x * (d / max x eps)) (fun k s => (hstep k s).2) (fun k s => (hstep k s).1) n
    ⟨applyMask none ((none : Option (Arr (Fin 1))).getD fun _ => 1), i0⟩
  have hpow : 0 ≤ d / eps → d / eps ≤ 1 → ∀ m : ℕ, (fun x => x * (d / max x eps))^[m] d = d * (d / eps) ^ m := by
    intro hq0 hq1 m
    induction m with
    | zero => simp
    | succ m ih =>
      rw [Function.iterate_succ_apply', ih]
      have : d * (d / eps) ^ m ≤ eps := (mul_le_of_le_one_right hd0 (pow_le_one₀ hq0 hq1)).trans hd
      simp only [max_eq_right this]
      rw [pow_succ]
      ring
  refine key.trans ?_
  obtain ⟨m, rfl⟩ : ∃ m, n = m + 1 := ⟨n - 1, by omega⟩
  rw [Function.iterate_succ_apply, Nat.add_sub_cancel]
  have h0 : (1 : ℝ) * (d / max 1 eps) = d := by rw [max_eq_left he1]; ring
  show (fun x => x * (d / max x eps))^[m] (1 * (d / max 1 eps)) = _
  rw [h0]
  have hq0 : 0 ≤ d / eps := div_nonneg hd0 he.le
  have hq1 : d / eps ≤ 1 := (div_le_one he).2 hd
  exact hpow hq0 hq1 m

/-- MLEM violates it: projections below `np.finfo(np.float32).eps` are replaced by that number (src/corrct/solvers.py:795). One voxel seen by one pixel with the
value 1 is reconstructed as 1; the same measurement in a unit in which it is `d < eps` is reconstructed as `d (d/eps)^(n-1)` after `n` iterations, which tends to 0. -/
theorem C275_mlem_violated (S : Solver (Fin 1) (Fin 1) Q) (hbg : S.term.background = none) (htol : S.tolerance = none) (d : ℝ) (hd0 : 0 < d) (hd : d < eps) :
    (∀ n, 1 ≤ n → ∃ r, mlem S (matrixOp fun _ _ => 1) (fun _ => d) { iterations := n } = .ok r ∧ r.1 0 = d * (d / eps) ^ (n - 1)) ∧
      Filter.Tendsto (fun n : ℕ => d * (d / eps) ^ (n - 1)) Filter.atTop (nhds 0) := by
  have he : 0 < eps := by unfold eps; norm_num
  refine ⟨fun n hn => ?_, ?_⟩
  · have : ∃ r, mlem S (matrixOp fun _ _ => 1) (fun _ => d) { iterations := n } = .ok r := by
      unfold mlem
      simp only [initBMasks, testTerm, Option.isSome_none, Bool.false_eq_true, if_false, Bind.bind, Except.bind]
      rw [if_neg (by simp [matrixOp, applyMask]), if_neg (by
        rw [show (S.term.assignData (some (.array fun _ => d)) (.scalar 1)).background = S.term.background from rfl, hbg]; exact fun h => h)]
      exact ⟨_, rfl⟩
    obtain ⟨r, hr⟩ := this
    exact ⟨r, hr, mlem_tiny S hbg htol n hn d hd0.le hd.le hr⟩
  · have h1 : Filter.Tendsto (fun n : ℕ => (d / eps) ^ (n - 1)) Filter.atTop (nhds 0) := by
      have := tendsto_pow_atTop_nhds_zero_of_lt_one (div_nonneg hd0.le he.le) ((div_lt_one he).2 hd)
      exact this.comp (Filter.tendsto_sub_atTop_nat 1)
    simpa using h1.const_mul d

end Verif
