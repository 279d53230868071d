import Verif.Lemmas.Cut

/-! # C272, C273: a problem that falls into equal parts is solved part by part

C272 is the stack of slices, C273 the relabelling of voxels and pixels; both follow from one statement about parts. -/

namespace Verif
open Classical DataTerm

variable {N I ν ι κ Q' Q : Type} [Fintype N] [Fintype I] [Fintype ν] [Fintype ι]

/-- The volume returned by a run. -/
def volume {X Y : Type} (r : Except Err (X × Y)) : Except Err X := r.map (·.1)

private theorem addRegUpdates_cut {f : κ → ν → N} {c : κ → Q' → Q} {rs' : List (Reg N Q')} {rs : List (Reg ν Q)} (h : List.Forall₂ (RegCut f c) rs' rs)
    (k : κ) (qs : List Q') (u : Arr N) : (addRegUpdates rs' qs u).1 ∘ f k = (addRegUpdates rs (qs.map (c k)) (u ∘ f k)).1 ∧
      (addRegUpdates rs' qs u).2.map (c k) = (addRegUpdates rs (qs.map (c k)) (u ∘ f k)).2 := by
  induction h generalizing qs u with
  | nil => cases qs <;> exact ⟨rfl, rfl⟩
  | cons hr _ ih =>
    cases qs with
    | nil => exact ⟨rfl, rfl⟩
    | cons q qs =>
      have e : ∀ (r' : Reg N Q') (r : Reg ν Q), RegCut f c r' r → (fun j => u j + (r'.updatePrimal q).1 j) ∘ f k = fun j => (u ∘ f k) j + (r.updatePrimal (c k q)).1 j := by
        intro r' r hr
        funext j
        simp only [Function.comp]
        rw [cut_apply (hr.updatePrimal1 k q) j]
      simp only [addRegUpdates, List.map_cons, (ih qs _).1, (ih qs _).2, e _ _ hr, hr.updatePrimal2]
      trivial

private theorem updateRegDuals_cut {f : κ → ν → N} {c : κ → Q' → Q} {rs' : List (Reg N Q')} {rs : List (Reg ν Q)} (h : List.Forall₂ (RegCut f c) rs' rs)
    (k : κ) (qs : List Q') (x : Arr N) : (updateRegDuals rs' qs x).map (c k) = updateRegDuals rs (qs.map (c k)) (x ∘ f k) := by
  induction h generalizing qs with
  | nil => cases qs <;> rfl
  | cons hr _ ih =>
    cases qs with
    | nil => rfl
    | cons q qs => simp only [updateRegDuals, List.map_cons, ih, hr.proxDual, hr.updateDual]

private theorem foldSirt_cut {f : κ → ν → N} {c : κ → Q' → Q} {rs' : List (Reg N Q')} {rs : List (Reg ν Q)} (h : List.Forall₂ (RegCut f c) rs' rs)
    (k : κ) (x : Arr N) (u : Arr N) :
    (rs'.foldl (fun u r => fun j => u j - (r.updatePrimal (r.proxDual (r.updateDual r.initDual x))).1 j) u) ∘ f k =
      rs.foldl (fun u r => fun j => u j - (r.updatePrimal (r.proxDual (r.updateDual r.initDual (x ∘ f k)))).1 j) (u ∘ f k) := by
  induction h generalizing u with
  | nil => rfl
  | cons hr _ ih =>
    rw [List.foldl_cons, List.foldl_cons, ih]
    congr 1
    funext j
    simp only [Function.comp]
    rw [cut_apply (hr.updatePrimal1 k _) j, hr.proxDual, hr.updateDual, hr.initDual]

private theorem absOrSelf_cut {f : κ → ν → N} {g : κ → ι → I} {A' : Operator N I} {A : Operator ν ι} (h : OpCut f g A' A) :
    (∀ k x, (absOrSelf A').1 x ∘ g k = (absOrSelf A).1 (x ∘ f k)) ∧ ∀ k y, (absOrSelf A').2 y ∘ f k = (absOrSelf A).2 (y ∘ g k) := by
  unfold absOrSelf
  rcases h.abs with ⟨h1, h2⟩ | ⟨p', p, h1, h2, h3, h4⟩
  · rw [h1, h2]; exact ⟨h.fwd, h.adj⟩
  · rw [h1, h2]; exact ⟨h3, h4⟩

private theorem masks_cut {f : κ → ν → N} {g : κ → ι → I} {a : Args N I} {xm : Option (Arr ν)} {bm tm : Option (Arr ι)} (h : SameMasks f g a xm bm tm) (k : κ) :
    (initBMasks a.bMask a.bTestMask).1.map (· ∘ g k) = (initBMasks bm tm).1 ∧ (initBMasks a.bMask a.bTestMask).2.map (· ∘ g k) = (initBMasks bm tm).2 := by
  rw [← h.b k, ← h.test k, initBMasks_cut]
  exact ⟨rfl, rfl⟩

/-- SIRT: if operator, regularizers and masks are those of the parts, then so is the returned volume. -/
theorem C273_sirt_parts [Nonempty κ] {f : κ → ν → N} {g : κ → ι → I} (hc : Cover f g) {c : κ → Q' → Q} {A' : Operator N I} {A : Operator ν ι}
    (hA : OpCut f g A' A) {S : Solver N I Q'} {rs : List (Reg ν Q)} (hr : List.Forall₂ (RegCut f c) S.regs rs) (htol : S.tolerance = none)
    {a : Args N I} {xm : Option (Arr ν)} {bm tm : Option (Arr ι)} (hm : SameMasks f g a xm bm tm) (b : Arr I) (k : κ) :
    (volume (sirt S A' b a)).map (· ∘ f k) = volume (sirt (cutSolver (g k) S rs) A (b ∘ g k) (cutArgs (f k) (g k) a)) := by
  have hsc := scaling_cut hc (absOrSelf_cut hA).1 (absOrSelf_cut hA).2 hr 1 S.relaxation hm.x (fun k => (masks_cut hm k).1) k
  have hb : (initBMasks (cutArgs (f k) (g k) a).bMask (cutArgs (f k) (g k) a).bTestMask) = ((initBMasks bm tm).1, (initBMasks bm tm).2) := by
    simp only [cutArgs]; rw [hm.b, hm.test]
  have h1 := (masks_cut hm k).1
  have h2 := (masks_cut hm k).2
  unfold sirt volume
  simp only [hb]
  simp only [show (cutArgs (f k) (g k) a).xMask = xm from hm.x k, show (cutSolver (g k) S rs).relaxation = S.relaxation from rfl,
    show (cutSolver (g k) S rs).regs = rs from rfl, ← hsc]
  rcases e : diagonalScaling (absOrSelf A').1 (absOrSelf A').2 S.regs 1 S.relaxation a.xMask (initBMasks a.bMask a.bTestMask).1 with e | ⟨sigma, tau⟩
  · rfl
  · have ht := testTerm_cut (g k) (initBMasks a.bMask a.bTestMask).2 (S.term.assignData (some (.array b)) (.array sigma)) S.termTest b (.array sigma)
    rw [h2, assign_cut] at ht
    simp only [Bind.bind, Except.bind, Except.map]
    simp only [show (cutSolver (g k) S rs).term = S.term.slice (g k) from rfl, show (cutSolver (g k) S rs).termTest = S.termTest.slice (g k) from rfl]
    have ht' : (testTerm (initBMasks bm tm).2 ((S.term.slice (g k)).assignData (some (.array (b ∘ g k))) (.array (sigma ∘ g k))) (S.termTest.slice (g k))
      (b ∘ g k) (.array (sigma ∘ g k))).map (fun _ => ()) = (testTerm (initBMasks a.bMask a.bTestMask).2 (S.term.assignData (some (.array b)) (.array sigma)) S.termTest b
        (.array sigma)).map fun _ => () := ht
    revert ht'
    rcases testTerm (initBMasks bm tm).2 ((S.term.slice (g k)).assignData (some (.array (b ∘ g k))) (.array (sigma ∘ g k))) (S.termTest.slice (g k))
      (b ∘ g k) (.array (sigma ∘ g k)) with e1 | t1 <;>
    rcases testTerm (initBMasks a.bMask a.bTestMask).2 (S.term.assignData (some (.array b)) (.array sigma)) S.termTest b (.array sigma) with e2 | t2 <;>
    intro ht' <;> simp only [Except.map, reduceCtorEq, Except.error.injEq] at ht'
    · rw [ht']
    · simp only [Except.ok.injEq]
      refine forRange_rel (R := fun (s : XState N) (s' : XState ν) => s.x ∘ f k = s'.x) ?_ ?_
      · dsimp only [cutArgs]
        cases a.x0 <;> rfl
      · rintro n ⟨x, i⟩ ⟨x', i'⟩ hx
        dsimp only at hx
        subst hx
        simp only [show (cutSolver (g k) S rs).tolerance = none from htol, htol]
        rw [sirtStep_cases, sirtStep_cases]
        simp only [recordResiduals_noTol, Bool.false_eq_true, if_false, and_true]
        rw [clipMask_cut (f k) (g k)]
        congr 1
        funext j
        simp only [Function.comp]
        congr 2
        have hu : (A'.adj fun i => (S.term.assignData (some (.array b)) (.array sigma)).residual (A'.fwd x) (initBMasks a.bMask a.bTestMask).1 i * sigma i) ∘ f k =
            A.adj fun i => ((S.term.slice (g k)).assignData (some (.array (b ∘ g k))) (.array (sigma ∘ g k))).residual (A.fwd (x ∘ f k)) (initBMasks bm tm).1 i *
              (sigma ∘ g k) i := by
          rw [hA.adj]
          congr 1
          funext i
          simp only [Function.comp]
          congr 1
          rw [cut_apply (residual_cut _ (g k) _ _) i, assign_cut, hA.fwd, h1]
          rfl
        rw [cut_apply (foldSirt_cut hr k x _) j, hu]
        rfl

private theorem terms_cut {f : κ → ν → N} {g : κ → ι → I} {a : Args N I} {xm : Option (Arr ν)} {bm tm : Option (Arr ι)} (h : SameMasks f g a xm bm tm) (k : κ)
    (t tt : DataTerm I) (b : Arr I) (s s0 : Attr I) :
    (testTerm (initBMasks bm tm).2 ((t.slice (g k)).assignData (some (.array (b ∘ g k))) (s.slice (g k))) (tt.slice (g k)) (b ∘ g k) (s0.slice (g k))).map
      (fun _ => ()) = (testTerm (initBMasks a.bMask a.bTestMask).2 (t.assignData (some (.array b)) s) tt b s0).map fun _ => () := by
  rw [← testTerm_cut (g k), assign_cut, (masks_cut h k).2]

/-- PDHG with its preconditioner (or with an operator for which both runs use given step sizes): the same. The data term must act pixel by pixel. -/
theorem C273_pdhg_parts [Nonempty κ] {f : κ → ν → N} {g : κ → ι → I} (hc : Cover f g) {c : κ → Q' → Q} {A' : Operator N I} {A : Operator ν ι}
    (hA : OpCut f g A' A) (habs : A.abs ≠ none) {S : Solver N I Q'} (hel : S.term.Elementwise) {rs : List (Reg ν Q)}
    (hr : List.Forall₂ (RegCut f c) S.regs rs) (htol : S.tolerance = none) {a : Args N I} {xm : Option (Arr ν)} {bm tm : Option (Arr ι)}
    (hm : SameMasks f g a xm bm tm) (b : Arr I) (rnd' : Arr I) (rnd : Arr ι) (k : κ) :
    (volume (pdhg S A' b a true rnd')).map (· ∘ f k) = volume (pdhg (cutSolver (g k) S rs) A (b ∘ g k) (cutArgs (f k) (g k) a) true rnd) := by
  obtain ⟨p', p, e1, e2, h3, h4⟩ := hA.abs.resolve_left fun h => habs h.2
  have hsc := scaling_cut hc h3 h4 hr S.relaxation S.relaxation hm.x (fun k => (masks_cut hm k).1) k
  have hb : (initBMasks (cutArgs (f k) (g k) a).bMask (cutArgs (f k) (g k) a).bTestMask) = ((initBMasks bm tm).1, (initBMasks bm tm).2) := by
    simp only [cutArgs]; rw [hm.b, hm.test]
  have h1 := (masks_cut hm k).1
  unfold pdhg volume pdhgScaling
  simp only [hb, e1, e2, if_true]
  simp only [show (cutArgs (f k) (g k) a).xMask = xm from hm.x k, show (cutSolver (g k) S rs).relaxation = S.relaxation from rfl,
    show (cutSolver (g k) S rs).regs = rs from rfl, ← hsc]
  rcases e : diagonalScaling p'.1 p'.2 S.regs S.relaxation S.relaxation a.xMask (initBMasks a.bMask a.bTestMask).1 with e | ⟨sigma, tau⟩
  · rfl
  · have ht' := terms_cut hm k S.term S.termTest b (.array sigma) (.array sigma)
    simp only [Bind.bind, Except.bind, Except.map]
    simp only [show (cutSolver (g k) S rs).term = S.term.slice (g k) from rfl, show (cutSolver (g k) S rs).termTest = S.termTest.slice (g k) from rfl]
    simp only [show (Attr.array sigma).slice (g k) = .array (sigma ∘ g k) from rfl] at ht'
    revert ht'
    rcases testTerm (initBMasks bm tm).2 ((S.term.slice (g k)).assignData (some (.array (b ∘ g k))) (.array (sigma ∘ g k))) (S.termTest.slice (g k))
      (b ∘ g k) (.array (sigma ∘ g k)) with e1 | t1 <;>
    rcases testTerm (initBMasks a.bMask a.bTestMask).2 (S.term.assignData (some (.array b)) (.array sigma)) S.termTest b (.array sigma) with e2 | t2 <;>
    intro ht' <;> simp only [Except.map, reduceCtorEq, Except.error.injEq] at ht'
    · rw [ht']
    · simp only [Except.ok.injEq]
      have hel' : (S.term.assignData (some (.array b)) (.array sigma)).Elementwise := hel
      refine (forRange_rel (R := fun (s : PDState N I Q') (s' : PDState ν ι Q) => s.x ∘ f k = s'.x ∧ s.xRelax ∘ f k = s'.xRelax ∧ s.p ∘ g k = s'.p ∧
        s.q.map (c k) = s'.q) ?_ ?_).1
      · dsimp only [cutArgs]
        refine ⟨by cases a.x0 <;> rfl, by cases a.x0 <;> rfl, rfl, ?_⟩
        rw [List.map_map]
        have : ∀ {l' : List (Reg N Q')} {l : List (Reg ν Q)}, List.Forall₂ (RegCut f c) l' l → l'.map (c k ∘ fun r => r.initDual) = l.map (·.initDual) := by
          intro l' l h
          induction h with
          | nil => rfl
          | cons hr _ ih => rw [List.map_cons, List.map_cons, ih, Function.comp, hr.initDual]
        exact this hr
      · rintro n ⟨x, xr, p, q, i⟩ ⟨x', xr', p', q', i'⟩ ⟨hx1, hx2, hx3, hx4⟩
        dsimp only at hx1 hx2 hx3 hx4
        subst hx1 hx2 hx3 hx4
        simp only [show (cutSolver (g k) S rs).tolerance = none from htol, htol]
        have hp : applyMask (initBMasks a.bMask a.bTestMask).1 ((S.term.assignData (some (.array b)) (.array sigma)).proxDual
            ((S.term.assignData (some (.array b)) (.array sigma)).updateDual p (A'.fwd xr))) ∘ g k =
            applyMask (initBMasks bm tm).1 (((S.term.slice (g k)).assignData (some (.array (b ∘ g k))) (.array (sigma ∘ g k))).proxDual
            (((S.term.slice (g k)).assignData (some (.array (b ∘ g k))) (.array (sigma ∘ g k))).updateDual (p ∘ g k) (A.fwd (xr ∘ f k)))) := by
          rw [applyMask_cut, h1, dual_cut _ hel', assign_cut, hA.fwd]
          rfl
        have hq := updateRegDuals_cut hr k q xr
        have hu := addRegUpdates_cut hr k (updateRegDuals S.regs q xr) (A'.adj (applyMask (initBMasks a.bMask a.bTestMask).1 ((S.term.assignData (some (.array b))
            (.array sigma)).proxDual ((S.term.assignData (some (.array b)) (.array sigma)).updateDual p (A'.fwd xr)))))
        rw [hq, hA.adj, hp] at hu
        have hx : (clipMask a fun j => x j - (addRegUpdates S.regs (updateRegDuals S.regs q xr) (A'.adj (applyMask (initBMasks a.bMask a.bTestMask).1 ((S.term.assignData (some (.array b))
            (.array sigma)).proxDual ((S.term.assignData (some (.array b)) (.array sigma)).updateDual p (A'.fwd xr)))))).1 j * tau j) ∘ f k =
            clipMask (cutArgs (f k) (g k) a) fun j => (x ∘ f k) j - (addRegUpdates rs (updateRegDuals rs (q.map (c k)) (xr ∘ f k)) (A.adj (applyMask (initBMasks bm tm).1
              (((S.term.slice (g k)).assignData (some (.array (b ∘ g k))) (.array (sigma ∘ g k))).proxDual
            (((S.term.slice (g k)).assignData (some (.array (b ∘ g k))) (.array (sigma ∘ g k))).updateDual (p ∘ g k) (A.fwd (xr ∘ f k))))))).1 j * (tau ∘ f k) j := by
          rw [clipMask_cut (f k) (g k), ← hu.1]
          rfl
        have hnil : (S.regs = []) = (rs = []) := by
          revert hr; generalize S.regs = l; intro hr; cases hr <;> simp
        unfold pdhgStep
        dsimp only
        refine ⟨⟨hx, ?_, ?_, hu.2⟩, ?_⟩
        · funext j
          rw [← hx]
          rfl
        · rcases hA.back with ⟨b1, b2⟩ | ⟨q1, q2, b1, b2, b3⟩
          · simp only [b1, b2]; exact hp
          · simp only [b1, b2]
            by_cases hn : rs = []
            · rw [if_pos hn, if_pos (hnil.mpr hn)]; exact hp
            · rw [if_neg hn, if_neg fun h => hn (hnil.mp h), b3, hu.1]
        · rw [recordResiduals_noTol, recordResiduals_noTol]

/-- The regularization step of FISTA. -/
def proxHead (rs : List (Reg ν Q)) (t z : Arr ν) : Arr ν := match rs with | r :: _ => r.proxPrimal z t | [] => z

theorem fistaStep_proxHead (A : Operator ν ι) (a : Args ν ι) (regs : List (Reg ν Q)) (rp : Option ℕ)
    (term tt : DataTerm ι) (bm tm : Option (Arr ι)) (sigma : Arr ι) (tau : Arr ν) (ii : ℕ) (s : FState ν) :
    (fistaStep A a regs rp term tt bm tm sigma tau none ii s).1.x =
        clipMask a (proxHead regs tau fun j => s.y j + tau j * (A.adj fun i => term.residual (A.fwd s.y) bm i * sigma i) j) ∧
      (fistaStep A a regs rp term tt bm tm sigma tau none ii s).1.y = (fun j => (fistaStep A a regs rp term tt bm tm sigma tau none ii s).1.x j +
        fistaMomentum rp ii s.t * ((fistaStep A a regs rp term tt bm tm sigma tau none ii s).1.x j - s.x j)) ∧
      (fistaStep A a regs rp term tt bm tm sigma tau none ii s).1.t = fistaTNew rp ii s.t ∧
      (fistaStep A a regs rp term tt bm tm sigma tau none ii s).2 = false := by
  cases regs <;> exact ⟨rfl, rfl, rfl, recordResiduals_noTol⟩

/-- FISTA with its preconditioner: the same. -/
theorem C273_fista_parts [Nonempty κ] {f : κ → ν → N} {g : κ → ι → I} (hc : Cover f g) {c : κ → Q' → Q} {A' : Operator N I} {A : Operator ν ι}
    (hA : OpCut f g A' A) (habs : A.abs ≠ none) {S : Solver N I Q'} {rs : List (Reg ν Q)} (hr : List.Forall₂ (RegCut f c) S.regs rs)
    (htol : S.tolerance = none) {a : Args N I} {xm : Option (Arr ν)} {bm tm : Option (Arr ι)} (hm : SameMasks f g a xm bm tm) (b : Arr I) (rnd' : Arr I)
    (rnd : Arr ι) (k : κ) :
    (volume (fista S A' b a true rnd')).map (· ∘ f k) = volume (fista (cutSolver (g k) S rs) A (b ∘ g k) (cutArgs (f k) (g k) a) true rnd) := by
  obtain ⟨p', p, e1, e2, h3, h4⟩ := hA.abs.resolve_left fun h => habs h.2
  have hsc := scaling_cut (c := c) hc h3 h4 .nil 1 S.relaxation hm.x (fun k => (masks_cut hm k).1) k
  have hb : (initBMasks (cutArgs (f k) (g k) a).bMask (cutArgs (f k) (g k) a).bTestMask) = ((initBMasks bm tm).1, (initBMasks bm tm).2) := by
    simp only [cutArgs]; rw [hm.b, hm.test]
  have h1 := (masks_cut hm k).1
  have hxm : (cutArgs (f k) (g k) a).xMask = xm := hm.x k
  unfold fista volume fistaScaling
  simp only [hb, e1, e2, if_true]
  simp only [hxm, show (cutSolver (g k) S rs).relaxation = S.relaxation from rfl, ← hsc]
  rcases e : diagonalScaling (Q := Q') p'.1 p'.2 [] 1 S.relaxation a.xMask (initBMasks a.bMask a.bTestMask).1 with e | ⟨sigma, tau⟩
  · rfl
  · have ht' := terms_cut hm k S.term S.termTest b (.scalar 1) (.scalar 1)
    simp only [Bind.bind, Except.bind, Except.map]
    simp only [show (cutSolver (g k) S rs).term = S.term.slice (g k) from rfl, show (cutSolver (g k) S rs).termTest = S.termTest.slice (g k) from rfl]
    simp only [show (Attr.scalar 1 : Attr I).slice (g k) = .scalar 1 from rfl] at ht'
    revert ht'
    rcases testTerm (initBMasks bm tm).2 ((S.term.slice (g k)).assignData (some (.array (b ∘ g k))) (.scalar 1)) (S.termTest.slice (g k))
      (b ∘ g k) (.scalar 1) with e1 | t1 <;>
    rcases testTerm (initBMasks a.bMask a.bTestMask).2 (S.term.assignData (some (.array b)) (.scalar 1)) S.termTest b (.scalar 1) with e2 | t2 <;>
    intro ht' <;> simp only [Except.map, reduceCtorEq, Except.error.injEq] at ht'
    · rw [ht']
    · simp only [Except.ok.injEq]
      have hx0 : applyMask a.xMask (a.x0.getD fun _ => 0) ∘ f k = applyMask xm ((cutArgs (f k) (g k) a).x0.getD fun _ => 0) := by
        rw [applyMask_cut, hm.x]
        congr 1
        dsimp only [cutArgs]
        cases a.x0 <;> rfl
      refine (forRange_rel (R := fun (s : FState N) (s' : FState ν) => s.x ∘ f k = s'.x ∧ s.y ∘ f k = s'.y ∧ s.t = s'.t) ?_ ?_).1
      · exact ⟨hx0, hx0, rfl⟩
      · rintro n ⟨x, y, t, i⟩ ⟨x', y', t', i'⟩ ⟨hx1, hx2, hx3⟩
        dsimp only at hx1 hx2 hx3
        subst hx1 hx2 hx3
        simp only [show (cutSolver (g k) S rs).tolerance = none from htol, htol, show (cutSolver (g k) S rs).restartPeriod = S.restartPeriod from rfl,
          show (cutSolver (g k) S rs).regs = rs from rfl]
        have hu : (A'.adj fun i => (S.term.assignData (some (.array b)) (.scalar 1)).residual (A'.fwd y) (initBMasks a.bMask a.bTestMask).1 i * sigma i) ∘ f k =
            A.adj fun i => ((S.term.slice (g k)).assignData (some (.array (b ∘ g k))) (.scalar 1)).residual (A.fwd (y ∘ f k)) (initBMasks bm tm).1 i *
              (sigma ∘ g k) i := by
          rw [hA.adj]
          congr 1
          funext i
          simp only [Function.comp]
          congr 1
          rw [cut_apply (residual_cut _ (g k) _ _) i, assign_cut, hA.fwd, h1]
          rfl
        have hz : (fun j => y j + tau j * (A'.adj fun i => (S.term.assignData (some (.array b)) (.scalar 1)).residual (A'.fwd y) (initBMasks a.bMask a.bTestMask).1 i *
            sigma i) j) ∘ f k = fun j => (y ∘ f k) j + (tau ∘ f k) j * (A.adj fun i => ((S.term.slice (g k)).assignData (some (.array (b ∘ g k)))
              (.scalar 1)).residual (A.fwd (y ∘ f k)) (initBMasks bm tm).1 i * (sigma ∘ g k) i) j := by
          rw [← hu]
          rfl
        have hprox : ∀ z : Arr N, proxHead S.regs tau z ∘ f k = proxHead rs (tau ∘ f k) (z ∘ f k) := by
          intro z
          clear hz hu e hsc
          cases hr' : S.regs with
          | nil => rw [hr'] at hr; cases hr; rfl
          | cons r l => rw [hr'] at hr; cases hr with | cons h _ => exact h.proxPrimal k z tau
        obtain ⟨u1, u2, u3, u4⟩ := fistaStep_proxHead A' a S.regs S.restartPeriod (S.term.assignData (some (.array b)) (.scalar 1)) t2
          (initBMasks a.bMask a.bTestMask).1 (initBMasks a.bMask a.bTestMask).2 sigma tau n ⟨x, y, t, i⟩
        obtain ⟨v1, v2, v3, v4⟩ := fistaStep_proxHead A (cutArgs (f k) (g k) a) rs S.restartPeriod ((S.term.slice (g k)).assignData (some (.array (b ∘ g k))) (.scalar 1)) t1
          (initBMasks bm tm).1 (initBMasks bm tm).2 (sigma ∘ g k) (tau ∘ f k) n ⟨x ∘ f k, y ∘ f k, t, i'⟩
        dsimp only at u1 u2 u3 u4 v1 v2 v3 v4
        rw [← hz, ← hprox, ← clipMask_cut (f k) (g k), ← u1] at v1
        refine ⟨⟨v1.symm, ?_, by rw [u3, v3]⟩, by rw [u4, v4]⟩
        rw [u2, v2, v1]
        rfl

/-- MLEM: the same. -/
theorem C273_mlem_parts [Nonempty κ] {f : κ → ν → N} {g : κ → ι → I} (hc : Cover f g) {A' : Operator N I} {A : Operator ν ι}
    (hA : OpCut f g A' A) {S : Solver N I Q'} {rs : List (Reg ν Q)} (htol : S.tolerance = none) {a : Args N I} {xm : Option (Arr ν)}
    {bm tm : Option (Arr ι)} (hm : SameMasks f g a xm bm tm) (b : Arr I) (k : κ) :
    (volume (mlem S A' b a)).map (· ∘ f k) = volume (mlem (cutSolver (g k) S rs) A (b ∘ g k) (cutArgs (f k) (g k) a)) := by
  have hb : (initBMasks (cutArgs (f k) (g k) a).bMask (cutArgs (f k) (g k) a).bTestMask) = ((initBMasks bm tm).1, (initBMasks bm tm).2) := by
    simp only [cutArgs]; rw [hm.b, hm.test]
  have h1 : ∀ k, (initBMasks a.bMask a.bTestMask).1.map (· ∘ g k) = (initBMasks bm tm).1 := fun k => (masks_cut hm k).1
  have hxm : (cutArgs (f k) (g k) a).xMask = xm := hm.x k
  have htau : ∀ k, A'.adj (applyMask (initBMasks a.bMask a.bTestMask).1 fun _ => 1) ∘ f k = A.adj (applyMask (initBMasks bm tm).1 fun _ => 1) := by
    intro k
    rw [hA.adj, applyMask_cut, h1]
    rfl
  have hz : (∃ n, A'.adj (applyMask (initBMasks a.bMask a.bTestMask).1 fun _ => 1) n = 0) = ∃ j, A.adj (applyMask (initBMasks bm tm).1 fun _ => 1) j = 0 := by
    refine propext ⟨?_, ?_⟩
    · rintro ⟨n, hn⟩
      obtain ⟨k, j, rfl⟩ := hc.voxel n
      exact ⟨j, by rw [← htau k]; exact hn⟩
    · rintro ⟨j, hj⟩
      exact ⟨f k j, by rw [← htau k] at hj; exact hj⟩
  have hbg : isArrayBg ((S.term.slice (g k)).assignData (some (.array (b ∘ g k))) (.scalar 1)).background =
      isArrayBg (S.term.assignData (some (.array b)) (.scalar 1)).background := by
    unfold DataTerm.assignData DataTerm.slice isArrayBg
    rcases S.term.background with _ | (_ | _) <;> rfl
  unfold mlem volume
  simp only [hb, hxm, hz, show (cutSolver (g k) S rs).term = S.term.slice (g k) from rfl, show (cutSolver (g k) S rs).termTest = S.termTest.slice (g k) from rfl, hbg]
  by_cases c1 : ∃ j, A.adj (applyMask (initBMasks bm tm).1 fun _ => 1) j = 0
  · simp only [if_pos c1]
    rfl
  by_cases c2 : isArrayBg (S.term.assignData (some (.array b)) (.scalar 1)).background
  · simp only [if_neg c1, if_pos c2]
    rfl
  · simp only [if_neg c1, if_neg c2]
    have ht' := terms_cut hm k S.term S.termTest b (.scalar 1) (.scalar 1)
    simp only [Bind.bind, Except.bind, Except.map]
    simp only [show (Attr.scalar 1 : Attr I).slice (g k) = .scalar 1 from rfl] at ht'
    revert ht'
    rcases testTerm (initBMasks bm tm).2 ((S.term.slice (g k)).assignData (some (.array (b ∘ g k))) (.scalar 1)) (S.termTest.slice (g k))
      (b ∘ g k) (.scalar 1) with e1 | t1 <;>
    rcases testTerm (initBMasks a.bMask a.bTestMask).2 (S.term.assignData (some (.array b)) (.scalar 1)) S.termTest b (.scalar 1) with e2 | t2 <;>
    intro ht' <;> simp only [Except.map, reduceCtorEq, Except.error.injEq] at ht'
    · rw [ht']
    · simp only [Except.ok.injEq]
      refine forRange_rel (R := fun (s : XState N) (s' : XState ν) => s.x ∘ f k = s'.x) ?_ ?_
      · show applyMask a.xMask (a.x0.getD fun _ => 1) ∘ f k = applyMask xm ((cutArgs (f k) (g k) a).x0.getD fun _ => 1)
        rw [applyMask_cut, hm.x]
        congr 1
        dsimp only [cutArgs]
        cases a.x0 <;> rfl
      · rintro n ⟨x, i⟩ ⟨x', i'⟩ hx
        dsimp only at hx
        subst hx
        simp only [show (cutSolver (g k) S rs).tolerance = none from htol, htol]
        unfold mlemStep
        dsimp only
        refine ⟨?_, rfl⟩
        have hbk : ∀ p : Arr I, (S.term.assignData (some (.array b)) (.scalar 1)).addBackground p ∘ g k =
            ((S.term.slice (g k)).assignData (some (.array (b ∘ g k))) (.scalar 1)).addBackground (p ∘ g k) := by
          intro p
          funext i
          unfold DataTerm.assignData DataTerm.slice DataTerm.addBackground
          rcases S.term.background with _ | (_ | _) <;> rfl
        have hu : (A'.adj fun i => b i / max ((S.term.assignData (some (.array b)) (.scalar 1)).addBackground (A'.fwd x) i) eps) ∘ f k =
            A.adj fun i => (b ∘ g k) i / max (((S.term.slice (g k)).assignData (some (.array (b ∘ g k))) (.scalar 1)).addBackground (A.fwd (x ∘ f k)) i) eps := by
          rw [hA.adj, ← hA.fwd, ← hbk]
          rfl
        rw [clipMask_cut (f k) (g k), ← hu, ← htau k]
        rfl

/-! ## A stack of slices -/

/-- Slice `k` of a stack. -/
def sliceOf (k : κ) (x : Arr (ν × κ)) : Arr ν := fun j => x (j, k)

/-- The operator that treats every slice of a stack as `A` does. -/
def stackOp (A : Operator ν ι) : Operator (ν × κ) (ι × κ) where
  fwd x n := A.fwd (sliceOf n.2 x) n.1
  adj y n := A.adj (sliceOf n.2 y) n.1
  abs := A.abs.map fun p => (fun x n => p.1 (sliceOf n.2 x) n.1, fun y n => p.2 (sliceOf n.2 y) n.1)
  aliasBack := A.aliasBack.map fun p x n => p (sliceOf n.2 x) n.1

/-- The regularizer that treats every slice of a stack as `r` does. -/
def stackReg (r : Reg ν Q) : Reg (ν × κ) (κ → Q) where
  sigmaTau t n := r.sigmaTau (sliceOf n.2 t) n.1
  initDual _ := r.initDual
  updateDual q x k := r.updateDual (q k) (sliceOf k x)
  proxDual q k := r.proxDual (q k)
  updatePrimal q := (fun n => (r.updatePrimal (q n.2)).1 n.1, fun k => (r.updatePrimal (q k)).2)
  proxPrimal x t n := r.proxPrimal (sliceOf n.2 x) (sliceOf n.2 t) n.1

omit [Fintype ν] [Fintype ι] in
/-- The operator of a stack is the block-diagonal matrix. -/
theorem C272_matrix [Fintype κ] [Fintype ν] [Fintype ι] (M : ι → ν → ℝ) :
    (stackOp (matrixOp M) : Operator (ν × κ) (ι × κ)) = matrixOp fun n m => if n.2 = m.2 then M n.1 m.1 else 0 := by
  have h : ∀ (w : ι → ν → ℝ) (x : Arr (ν × κ)) (n : ι × κ), ∑ j, w n.1 j * sliceOf n.2 x j = ∑ m : ν × κ, (if n.2 = m.2 then w n.1 m.1 else 0) * x m := by
    intro w x n
    rw [Fintype.sum_prod_type]
    simp [sliceOf, ite_mul]
  have h' : ∀ (w : ι → ν → ℝ) (y : Arr (ι × κ)) (n : ν × κ), ∑ i, w i n.1 * sliceOf n.2 y i = ∑ m : ι × κ, (if m.2 = n.2 then w m.1 n.1 else 0) * y m := by
    intro w x n
    rw [Fintype.sum_prod_type]
    simp [sliceOf, ite_mul]
  have e : ∀ (p : Prop) [Decidable p] (v : ℝ), |if p then v else 0| = if p then |v| else 0 := by intro p _ v; split_ifs <;> simp
  unfold stackOp matrixOp
  simp only [h, h', e, Option.map_some, Option.map_none]
  congr 3
  · funext x n; exact h (fun i j => |M i j|) x n
  · funext x n; exact h' (fun i j => |M i j|) x n

private theorem cover_stack : Cover (fun (k : κ) (j : ν) => (j, k)) fun k (i : ι) => (i, k) := ⟨fun n => ⟨n.2, n.1, rfl⟩, fun n => ⟨n.2, n.1, rfl⟩⟩

omit [Fintype ν] [Fintype ι] in
private theorem opCut_stack (A : Operator ν ι) : OpCut (fun (k : κ) (j : ν) => (j, k)) (fun k i => (i, k)) (stackOp A) A where
  fwd _ _ := rfl
  adj _ _ := rfl
  abs := by
    unfold stackOp
    cases A.abs with
    | none => exact .inl ⟨rfl, rfl⟩
    | some p => exact .inr ⟨_, p, rfl, rfl, fun _ _ => rfl, fun _ _ => rfl⟩
  back := by
    unfold stackOp
    cases A.aliasBack with
    | none => exact .inl ⟨rfl, rfl⟩
    | some p => exact .inr ⟨_, p, rfl, rfl, fun _ _ => rfl⟩

omit [Fintype ν] in
private theorem regCut_stack (rs : List (Reg ν Q)) :
    List.Forall₂ (RegCut (fun (k : κ) (j : ν) => (j, k)) fun k (q : κ → Q) => q k) (rs.map stackReg) rs := by
  induction rs with
  | nil => exact .nil
  | cons r rs ih => exact .cons ⟨fun _ _ => rfl, fun _ => rfl, fun _ _ _ => rfl, fun _ _ => rfl, fun _ _ => rfl, fun _ _ => rfl, fun _ _ _ => rfl⟩ ih

/-- C272: with one geometry for all slices (and the same masks), reconstructing the stack and taking slice `k` is reconstructing slice `k` alone: SIRT, with any
data term, start, limits, and regularizers acting in the slices. -/
theorem C272_sirt [Fintype κ] [Nonempty κ] (A : Operator ν ι) {S : Solver (ν × κ) (ι × κ) (κ → Q)} {rs : List (Reg ν Q)} (hS : S.regs = rs.map stackReg)
    (htol : S.tolerance = none) {a : Args (ν × κ) (ι × κ)} {xm : Option (Arr ν)} {bm tm : Option (Arr ι)}
    (hm : SameMasks (fun (k : κ) j => (j, k)) (fun k i => (i, k)) a xm bm tm) (b : Arr (ι × κ)) (k : κ) :
    (volume (sirt S (stackOp A) b a)).map (sliceOf k) =
      volume (sirt (cutSolver (fun i => (i, k)) S rs) A (sliceOf k b) (cutArgs (fun j => (j, k)) (fun i => (i, k)) a)) :=
  C273_sirt_parts cover_stack (opCut_stack A) (by rw [hS]; exact regCut_stack rs) htol hm b k

/-- C272 for PDHG (preconditioned; data terms acting pixel by pixel). -/
theorem C272_pdhg [Fintype κ] [Nonempty κ] (A : Operator ν ι) (habs : A.abs ≠ none) {S : Solver (ν × κ) (ι × κ) (κ → Q)} (hel : S.term.Elementwise)
    {rs : List (Reg ν Q)} (hS : S.regs = rs.map stackReg) (htol : S.tolerance = none) {a : Args (ν × κ) (ι × κ)} {xm : Option (Arr ν)}
    {bm tm : Option (Arr ι)} (hm : SameMasks (fun (k : κ) j => (j, k)) (fun k i => (i, k)) a xm bm tm) (b rnd' : Arr (ι × κ)) (rnd : Arr ι) (k : κ) :
    (volume (pdhg S (stackOp A) b a true rnd')).map (sliceOf k) =
      volume (pdhg (cutSolver (fun i => (i, k)) S rs) A (sliceOf k b) (cutArgs (fun j => (j, k)) (fun i => (i, k)) a) true rnd) :=
  C273_pdhg_parts cover_stack (opCut_stack A) habs hel (by rw [hS]; exact regCut_stack rs) htol hm b rnd' rnd k

/-- C272 for FISTA (preconditioned). -/
theorem C272_fista [Fintype κ] [Nonempty κ] (A : Operator ν ι) (habs : A.abs ≠ none) {S : Solver (ν × κ) (ι × κ) (κ → Q)} {rs : List (Reg ν Q)}
    (hS : S.regs = rs.map stackReg) (htol : S.tolerance = none) {a : Args (ν × κ) (ι × κ)} {xm : Option (Arr ν)} {bm tm : Option (Arr ι)}
    (hm : SameMasks (fun (k : κ) j => (j, k)) (fun k i => (i, k)) a xm bm tm) (b rnd' : Arr (ι × κ)) (rnd : Arr ι) (k : κ) :
    (volume (fista S (stackOp A) b a true rnd')).map (sliceOf k) =
      volume (fista (cutSolver (fun i => (i, k)) S rs) A (sliceOf k b) (cutArgs (fun j => (j, k)) (fun i => (i, k)) a) true rnd) :=
  C273_fista_parts cover_stack (opCut_stack A) habs (by rw [hS]; exact regCut_stack rs) htol hm b rnd' rnd k

/-- C272 for MLEM. -/
theorem C272_mlem [Fintype κ] [Nonempty κ] (A : Operator ν ι) {S : Solver (ν × κ) (ι × κ) (κ → Q)} {rs : List (Reg ν Q)} (htol : S.tolerance = none)
    {a : Args (ν × κ) (ι × κ)} {xm : Option (Arr ν)} {bm tm : Option (Arr ι)} (hm : SameMasks (fun (k : κ) j => (j, k)) (fun k i => (i, k)) a xm bm tm)
    (b : Arr (ι × κ)) (k : κ) :
    (volume (mlem S (stackOp A) b a)).map (sliceOf k) =
      volume (mlem (cutSolver (fun i => (i, k)) S rs) A (sliceOf k b) (cutArgs (fun j => (j, k)) (fun i => (i, k)) a)) :=
  C273_mlem_parts cover_stack (opCut_stack A) htol hm b k

/-- Non-vacuity: without masks the hypothesis on the masks holds. -/
example (a : Args (ν × κ) (ι × κ)) (h1 : a.xMask = none) (h2 : a.bMask = none) (h3 : a.bTestMask = none) :
    SameMasks (fun (k : κ) j => (j, k)) (fun k i => (i, k)) a none none none := ⟨by simp [h1], by simp [h2], by simp [h3]⟩

/-- Non-vacuity: a mask that is the same in every slice. -/
example (a : Args (ν × κ) (ι × κ)) (m : Arr ι) (h1 : a.xMask = none) (h2 : a.bMask = some fun n => m n.1) (h3 : a.bTestMask = none) :
    SameMasks (fun (k : κ) j => (j, k)) (fun k i => (i, k)) a none (some m) none := ⟨by simp [h1], by intro k; rw [h2]; rfl, by simp [h3]⟩

/-! ## Relabelling of voxels and pixels -/

/-- The operator with voxels and pixels numbered otherwise. -/
def relabelOp (f : ν ≃ N) (g : ι ≃ I) (A : Operator N I) : Operator ν ι where
  fwd x := A.fwd (x ∘ f.symm) ∘ g
  adj y := A.adj (y ∘ g.symm) ∘ f
  abs := A.abs.map fun p => (fun x => p.1 (x ∘ f.symm) ∘ g, fun y => p.2 (y ∘ g.symm) ∘ f)
  aliasBack := A.aliasBack.map fun p x => p (x ∘ f.symm) ∘ g

/-- The regularizer with voxels numbered otherwise. -/
def relabelReg (f : ν ≃ N) (r : Reg N Q) : Reg ν Q where
  sigmaTau t := r.sigmaTau (t ∘ f.symm) ∘ f
  initDual := r.initDual
  updateDual q x := r.updateDual q (x ∘ f.symm)
  proxDual := r.proxDual
  updatePrimal q := ((r.updatePrimal q).1 ∘ f, (r.updatePrimal q).2)
  proxPrimal x t := r.proxPrimal (x ∘ f.symm) (t ∘ f.symm) ∘ f

/-- For a matrix this is the matrix with rows and columns in another order. -/
theorem C273_matrix (f : ν ≃ N) (g : ι ≃ I) (M : I → N → ℝ) : relabelOp f g (matrixOp M) = matrixOp fun i j => M (g i) (f j) := by
  have h : ∀ (w : N → ℝ) (x : Arr ν), ∑ j, w j * (x ∘ f.symm) j = ∑ j, w (f j) * x j := fun w x => by
    rw [← f.sum_comp]; simp
  have h' : ∀ (w : I → ℝ) (x : Arr ι), ∑ j, w j * (x ∘ g.symm) j = ∑ j, w (g j) * x j := fun w x => by
    rw [← g.sum_comp]; simp
  unfold relabelOp matrixOp
  simp only [h, h', Option.map_some, Option.map_none]
  rfl

private theorem comp_symm {X Y : Type} (f : X ≃ Y) (x : Arr Y) : (x ∘ f) ∘ f.symm = x := by funext n; simp

private theorem cover_relabel (f : ν ≃ N) (g : ι ≃ I) : Cover (fun (_ : Unit) => f) fun _ => g :=
  ⟨fun n => ⟨(), f.symm n, by simp⟩, fun n => ⟨(), g.symm n, by simp⟩⟩

omit [Fintype N] [Fintype I] [Fintype ν] [Fintype ι] in
private theorem opCut_relabel (f : ν ≃ N) (g : ι ≃ I) (A : Operator N I) : OpCut (fun (_ : Unit) => f) (fun _ => g) A (relabelOp f g A) where
  fwd _ x := by simp only [relabelOp, comp_symm]
  adj _ x := by simp only [relabelOp, comp_symm]
  abs := by
    unfold relabelOp
    cases A.abs with
    | none => exact .inl ⟨rfl, rfl⟩
    | some p => exact .inr ⟨p, _, rfl, rfl, fun _ x => by simp only [comp_symm], fun _ x => by simp only [comp_symm]⟩
  back := by
    unfold relabelOp
    cases A.aliasBack with
    | none => exact .inl ⟨rfl, rfl⟩
    | some p => exact .inr ⟨p, _, rfl, rfl, fun _ x => by simp only [comp_symm]⟩

omit [Fintype N] [Fintype ν] in
private theorem regCut_relabel (f : ν ≃ N) (rs : List (Reg N Q)) : List.Forall₂ (RegCut (fun (_ : Unit) => f) fun _ q => q) rs (rs.map (relabelReg f)) := by
  induction rs with
  | nil => exact .nil
  | cons r rs ih =>
    exact .cons ⟨fun _ t => by simp only [relabelReg, comp_symm], fun _ => rfl, fun _ _ x => by simp only [relabelReg, comp_symm], fun _ _ => rfl, fun _ _ => rfl, fun _ _ => rfl,
      fun _ x t => by simp only [relabelReg, comp_symm]⟩ ih

omit [Fintype N] [Fintype I] [Fintype ν] [Fintype ι] in
private theorem sameMasks_relabel (f : ν ≃ N) (g : ι ≃ I) (a : Args N I) :
    SameMasks (fun (_ : Unit) => f) (fun _ => g) a (cutArgs f g a).xMask (cutArgs f g a).bMask (cutArgs f g a).bTestMask := ⟨fun _ => rfl, fun _ => rfl, fun _ => rfl⟩

/-- C273: numbering voxels and pixels otherwise (in the operator, the data, the start, the masks, the limits, the attributes of the data term and the regularizers)
only renumbers the result of SIRT. -/
theorem C273_sirt (f : ν ≃ N) (g : ι ≃ I) (S : Solver N I Q) (htol : S.tolerance = none) (A : Operator N I) (b : Arr I) (a : Args N I) :
    (volume (sirt S A b a)).map (· ∘ f) = volume (sirt (cutSolver g S (S.regs.map (relabelReg f))) (relabelOp f g A) (b ∘ g) (cutArgs f g a)) :=
  C273_sirt_parts (cover_relabel f g) (opCut_relabel f g A) (regCut_relabel f S.regs) htol (sameMasks_relabel f g a) b ()

/-- C273 for PDHG (preconditioned; data terms acting pixel by pixel). -/
theorem C273_pdhg (f : ν ≃ N) (g : ι ≃ I) (S : Solver N I Q) (hel : S.term.Elementwise) (htol : S.tolerance = none) (A : Operator N I) (habs : A.abs ≠ none)
    (b rnd' : Arr I) (rnd : Arr ι) (a : Args N I) :
    (volume (pdhg S A b a true rnd')).map (· ∘ f) =
      volume (pdhg (cutSolver g S (S.regs.map (relabelReg f))) (relabelOp f g A) (b ∘ g) (cutArgs f g a) true rnd) :=
  C273_pdhg_parts (cover_relabel f g) (opCut_relabel f g A) (by simpa [relabelOp] using habs) hel (regCut_relabel f S.regs) htol (sameMasks_relabel f g a) b rnd' rnd ()

/-- C273 for FISTA (preconditioned). -/
theorem C273_fista (f : ν ≃ N) (g : ι ≃ I) (S : Solver N I Q) (htol : S.tolerance = none) (A : Operator N I) (habs : A.abs ≠ none)
    (b rnd' : Arr I) (rnd : Arr ι) (a : Args N I) :
    (volume (fista S A b a true rnd')).map (· ∘ f) =
      volume (fista (cutSolver g S (S.regs.map (relabelReg f))) (relabelOp f g A) (b ∘ g) (cutArgs f g a) true rnd) :=
  C273_fista_parts (cover_relabel f g) (opCut_relabel f g A) (by simpa [relabelOp] using habs) (regCut_relabel f S.regs) htol (sameMasks_relabel f g a) b rnd' rnd ()

/-- C273 for MLEM. -/
theorem C273_mlem (f : ν ≃ N) (g : ι ≃ I) (S : Solver N I Q) (htol : S.tolerance = none) (A : Operator N I) (b : Arr I) (a : Args N I) :
    (volume (mlem S A b a)).map (· ∘ f) = volume (mlem (cutSolver g S (S.regs.map (relabelReg f))) (relabelOp f g A) (b ∘ g) (cutArgs f g a)) :=
  C273_mlem_parts (cover_relabel f g) (opCut_relabel f g A) htol (sameMasks_relabel f g a) b ()

end Verif
