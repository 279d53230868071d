import Verif.Props.PdhgRegs
import Mathlib.Analysis.Convex.Continuous

/-! # C141 without an existence hypothesis, concrete runs, and C142: the default total variation -/

namespace Verif
open Classical DataTerm Finset Filter Topology Verif.Spec

variable {ν ι δ : Type} [Fintype ν] [Fintype ι] [Fintype δ]

theorem pixelFunctional_dom_univ {kind : Kind ι} (hk : ConvexKind kind) (hkl : kind ≠ .kl) (b : ℝ) (i : ι) :
    (pixelFunctional kind b i).dom = Set.univ := by
  cases kind with
  | kl => exact absurd rfl hkl
  | l12 _ => exact hk.elim
  | l1b _ => exact hk.elim
  | _ => rfl

private theorem opsum_cont (f : ι → Arr ν → ℝ) (h : ∀ i, Continuous (f i)) : Continuous fun x => ∑ i, f i x :=
  continuous_finset_sum _ fun i _ => h i

private theorem lin_cont {K : Arr ν → Arr δ} (h : IsLinear K) : Continuous K := by
  let L : (ν → ℝ) →ₗ[ℝ] (δ → ℝ) :=
    { toFun := K
      map_add' := fun x y => by
        have := h 1 1 x y
        simp only [one_mul] at this
        exact this
      map_smul' := fun c x => by
        have := h c 0 x x
        simp only [zero_mul, add_zero] at this
        exact this }
  exact L.continuous_of_finiteDimensional

private theorem convex_cont {β : Type} [Fintype β] {H : Arr β → ℝ} (h : ConvexOn ℝ Set.univ H) : Continuous H :=
  h.locallyLipschitz.continuous

private theorem objective_cont {S : Solver ν ι (Arr δ)} {M : ι → ν → ℝ} {a : Args ν ι} {b : Arr ι} {gs : List (PReg ν δ)}
    (hk : ConvexKind S.term.kind) (hkl : S.term.kind ≠ .kl) (hg : ∀ g ∈ gs, g.Ok) :
    Continuous (objective S M a b (gs.map (·.pen))) := by
  unfold objective
  refine Continuous.add ?_ ?_
  · refine opsum_cont _ fun i => Continuous.mul continuous_const ?_
    have hc := pixelFunctional_convex hk (b i) i
    rw [pixelFunctional_dom_univ hk hkl] at hc
    have hc' : Continuous (pixelFunctional S.term.kind (b i) i).val := hc.locallyLipschitz.continuous
    refine hc'.comp ?_
    unfold addBackground
    cases S.term.background with
    | none => simp only; fun_prop
    | some bg => simp only; fun_prop
  · induction gs with
    | nil => simp only [List.map_nil, List.sum_nil]; exact continuous_const
    | cons g gs ih =>
      simp only [List.map_cons, List.sum_cons]
      refine Continuous.add ?_ (ih fun g' hg' => hg g' (by simp [hg']))
      have h0 := hg g (by simp)
      exact (convex_cont h0.convex).comp (lin_cont h0.lin)

/-- Existence of a reconstruction when both limits are given and the data term is finite everywhere. -/
theorem solution_exists {S : Solver ν ι (Arr δ)} {M : ι → ν → ℝ} {a : Args ν ι} {b : Arr ι} {gs : List (PReg ν δ)}
    (hk : ConvexKind S.term.kind) (hkl : S.term.kind ≠ .kl) (hg : ∀ g ∈ gs, g.Ok)
    (hlo : a.lower.isSome) (hup : a.upper.isSome) (hne : ∃ z, Admissible a z) :
    ∃ x, IsSolution S M a b (gs.map (·.pen)) x := by
  obtain ⟨l, hl⟩ := Option.isSome_iff_exists.1 hlo
  obtain ⟨u, hu⟩ := Option.isSome_iff_exists.1 hup
  have hfeas : ∀ x, Feasible S M a b x ↔ Admissible a x := fun x =>
    ⟨fun h => h.1, fun h => ⟨h, fun i _ => by rw [pixelFunctional_dom_univ hk hkl]; trivial⟩⟩
  have hclosed : IsClosed {x : Arr ν | Admissible a x} := by
    have e : {x : Arr ν | Admissible a x} =
        (⋂ j, {x : Arr ν | l.get j ≤ x j}) ∩ (⋂ j, {x : Arr ν | x j ≤ u.get j}) ∩
          ⋂ j, {x : Arr ν | ∀ m, a.xMask = some m → x j * m j = x j} := by
      ext x
      simp only [Admissible, WithinLimits, hl, hu, Option.some.injEq, forall_eq', Set.mem_setOf_eq, Set.mem_inter_iff,
        Set.mem_iInter]
      refine and_congr_right fun _ => ?_
      constructor
      · intro h j m hm; exact h m hm j
      · intro h m hm j; exact h j m hm
    rw [e]
    refine ((isClosed_iInter fun j => isClosed_le continuous_const (continuous_apply j)).inter
      (isClosed_iInter fun j => isClosed_le (continuous_apply j) continuous_const)).inter (isClosed_iInter fun j => ?_)
    cases hm : a.xMask with
    | none => simp
    | some m =>
      simp only [Option.some.injEq, forall_eq']
      exact isClosed_eq (by fun_prop) (continuous_apply j)
  have hcomp : IsCompact {x : Arr ν | Admissible a x} := by
    refine (isCompact_Icc (a := fun j => l.get j) (b := fun j => u.get j)).of_isClosed_subset hclosed ?_
    intro x hx
    exact ⟨fun j => hx.1.1 l hl j, fun j => hx.1.2 u hu j⟩
  obtain ⟨x, hx, hmin⟩ := hcomp.exists_isMinOn hne (objective_cont (b := b) (M := M) hk hkl hg).continuousOn
  exact ⟨x, (hfeas x).2 hx, fun z hz => hmin ((hfeas z).1 hz)⟩

/-- C141, both limits given: for every data term that is finite everywhere (l2, weighted l2, l2-ball, Huber, l1) the volumes
returned by PDHG after `N` iterations converge to a solution of the reconstruction problem; no existence hypothesis. -/
theorem C141_pdhg_converges_limits {M : ι → ν → ℝ} {S : Solver ν ι (Arr δ)} {b : Arr ι} {a : Args ν ι} {rnd : Arr ι}
    {gs : List (PReg ν δ)} (hregs : S.regs = gs.map (·.reg)) (hg : ∀ g ∈ gs, g.Ok)
    (hk : ConvexKind S.term.kind) (hkl : S.term.kind ≠ .kl) (hT : S.tolerance = none)
    (hω : 0 < S.relaxation) (hω1 : S.relaxation < 1)
    (hs : SensibleScale M a) (htw : ∀ i, trainWeight a i = 0 ∨ trainWeight a i = 1)
    (hcols : ∀ j, (∑ i, |M i j|) + (gs.map fun g => g.c j).sum ≤ 100000)
    (hlo : a.lower.isSome) (hup : a.upper.isSome) (hlim : SensibleLimits a)
    {xs : ℕ → Arr ν} (hrun : ∀ N, ∃ info S', pdhg S (matrixOp M) b { a with iterations := N } true rnd = .ok (xs N, info, S')) :
    ∃ x, IsSolution S M a b (gs.map (·.pen)) x ∧ Tendsto xs atTop (𝓝 x) := by
  have hne : ∃ z, Admissible a z := by
    refine ⟨clipMask a fun _ => 0, clipMask_within hlim _, fun m hm j => ?_⟩
    rcases hlim.binary m hm j with h | h
    · rw [h, clipMask_zero a _ m hm j h, zero_mul]
    · rw [h, mul_one]
  obtain ⟨z, hz⟩ := hne
  exact C141_pdhg_converges hregs hg hk hT hω hω1 hs htw hcols (solution_exists hk hkl hg hlo hup ⟨z, hz⟩)
    ⟨z, hz, fun i _ => by rw [pixelFunctional_dom_univ hk hkl, interior_univ]; trivial⟩ hrun

/-- C141, without regularizers: constrained convex fits. -/
theorem C141_pdhg_converges_plain {M : ι → ν → ℝ} {S : Solver ν ι (Arr Unit)} {b : Arr ι} {a : Args ν ι} {rnd : Arr ι}
    (hregs : S.regs = []) (hk : ConvexKind S.term.kind) (hT : S.tolerance = none)
    (hω : 0 < S.relaxation) (hω1 : S.relaxation < 1)
    (hs : SensibleScale M a) (htw : ∀ i, trainWeight a i = 0 ∨ trainWeight a i = 1)
    (hsol : ∃ x, IsSolution (δ := Unit) S M a b [] x)
    (hint : ∃ x, Admissible a x ∧ ∀ i, trainWeight a i ≠ 0 →
      S.term.addBackground (fun i => ∑ j, M i j * x j) i ∈ interior (pixelFunctional S.term.kind (b i) i).dom)
    {xs : ℕ → Arr ν} (hrun : ∀ N, ∃ info S', pdhg S (matrixOp M) b { a with iterations := N } true rnd = .ok (xs N, info, S')) :
    ∃ x, IsSolution (δ := Unit) S M a b [] x ∧ Tendsto xs atTop (𝓝 x) :=
  C141_pdhg_converges (gs := []) hregs (by simp) hk hT hω hω1 hs htw (by simpa using hs.cols) hsol hint hrun

/-- The scaling with regularizers that publish non-negative constants is finite for a non-zero matrix. -/
theorem scaling_regs_ok {M : ι → ν → ℝ} (hM : ∃ i j, M i j ≠ 0) (S : Solver ν ι (Arr δ)) (a : Args ν ι)
    (ha : a.xMask = none ∧ a.bMask = none ∧ a.bTestMask = none) (hr : ∀ r ∈ S.regs, ∀ t j, 0 ≤ r.sigmaTau t j) (rnd : Arr ι) :
    ∃ p, pdhgScaling S (matrixOp M) a true rnd = .ok p := by
  obtain ⟨i, j, hij⟩ := hM
  have hfold : ∀ (rs : List (Reg ν (Arr δ))), (∀ r ∈ rs, ∀ t j, 0 ≤ r.sigmaTau t j) → ∀ t : Arr ν,
      t j ≤ rs.foldl (fun t r => fun j => t j + r.sigmaTau t j) t j := by
    intro rs
    induction rs with
    | nil => intro _ t; exact le_refl _
    | cons r rs ih =>
      intro h t
      simp only [List.foldl_cons]
      have h1 := ih (fun r hr => h r (by simp [hr])) (fun j => t j + r.sigmaTau t j)
      have h2 := h r (by simp) t j
      have h3 : t j ≤ t j + r.sigmaTau t j := by linarith
      exact h3.trans h1
  simp only [pdhgScaling, matrixOp, if_true, ha.1, ha.2.1, ha.2.2, initBMasks, diagonalScaling, applyMask, mul_one]
  rw [if_neg, if_neg]
  · exact ⟨_, rfl⟩
  · have h := le_npMax (fun i => abs (∑ j, |M i j|)) i
    have h2 : |M i j| ≤ ∑ j, |M i j| := single_le_sum (f := fun j => |M i j|) (fun i _ => abs_nonneg _) (mem_univ j)
    have h3 := le_abs_self (∑ j, |M i j|)
    have h4 := abs_pos.2 hij
    exact ne_of_gt (by linarith)
  · refine ne_of_gt (lt_of_lt_of_le ?_ ((hfold S.regs hr _).trans (le_npMax _ j)))
    have h2 : |M i j| ≤ ∑ i, |M i j| := single_le_sum (f := fun i => |M i j|) (fun i _ => abs_nonneg _) (mem_univ i)
    have h3 := le_abs_self (∑ i, |M i j|)
    have h4 := abs_pos.2 hij
    show 0 < abs (∑ i, |M i j|)
    linarith

/-! ## Two pixels -/

/-- Images of two pixels. -/
abbrev Two := Idx (fun _ : Fin 1 => 2)

private noncomputable def twoM : Two → Two → ℝ := fun i j => if i = j then 1 else 0

/-- One derivative per pixel: the groups are the pixels. -/
private def twoGrp : Fin 1 × Two → ℕ := fun q => q.2 0

private theorem twoGrp_ok : ∀ q q' : Fin 1 × Two, twoGrp q = twoGrp q' ↔ q.2 = q'.2 := by
  intro q q'
  constructor
  · intro h
    funext k
    have : k = 0 := Subsingleton.elim _ _
    subst this
    exact Fin.ext h
  · intro h; simp [twoGrp, h]

private noncomputable def twoNorm : DataTerm (Fin 1 × Two) := .new (.l12 twoGrp) none

/-- PDHG with its default relaxation, l2 data term and a TV regularizer of weight 1. -/
private noncomputable def twoS (mode : PadMode) : Solver Two Two (Arr (Fin 1 × Two)) :=
  ⟨95 / 100, none, [(gradReg mode (fun _ : Fin 1 => 0) (.scalar 1) none twoNorm).toReg], .new .l2 none, .new .l2 none, none⟩

private noncomputable def twoB : Arr Two := fun p => if (p 0 : ℕ) = 0 then 0 else 10

private theorem two_scale (a : Args Two Two) (ha : a.xMask = none ∧ a.bMask = none ∧ a.bTestMask = none) :
    SensibleScale twoM a where
  bMask := by simp [ha]
  test := by simp [ha]
  xMask := by simp [ha]
  rows := by intro i; simp [twoM, abs_ite]
  cols := by intro i; simp [twoM, abs_ite]

private theorem two_runs (mode : PadMode) (a : Args Two Two) (ha : a.xMask = none ∧ a.bMask = none ∧ a.bTestMask = none) :
    ∃ xs : ℕ → Arr Two, ∀ N, ∃ info S',
      pdhg (twoS mode) (matrixOp twoM) twoB { a with iterations := N } true (fun _ => 1) = .ok (xs N, info, S') := by
  obtain ⟨p, hp⟩ := scaling_regs_ok (M := twoM) ⟨fun _ => 0, fun _ => 0, by simp [twoM]⟩ (twoS mode) a ha (by
    intro r hr t j
    simp only [twoS, List.mem_singleton] at hr
    subst hr
    simp [RegState.toReg, gradReg, applyMask, twoNorm, DataTerm.new, Kind.isL1]) fun _ => 1
  have h : ∀ N, ∃ r, pdhg (twoS mode) (matrixOp twoM) twoB { a with iterations := N } true (fun _ => 1) = .ok r := fun N =>
    pdhg_runs (p := p) hp ha.2.2
  choose r hr using h
  exact ⟨fun N => (r N).1, fun N => ⟨(r N).2.1, (r N).2.2, hr N⟩⟩

/-- Non-vacuity of C141: two pixels between 0 and 20, TV with periodic padding. -/
example : ∃ xs : ℕ → Arr Two, (∀ N, ∃ info S', pdhg (twoS .wrap) (matrixOp twoM) twoB
      { iterations := N, lower := some (.scalar 0), upper := some (.scalar 20) } true (fun _ => 1) = .ok (xs N, info, S')) ∧
    ∃ x, IsSolution (twoS .wrap) twoM { iterations := 0, lower := some (.scalar 0), upper := some (.scalar 20) } twoB
      [tvPenalty .wrap (fun _ : Fin 1 => 0) 1] x ∧ Tendsto xs atTop (𝓝 x) := by
  obtain ⟨xs, hxs⟩ := two_runs .wrap { iterations := 0, lower := some (.scalar 0), upper := some (.scalar 20) } ⟨rfl, rfl, rfl⟩
  refine ⟨xs, hxs, ?_⟩
  have hok : ((gradReg .wrap (fun _ : Fin 1 => (0 : Fin 1)) (.scalar 1) none twoNorm).preg
      (tvPenalty .wrap (fun _ : Fin 1 => 0) 1)).Ok := C141_tv .wrap (by decide) _ 1 one_pos _ twoGrp rfl twoGrp_ok
  refine C141_pdhg_converges_limits (S := twoS .wrap) (gs := [_]) rfl (by simpa using hok) trivial (by simp [twoS, DataTerm.new]) rfl
    (by norm_num [twoS]) (by norm_num [twoS]) (two_scale _ ⟨rfl, rfl, rfl⟩) (fun i => Or.inr (by simp [trainWeight])) ?_ rfl rfl
    ⟨by rintro l u ⟨⟩ ⟨⟩ j; simp [Attr.get], by simp, by simp, by simp⟩ hxs
  intro j
  have : ∑ i, |twoM i j| = 1 := by simp [twoM, abs_ite]
  rw [this]
  simp [RegState.preg, gradReg, applyMask, twoNorm, DataTerm.new, Kind.isL1]
  norm_num

/-! ## C142: the default padding -/

private theorem sum_two (f : Two → ℝ) : ∑ p, f p = f (fun _ => 0) + f fun _ => 1 := by
  let e : Two ≃ Fin 2 := Equiv.funUnique (Fin 1) (Fin 2)
  rw [← Equiv.sum_comp e.symm, Fin.sum_univ_two]
  rfl

private theorem edge_adj_zero (q : Arr (Fin 1 × Two)) : gradientAdjoint .edge (fun _ : Fin 1 => 0) q (fun _ => 0) = 0 := by
  simp only [gradientAdjoint, divergence, padGet, Fin.sum_univ_one]
  have : clampIdx (n := fun _ : Fin 1 => 2) (fun _ => 0) (fun k => -unitAx 0 k) = fun _ => 0 := by
    funext k
    have : k = 0 := Subsingleton.elim _ _
    subst this
    rfl
  rw [this]; ring

/-- With the default padding the first pixel never receives anything from the regularizer. -/
private theorem two_first_pixel {a : Args Two Two} (ha : a = { iterations := a.iterations }) {rnd x info S'}
    (h : pdhg (twoS .edge) (matrixOp twoM) twoB a true rnd = .ok (x, info, S')) : x (fun _ => 0) = 0 := by
  obtain ⟨sigma, tau, tt, -, -, h3⟩ := pdhg_ok h
  have hx := congrArg Prod.fst h3
  dsimp only at hx
  rw [hx]
  refine (forRange_inv (fun s : PDState Two Two (Arr (Fin 1 × Two)) =>
    s.x (fun _ => 0) = 0 ∧ s.xRelax (fun _ => 0) = 0 ∧ s.p (fun _ => 0) = 0) ?_ ?_).1
  · rw [ha]
    exact ⟨rfl, rfl, rfl⟩
  · rintro k s ⟨h1, h2, h4⟩
    have hM : ∀ y : Arr Two, ∑ j, twoM (fun _ => 0) j * y j = y fun _ => 0 := fun y => by simp [twoM]
    have hM' : ∀ y : Arr Two, ∑ i, twoM i (fun _ => 0) * y i = y fun _ => 0 := fun y => by simp [twoM]
    have hp : ((twoS .edge).term.assignData (some (.array twoB)) (.array sigma)).proxDual
        (((twoS .edge).term.assignData (some (.array twoB)) (.array sigma)).updateDual s.p ((matrixOp twoM).fwd s.xRelax))
        (.scalar 1) (fun _ => 0) = 0 := by
      simp only [twoS, DataTerm.new, assignData, proxDual, updateDual, subSigmaData, computeSigmaData, Attr.map₂, Attr.get,
        matrixOp, hM, h2, h4, twoB]
      simp
    have hu : ∀ q p, p (fun _ => 0) = 0 → (addRegUpdates (twoS .edge).regs q ((matrixOp twoM).adj p)).1 (fun _ => 0) = 0 := by
      intro q p hp0
      cases q with
      | nil => simp [twoS, addRegUpdates, matrixOp, hM', hp0]
      | cons q qs =>
        have hr : ((gradReg .edge (fun _ : Fin 1 => (0 : Fin 1)) (.scalar 1) none twoNorm).updatePrimal q).1 (fun _ => 0) = 0 := by
          have hL : (gradReg .edge (fun _ : Fin 1 => (0 : Fin 1)) (.scalar 1) none twoNorm).norm.kind.isL1 = true := rfl
          simp only [RegState.updatePrimal, hL, if_true]
          exact edge_adj_zero q
        cases qs <;>
        · simp only [twoS, addRegUpdates, matrixOp, hM', hp0, RegState.toReg]
          rw [hr, zero_add]
    have hb : (initBMasks a.bMask a.bTestMask).1 = none := by rw [ha]; rfl
    have hc : ∀ v : Arr Two, clipMask a v = v := fun v => by rw [ha]; funext j; simp [clipMask, applyMask, clip1]
    have hm : ∀ p : Arr Two, applyMask none p = p := fun _ => rfl
    have hx' := hu (updateRegDuals (twoS .edge).regs s.q s.xRelax) _ hp
    simp only [pdhgStep, hb, hm, hc]
    refine ⟨?_, ?_, hp⟩
    · rw [hx', h1]; ring
    · rw [hx', h1]; ring

/-- C142. The statement of C141 fails for total variation with its default padding ("edge"): for two pixels, the identity as
operator, l2 data term and all defaults, the problem has a solution, but the returned volumes do not converge to one. -/
theorem C142_default_tv_violated :
    ¬ ∀ (S : Solver Two Two (Arr (Fin 1 × Two))) (M : Two → Two → ℝ) (b : Arr Two) (a : Args Two Two) (rnd : Arr Two)
      (norm : DataTerm (Fin 1 × Two)) (w : ℝ) (xs : ℕ → Arr Two),
      S.regs = [(gradReg .edge (fun _ : Fin 1 => 0) (.scalar w) none norm).toReg] → 0 < w →
      norm = .new (.l12 fun q => (q.2 0 : ℕ)) none → S.term = .new .l2 none → S.tolerance = none → S.relaxation = 95 / 100 →
      a = { iterations := 0 } → (∃ x, IsSolution S M a b [tvPenalty .edge (fun _ : Fin 1 => 0) w] x) →
      (∀ N, ∃ info S', pdhg S (matrixOp M) b { a with iterations := N } true rnd = .ok (xs N, info, S')) →
      ∃ x, IsSolution S M a b [tvPenalty .edge (fun _ : Fin 1 => 0) w] x ∧ Tendsto xs atTop (𝓝 x) := by
  intro H
  obtain ⟨xs, hxs⟩ := two_runs .edge { iterations := 0 } ⟨rfl, rfl, rfl⟩
  have hobj : ∀ x : Arr Two, objective (twoS .edge) twoM { iterations := 0 } twoB [tvPenalty .edge (fun _ : Fin 1 => 0) 1] x =
      x (fun _ => 0) ^ 2 / 2 + (x (fun _ => 1) - 10) ^ 2 / 2 + |x (fun _ => 1) - x fun _ => 0| := by
    intro x
    have hM : ∀ i, ∑ j, twoM i j * x j = x i := fun i => by simp [twoM]
    unfold objective
    have g0 : ∀ i : Fin 1, gradient .edge (fun _ : Fin 1 => (0 : Fin 1)) x (i, fun _ => 0) = x (fun _ => 1) - x fun _ => 0 := by
      intro i
      simp only [gradient, padGet]
      have : clampIdx (n := fun _ : Fin 1 => 2) (fun _ => 0) (unitAx 0) = fun _ => 1 := by
        funext k
        have : k = 0 := Subsingleton.elim _ _
        subst this
        rfl
      rw [this]
    have g1 : ∀ i : Fin 1, gradient .edge (fun _ : Fin 1 => (0 : Fin 1)) x (i, fun _ => 1) = 0 := by
      intro i
      simp only [gradient, padGet]
      have : clampIdx (n := fun _ : Fin 1 => 2) (fun _ => 1) (unitAx 0) = fun _ => 1 := by
        funext k
        have : k = 0 := Subsingleton.elim _ _
        subst this
        rfl
      rw [this, sub_self]
    simp only [twoS, DataTerm.new, addBackground, pixelFunctional, fL2, trainWeight, hM, sum_two, tvPenalty, List.map_cons,
      List.map_nil, List.sum_cons, List.sum_nil, Fin.sum_univ_one, g0, g1, twoB]
    simp [Real.sqrt_sq_eq_abs]
  have hfeas : ∀ x : Arr Two, Feasible (twoS .edge) twoM { iterations := 0 } twoB x := fun x =>
    ⟨⟨⟨by simp, by simp⟩, by simp⟩, fun i _ => trivial⟩
  have hsol : IsSolution (twoS .edge) twoM { iterations := 0 } twoB [tvPenalty .edge (fun _ : Fin 1 => 0) 1]
      (fun p => if (p 0 : ℕ) = 0 then 1 else 9) := by
    refine ⟨hfeas _, fun z _ => ?_⟩
    rw [hobj, hobj]
    have h1 := le_abs_self (z (fun _ => 1) - z fun _ => 0)
    norm_num
    nlinarith [sq_nonneg (z (fun _ => 0) - 1), sq_nonneg (z (fun _ => 1) - 9)]
  obtain ⟨x, hx, hlim⟩ := H (twoS .edge) twoM twoB { iterations := 0 } (fun _ => 1) twoNorm 1 xs rfl one_pos rfl rfl rfl rfl rfl
    ⟨_, hsol⟩ hxs
  have hx0 : x (fun _ => 0) = 0 := by
    have h1 : Tendsto (fun N => xs N fun _ => 0) atTop (𝓝 (x fun _ => 0)) := (continuous_apply _).continuousAt.tendsto.comp hlim
    have h2 : (fun N => xs N fun _ => 0) = fun _ => 0 := by
      funext N
      obtain ⟨info, S', h⟩ := hxs N
      exact two_first_pixel rfl h
    rw [h2] at h1
    exact tendsto_nhds_unique h1 tendsto_const_nhds
  have h1 := hx.2 _ (hfeas fun p => if (p 0 : ℕ) = 0 then 1 else 9)
  rw [hobj, hobj, hx0] at h1
  norm_num at h1
  have h2 := le_abs_self (x fun _ => 1)
  nlinarith [sq_nonneg (x (fun _ => 1) - 9)]

end Verif
