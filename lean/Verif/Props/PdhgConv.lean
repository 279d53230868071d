import Verif.Lemmas.Saddle
import Verif.Lemmas.PixelFunctional
import Verif.Spec.Operators
import Verif.Props.Scaling
import Verif.Props.Operators
import Verif.Props.Regularizers

/-! # C141, C142: convergence of PDHG to a solution of the regularized reconstruction problem -/

namespace Verif
open Classical DataTerm Finset Filter Topology Verif.Spec

variable {ν ι δ : Type} [Fintype ν] [Fintype ι] [Fintype δ]

/-- A regularizer object together with the penalty it stands for. -/
structure PReg (ν δ : Type) where
  reg : Reg ν (Arr δ)
  pen : Penalty ν δ
  scale : Arr δ
  σ : ℝ
  c : Arr ν

/-- Specification: what the object has to do to stand for its penalty in a primal-dual iteration. Its dual variable, times
`scale` (element by element), is the dual variable of the penalty; `σ` and `c` are the step sizes (C14, C26). -/
structure PReg.Ok (g : PReg ν δ) : Prop where
  scalepos : ∀ d, 0 < g.scale d
  σpos : 0 < g.σ
  lin : IsLinear g.pen.K
  adj : IsAdjoint g.pen.K g.pen.Kt
  convex : ConvexOn ℝ Set.univ g.pen.H
  primal : ∀ q, g.reg.updatePrimal q = (g.pen.Kt (fun d => g.scale d * q d), q)
  dual : ∃ R : Arr δ → Arr δ,
    (∀ q x d, g.scale d * g.reg.proxDual (g.reg.updateDual q x) d = R (fun k => g.scale k * q k + g.σ * g.pen.K x k) d) ∧
    ∀ u z, g.pen.H (fun k => (u k - R u k) / g.σ) + ∑ k, R u k * (z k - (u k - R u k) / g.σ) ≤ g.pen.H z
  step : StepContract g.reg (fun x => ∑ k, g.σ * g.pen.K x k ^ 2) g.c

omit [Fintype ν] in
private theorem updateRegDuals_eq (gs : List (PReg ν δ)) (R : Fin gs.length → Arr δ → Arr δ)
    (hs : ∀ k d, 0 < (gs.get k).scale d)
    (hR : ∀ k q x d, (gs.get k).scale d * (gs.get k).reg.proxDual ((gs.get k).reg.updateDual q x) d =
      R k (fun d => (gs.get k).scale d * q d + (gs.get k).σ * (gs.get k).pen.K x d) d) (e : Fin gs.length → Arr δ) (x : Arr ν) :
    updateRegDuals (gs.map (·.reg)) (List.ofFn fun k d => e k d / (gs.get k).scale d) x =
      List.ofFn fun k d => R k (fun d => e k d + (gs.get k).σ * (gs.get k).pen.K x d) d / (gs.get k).scale d := by
  induction gs with
  | nil => simp [updateRegDuals]
  | cons g gs ih =>
    simp only [List.map_cons, List.length_cons, List.ofFn_succ, updateRegDuals]
    congr 1
    · funext d
      have h0 := hs 0 d
      rw [eq_div_iff h0.ne', mul_comm]
      refine (hR 0 (fun d => e 0 d / (List.get (g :: gs) 0).scale d) x d).trans ?_
      congr 1
      funext d
      rw [mul_div_cancel₀ _ (hs 0 d).ne']
    · exact ih (fun k => R k.succ) (fun k => hs k.succ) (fun k q x => hR k.succ q x) fun k => e k.succ

omit [Fintype ν] in
private theorem addRegUpdates_eq (gs : List (PReg ν δ))
    (h : ∀ g ∈ gs, ∀ q, g.reg.updatePrimal q = (g.pen.Kt (fun d => g.scale d * q d), q)) (e : Fin gs.length → Arr δ) (u : Arr ν) :
    addRegUpdates (gs.map (·.reg)) (List.ofFn e) u =
      (fun j => u j + ∑ k, (gs.get k).pen.Kt (fun d => (gs.get k).scale d * e k d) j, List.ofFn e) := by
  induction gs generalizing u with
  | nil => simp [addRegUpdates]
  | cons g gs ih =>
    simp only [List.map_cons, List.length_cons, List.ofFn_succ, addRegUpdates, h g (by simp)]
    rw [ih (fun g hg => h g (by simp [hg]))]
    simp only [Prod.mk.injEq]
    refine ⟨?_, trivial⟩
    funext j
    rw [Fin.sum_univ_succ]
    simp only [List.get_eq_getElem, Fin.val_zero, List.getElem_cons_zero, Fin.val_succ, List.getElem_cons_succ]
    ring

omit [Fintype ν] [Fintype ι] in
private theorem applyMask_bm (a : Args ν ι) (p : Arr ι) :
    applyMask (initBMasks a.bMask a.bTestMask).1 p = fun i => trainWeight a i * p i := by
  unfold applyMask trainWeight initBMasks
  funext i
  cases a.bTestMask <;> cases a.bMask <;> simp <;> ring

private theorem list_sum_get (gs : List (PReg ν δ)) (f : PReg ν δ → ℝ) : (gs.map f).sum = ∑ k : Fin gs.length, f (gs.get k) := by
  rw [← List.sum_ofFn]
  congr 1
  refine List.ext_getElem (by simp) fun k h1 h2 => ?_
  simp

/-- The rows of the stacked problem: data pixels, then the dual elements of each regularizer. -/
abbrev Rows (ι δ : Type) (gs : List (PReg ν δ)) := ι ⊕ (Fin gs.length × δ)

section problem
variable (S : Solver ν ι (Arr δ)) (M : ι → ν → ℝ) (a : Args ν ι) (b : Arr ι) (gs : List (PReg ν δ))

private noncomputable def stK (x : Arr ν) : Arr (Rows ι δ gs) :=
  Sum.elim (fun i => trainWeight a i * ∑ j, M i j * x j) fun q => (gs.get q.1).pen.K x q.2

private noncomputable def stKt (p : Arr (Rows ι δ gs)) : Arr ν := fun j =>
  ∑ i, M i j * (trainWeight a i * p (.inl i)) + ∑ k, (gs.get k).pen.Kt (fun d => p (.inr (k, d))) j

private noncomputable def stF (y : Arr (Rows ι δ gs)) : ℝ :=
  ∑ i, trainWeight a i * ((pixelFunctional S.term.kind (b i) i).shift (optVal S.term.background i)).val (y (.inl i)) +
    ∑ k, (gs.get k).pen.H fun d => y (.inr (k, d))

private def stDom : Set (Arr (Rows ι δ gs)) :=
  {y | ∀ i, trainWeight a i ≠ 0 → y (.inl i) ∈ ((pixelFunctional S.term.kind (b i) i).shift (optVal S.term.background i)).dom}

end problem

private theorem addBackground_opt (t : DataTerm ι) (y : Arr ι) (i : ι) : t.addBackground y i = y i + optVal t.background i := by
  unfold addBackground optVal
  cases t.background <;> simp

private theorem stF_convex {S : Solver ν ι (Arr δ)} {a : Args ν ι} {b : Arr ι} {gs : List (PReg ν δ)}
    (hk : ConvexKind S.term.kind) (hm : ∀ i, 0 ≤ trainWeight a i) (hg : ∀ g ∈ gs, g.Ok) :
    ConvexOn ℝ (stDom S a b gs) (stF S a b gs) := by
  have hc : ∀ i, ConvexOn ℝ ((pixelFunctional S.term.kind (b i) i).shift (optVal S.term.background i)).dom
      ((pixelFunctional S.term.kind (b i) i).shift (optVal S.term.background i)).val := by
    intro i
    have h0 := pixelFunctional_convex hk (b i) i
    refine ⟨fun x hx y hy s t hs ht hst => ?_, fun x hx y hy s t hs ht hst => ?_⟩
    · have := h0.1 hx hy hs ht hst
      simp only [smul_eq_mul] at this
      simp only [Functional.shift, Set.mem_setOf_eq, smul_eq_mul]
      convert this using 1
      linear_combination (optVal S.term.background i) * (1 - hst)
    · have := h0.2 hx hy hs ht hst
      simp only [smul_eq_mul] at this
      simp only [Functional.shift, smul_eq_mul]
      convert this using 2
      linear_combination (optVal S.term.background i) * (1 - hst)
  refine ⟨fun x hx y hy s t hs ht hst i hi => (hc i).1 (hx i hi) (hy i hi) hs ht hst, fun x hx y hy s t hs ht hst => ?_⟩
  unfold stF
  simp only [smul_eq_mul, mul_add, mul_sum]
  have e : ∀ A B C D : ℝ, A + B + (C + D) = (A + C) + (B + D) := fun A B C D => by ring
  rw [e, ← sum_add_distrib, ← sum_add_distrib]
  refine add_le_add (sum_le_sum fun i _ => ?_) (sum_le_sum fun k _ => ?_)
  · by_cases h0 : trainWeight a i = 0
    · simp [h0]
    · have := mul_le_mul_of_nonneg_left ((hc i).2 (hx i h0) (hy i h0) hs ht hst) (hm i)
      simp only [smul_eq_mul] at this
      simp only [Pi.add_apply, Pi.smul_apply, smul_eq_mul]
      linarith
  · exact (hg _ (List.get_mem gs k)).convex.2 (Set.mem_univ _) (Set.mem_univ _) hs ht hst

/-- The iteration of PDHG with the preconditioned step sizes is the primal-dual iteration for a stacked convex problem whose solutions are those of the reconstruction problem. -/
theorem pdhg_problem {M : ι → ν → ℝ} {S : Solver ν ι (Arr δ)} {b : Arr ι} {a : Args ν ι} {rnd : Arr ι}
    {gs : List (PReg ν δ)} (hregs : S.regs = gs.map (·.reg)) (hg : ∀ g ∈ gs, g.Ok)
    (hk : ConvexKind S.term.kind) (hT : S.tolerance = none) (hω : 0 < S.relaxation) (hω1 : S.relaxation < 1)
    (hs : SensibleScale M a) (htw : ∀ i, trainWeight a i = 0 ∨ trainWeight a i = 1)
    (hcols : ∀ j, (∑ i, |M i j|) + (gs.map fun g => g.c j).sum ≤ 100000)
    (hadm : ∃ z, Admissible a z) {sigma : Arr ι} {tau : Arr ν} (hsc : pdhgScaling S (matrixOp M) a true rnd = .ok (sigma, tau)) :
    ∃ (Pb : PDProblem ν (Rows ι δ gs)) (e0 : Arr (Rows ι δ gs)) (Rf : Arr ι → Arr (Rows ι δ gs) → Arr (Rows ι δ gs)), Rf b = Pb.R ∧ Pb.C = {x | Admissible a x} ∧ Pb.ω = S.relaxation ∧ Pb.τ = tau ∧ Convex ℝ Pb.C ∧ ConvexOn ℝ Pb.dom Pb.F ∧
      (∀ x, Pb.IsMin x ↔ IsSolution S M a b (gs.map (·.pen)) x) ∧
      ((∃ x, Admissible a x ∧ ∀ i, trainWeight a i ≠ 0 →
        S.term.addBackground (fun i => ∑ j, M i j * x j) i ∈ interior (pixelFunctional S.term.kind (b i) i).dom) → ∃ x0 ∈ Pb.C, Pb.K x0 ∈ interior Pb.dom) ∧
      (∀ (b' : Arr ι) (o : Option (Arr ν)) (xs : ℕ → Arr ν), (∀ N, ∃ info S', pdhg S (matrixOp M) b' { a with iterations := N, x0 := o } true rnd = .ok (xs N, info, S')) →
        ∃ w : ℕ → Arr ν × Arr (Rows ι δ gs), (∀ n, w (n + 1) = pdStep Pb.K Pb.Kt Pb.σ Pb.τ Pb.P (Rf b') (w n)) ∧ (∀ n, (w n).1 = xs n) ∧
          (w 0).2 = Rf b' fun k => e0 k + Pb.σ k * Pb.K (w 0).1 k) ∧
      ∀ (b' : Arr ι) (c : Arr ι), (∀ i, 0 ≤ c i) → (S.term.kind = .l2 ∧ c = (fun _ => 1) ∨ S.term.kind = .wl2 (.array c)) → ∀ u v,
        -(1 / 4 * ∑ i, trainWeight a i * (c i * (b i - b' i) ^ 2)) ≤
          ∑ k, (Rf b u k - Rf b' v k) * ((u k - Rf b u k) / Pb.σ k - (v k - Rf b' v k) / Pb.σ k) := by
  have hstepc : ∀ x, ZeroOutsideMask a x → _ := fun x hx =>
    C14_diagonal_scaling_relaxed S M a rnd hs hω hω1.le
      (gs.map fun g => (g.reg, (fun x => ∑ k, g.σ * g.pen.K x k ^ 2), g.c))
      (by rw [hregs]; simp) (by
        simp only [List.mem_map]
        rintro _ ⟨g, hg', rfl⟩
        exact (hg g hg').step) (by simpa [Function.comp_def] using hcols) hsc x hx
  have hz0 : ZeroOutsideMask a (fun _ => (0 : ℝ)) := fun _ _ _ _ => rfl
  have hσ := (hstepc _ hz0).1
  have hτ := (hstepc _ hz0).2.1
  choose prox hprox hcert using fun b' => term_prox S.term hk b' sigma hσ
  have hRall : ∀ k : Fin gs.length, ∃ R : Arr δ → Arr δ,
      (∀ q x d, (gs.get k).scale d * (gs.get k).reg.proxDual ((gs.get k).reg.updateDual q x) d =
        R (fun d => (gs.get k).scale d * q d + (gs.get k).σ * (gs.get k).pen.K x d) d) ∧
      ∀ u z, (gs.get k).pen.H (fun d => (u d - R u d) / (gs.get k).σ) +
        ∑ d, R u d * (z d - (u d - R u d) / (gs.get k).σ) ≤ (gs.get k).pen.H z :=
    fun k => (hg _ (List.get_mem gs k)).dual
  choose R hR hRc using hRall
  have hsc0 : ∀ k d, 0 < (gs.get k).scale d := fun k => (hg _ (List.get_mem gs k)).scalepos
  obtain ⟨z0, hz0a⟩ := hadm
  have hm2 : ∀ i, trainWeight a i * trainWeight a i = trainWeight a i := fun i => by
    rcases htw i with h | h <;> rw [h] <;> norm_num
  let Rf : Arr ι → Arr (Rows ι δ gs) → Arr (Rows ι δ gs) := fun b' u => Sum.elim (fun i => trainWeight a i * prox b' i (u (.inl i)))
        fun q => R q.1 (fun d => u (.inr (q.1, d))) q.2
  -- the convex problem
  let Pb : PDProblem ν (Rows ι δ gs) :=
    { K := stK M a gs
      Kt := stKt M a gs
      σ := Sum.elim sigma fun q => (gs.get q.1).σ
      τ := tau
      P := clipMask a
      R := Rf b
      C := {x | Admissible a x}
      dom := stDom S a b gs
      F := stF S a b gs
      ω := S.relaxation
      ωpos := hω
      ωlt := hω1
      σpos := fun k => by
        rcases k with i | q
        · exact hσ i
        · exact (hg _ (List.get_mem gs q.1)).σpos
      τpos := hτ
      adj := fun x p => by
        rw [Fintype.sum_sum_type, Fintype.sum_prod_type]
        simp only [stK, stKt, Sum.elim_inl, Sum.elim_inr, mul_add, sum_add_distrib]
        congr 1
        · rw [matrix_adjoint M x]
          exact sum_congr rfl fun i _ => by ring
        · simp only [mul_sum]
          rw [sum_comm (γ := ν)]
          refine sum_congr rfl fun k _ => ?_
          exact (hg _ (List.get_mem gs k)).adj x fun d => p (.inr (k, d))
      lin := fun s t x y => by
        funext k
        rcases k with i | q
        · simp only [stK, Sum.elim_inl, mul_sum, ← sum_add_distrib]
          exact sum_congr rfl fun j _ => by ring
        · simp only [stK, Sum.elim_inr]
          exact congrFun ((hg _ (List.get_mem gs q.1)).lin s t x y) q.2
      memC := fun u => clipMask_admissible hs hz0a u
      vi := fun u z hz => sum_nonpos fun j _ => by
        have := clip_vi hs hz u j
        rw [← mul_div_assoc]
        exact div_nonpos_of_nonpos_of_nonneg (by linarith) (hτ j).le
      cert := fun u => by
        refine ⟨fun i hi => ?_, fun z hz => ?_⟩
        · obtain ⟨y, hy, hyu, -⟩ := hcert b i (u (.inl i))
          have h1 : trainWeight a i = 1 := (htw i).resolve_left hi
          have : (u (.inl i) - trainWeight a i * prox b i (u (.inl i))) / sigma i = y := by
            rw [h1, one_mul]
            nth_rewrite 1 [hyu]
            have := (hσ i).ne'
            field_simp
            ring
          simp only [Rf, Sum.elim_inl]
          rw [this]; exact hy
        · rw [Fintype.sum_sum_type, Fintype.sum_prod_type]
          unfold stF
          simp only [Rf, Sum.elim_inl, Sum.elim_inr]
          have e : ∀ A B C D : ℝ, A + B + (C + D) = (A + C) + (B + D) := fun A B C D => by ring
          rw [e, ← sum_add_distrib, ← sum_add_distrib]
          refine add_le_add (sum_le_sum fun i _ => ?_) (sum_le_sum fun k _ => ?_)
          · rcases htw i with h0 | h1
            · simp [h0]
            · obtain ⟨y, hy, hyu, hys⟩ := hcert b i (u (.inl i))
              have h2 : (u (.inl i) - trainWeight a i * prox b i (u (.inl i))) / sigma i = y := by
                rw [h1, one_mul]
                nth_rewrite 1 [hyu]
                have := (hσ i).ne'
                field_simp
                ring
              rw [h2, h1, one_mul, one_mul, one_mul]
              exact hys _ (hz i (by rw [h1]; exact one_ne_zero))
          · exact hRc k _ _
      energy := fun x hx x' hx' => by
        have h0 : ZeroOutsideMask a fun j => x j - x' j := by
          intro m hm j hj
          have h1 := hx.2 m hm j; have h2 := hx'.2 m hm j
          rw [hj, mul_zero] at h1 h2
          simp [← h1, ← h2]
        have h1 := (hstepc _ h0).2.2
        rw [List.map_map, list_sum_get] at h1
        rw [Fintype.sum_sum_type, Fintype.sum_prod_type]
        refine le_trans (le_of_eq ?_) h1
        congr 1
        · refine sum_congr rfl fun i _ => ?_
          simp only [stK, Sum.elim_inl]
          have e1 : ∑ j, M i j * (x j - x' j) = ∑ j, M i j * x j - ∑ j, M i j * x' j := by
            rw [← sum_sub_distrib]; exact sum_congr rfl fun j _ => by ring
          rw [e1, ← mul_sub, mul_pow, sq (trainWeight a i), hm2]
          ring
        · refine sum_congr rfl fun k _ => ?_
          simp only [Function.comp, stK, Sum.elim_inr]
          refine sum_congr rfl fun d _ => ?_
          have := (hg _ (List.get_mem gs k)).lin 1 (-1) x x'
          simp only [one_mul, neg_mul] at this
          simp only [← sub_eq_add_neg] at this
          rw [this] }
  -- solutions of the stacked problem are solutions of the reconstruction problem
  have hfeas : ∀ x, x ∈ Pb.C ∧ Pb.K x ∈ Pb.dom ↔ Feasible S M a b x := by
    intro x
    refine and_congr Iff.rfl (forall_congr' fun i => imp_congr_right fun hi => ?_)
    have h1 : trainWeight a i = 1 := (htw i).resolve_left hi
    show trainWeight a i * ∑ j, M i j * x j + optVal S.term.background i ∈ (pixelFunctional S.term.kind (b i) i).dom ↔ _
    rw [h1, one_mul, addBackground_opt]
  have hobj : ∀ x, Pb.F (Pb.K x) = objective S M a b (gs.map (·.pen)) x := by
    intro x
    show stF S a b gs (stK M a gs x) = _
    unfold stF objective
    rw [List.map_map, list_sum_get]
    congr 1
    refine sum_congr rfl fun i _ => ?_
    rcases htw i with h0 | h1
    · simp [h0]
    · simp only [stK, Sum.elim_inl, h1, one_mul, Functional.shift]
      rw [addBackground_opt]
  have hmin : ∀ x, Pb.IsMin x ↔ IsSolution S M a b (gs.map (·.pen)) x := by
    intro x
    unfold PDProblem.IsMin IsSolution
    rw [← and_assoc, hfeas]
    refine and_congr_right fun _ => ?_
    simp only [hobj]
    constructor
    · intro h z hz
      have := (hfeas z).2 hz
      exact h z this.1 this.2
    · intro h z hz hd
      exact h z ((hfeas z).1 ⟨hz, hd⟩)
  -- convexity of the admissible set
  have hCc : Convex ℝ Pb.C := by
    intro x hx y hy s t hs ht hst
    obtain ⟨⟨hx1, hx2⟩, hx3⟩ := hx
    obtain ⟨⟨hy1, hy2⟩, hy3⟩ := hy
    refine ⟨⟨fun l hl j => ?_, fun u hu j => ?_⟩, fun m hm j => ?_⟩
    · have h1 := mul_le_mul_of_nonneg_left (hx1 l hl j) hs
      have h2 := mul_le_mul_of_nonneg_left (hy1 l hl j) ht
      simp only [Pi.add_apply, Pi.smul_apply, smul_eq_mul]
      have : l.get j = s * l.get j + t * l.get j := by rw [← add_mul, hst, one_mul]
      linarith
    · have h1 := mul_le_mul_of_nonneg_left (hx2 u hu j) hs
      have h2 := mul_le_mul_of_nonneg_left (hy2 u hu j) ht
      simp only [Pi.add_apply, Pi.smul_apply, smul_eq_mul]
      have : u.get j = s * u.get j + t * u.get j := by rw [← add_mul, hst, one_mul]
      linarith
    · simp only [Pi.add_apply, Pi.smul_apply, smul_eq_mul]
      have h1 := hx3 m hm j
      have h2 := hy3 m hm j
      calc (s * x j + t * y j) * m j = s * (x j * m j) + t * (y j * m j) := by ring
        _ = _ := by rw [h1, h2]
  have hFc : ConvexOn ℝ Pb.dom Pb.F := stF_convex hk (fun i => by rcases htw i with h | h <;> rw [h]; norm_num) hg
  -- interior point
  have hq : (∃ x, Admissible a x ∧ ∀ i, trainWeight a i ≠ 0 →
      S.term.addBackground (fun i => ∑ j, M i j * x j) i ∈ interior (pixelFunctional S.term.kind (b i) i).dom) → ∃ x0 ∈ Pb.C, Pb.K x0 ∈ interior Pb.dom := by
    rintro ⟨x0, hx0, hi⟩
    refine ⟨x0, hx0, ?_⟩
    rw [mem_interior]
    refine ⟨{y | ∀ i, trainWeight a i ≠ 0 →
      y (.inl i) + optVal S.term.background i ∈ interior (pixelFunctional S.term.kind (b i) i).dom}, ?_, ?_, ?_⟩
    · intro y hy i h
      have h1 := interior_subset (hy i h)
      exact h1
    · have : {y : Arr (Rows ι δ gs) | ∀ i, trainWeight a i ≠ 0 →
          y (.inl i) + optVal S.term.background i ∈ interior (pixelFunctional S.term.kind (b i) i).dom} =
        ⋂ i : {i // trainWeight a i ≠ 0}, {y | y (.inl i.1) + optVal S.term.background i.1 ∈
          interior (pixelFunctional S.term.kind (b i.1) i.1).dom} := by
        ext y; simp
      rw [this]
      refine isOpen_iInter_of_finite fun i => ?_
      exact isOpen_interior.preimage (by fun_prop)
    · intro i h
      have h1 : trainWeight a i = 1 := (htw i).resolve_left h
      have := hi i h
      show trainWeight a i * ∑ j, M i j * x0 j + optVal S.term.background i ∈ _
      rw [h1, one_mul]
      rwa [addBackground_opt] at this
  -- the iteration
  let e0 : Arr (Rows ι δ gs) := Sum.elim (fun _ => 0) fun q => (gs.get q.1).scale q.2 * (gs.get q.1).reg.initDual q.2
  refine ⟨Pb, e0, Rf, rfl, rfl, rfl, rfl, hCc, hFc, hmin, hq, fun b' o xs hrun => ?_, fun b' c hc0 hkc u v => ?_⟩
  rotate_left
  · -- the dual steps for two data
    have hpix : ∀ (β : Arr ι) (i : ι) (t : ℝ), prox β i t = c i * ((t - prox β i t) / sigma i + optVal S.term.background i - β i) := by
      intro β i t
      obtain ⟨y, -, hyu, hys⟩ := hcert β i t
      have hy : (t - prox β i t) / sigma i = y := by
        nth_rewrite 1 [hyu]
        have := (hσ i).ne'
        field_simp
        ring
      rw [hy]
      have hval : ∀ z, c i * (z + optVal S.term.background i - β i) ^ 2 / 2 ≥ c i * (y + optVal S.term.background i - β i) ^ 2 / 2 + prox β i t * (z - y) := by
        intro z
        rcases hkc with ⟨h, h1⟩ | h
        · rw [h] at hys
          have := hys z trivial
          simp only [pixelFunctional, Functional.shift, fL2] at this
          rw [h1]
          simpa using this
        · rw [h] at hys
          have := hys z trivial
          simpa only [pixelFunctional, Functional.shift, fWL2, Attr.get] using this
      set g := y + optVal S.term.background i - β i with hg'
      rcases eq_or_lt_of_le (hc0 i) with h0 | h0
      · have h1 := hval (y + prox β i t)
        rw [← h0] at h1 ⊢
        nlinarith
      · have h1 := hval (y + (prox β i t - c i * g) / c i)
        have e1 : c i * (y + (prox β i t - c i * g) / c i + optVal S.term.background i - β i) ^ 2 / 2 =
            c i * g ^ 2 / 2 + g * (prox β i t - c i * g) + (prox β i t - c i * g) ^ 2 / (2 * c i) := by
          have : y + (prox β i t - c i * g) / c i + optVal S.term.background i - β i = g + (prox β i t - c i * g) / c i := by rw [hg']; ring
          rw [this]
          field_simp
          ring
        have e2 : prox β i t * (y + (prox β i t - c i * g) / c i - y) = g * (prox β i t - c i * g) + (prox β i t - c i * g) ^ 2 / c i := by
          field_simp
          ring
        rw [e1, e2] at h1
        have h2 : (prox β i t - c i * g) ^ 2 / c i = 2 * ((prox β i t - c i * g) ^ 2 / (2 * c i)) := by field_simp
        have h3 : (prox β i t - c i * g) ^ 2 / (2 * c i) ≤ 0 := by linarith
        have h4 : (prox β i t - c i * g) ^ 2 ≤ 0 := by
          by_contra h5
          exact absurd h3 (not_le.2 (div_pos (not_le.1 h5) (by linarith)))
        have h6 := pow_eq_zero_iff (two_ne_zero) |>.1 (le_antisymm h4 (sq_nonneg _))
        linarith
    rw [Fintype.sum_sum_type, Fintype.sum_prod_type]
    simp only [Pb, Rf, Sum.elim_inl, Sum.elim_inr]
    have h1 : 0 ≤ ∑ k, ∑ d, (R k (fun d => u (.inr (k, d))) d - R k (fun d => v (.inr (k, d))) d) *
        ((u (.inr (k, d)) - R k (fun d => u (.inr (k, d))) d) / (gs.get k).σ - (v (.inr (k, d)) - R k (fun d => v (.inr (k, d))) d) / (gs.get k).σ) := by
      refine sum_nonneg fun k _ => ?_
      have a1 := hRc k (fun d => u (.inr (k, d))) fun d => (v (.inr (k, d)) - R k (fun d => v (.inr (k, d))) d) / (gs.get k).σ
      have a2 := hRc k (fun d => v (.inr (k, d))) fun d => (u (.inr (k, d)) - R k (fun d => u (.inr (k, d))) d) / (gs.get k).σ
      have a3 : ∑ d, (R k (fun d => u (.inr (k, d))) d - R k (fun d => v (.inr (k, d))) d) *
        ((u (.inr (k, d)) - R k (fun d => u (.inr (k, d))) d) / (gs.get k).σ - (v (.inr (k, d)) - R k (fun d => v (.inr (k, d))) d) / (gs.get k).σ) =
          -(∑ d, R k (fun d => u (.inr (k, d))) d * ((v (.inr (k, d)) - R k (fun d => v (.inr (k, d))) d) / (gs.get k).σ - (u (.inr (k, d)) - R k (fun d => u (.inr (k, d))) d) / (gs.get k).σ)) -
          ∑ d, R k (fun d => v (.inr (k, d))) d * ((u (.inr (k, d)) - R k (fun d => u (.inr (k, d))) d) / (gs.get k).σ - (v (.inr (k, d)) - R k (fun d => v (.inr (k, d))) d) / (gs.get k).σ) := by
        rw [← sum_neg_distrib, ← sum_sub_distrib]
        exact sum_congr rfl fun d _ => by ring
      rw [a3]
      linarith
    have h2 : -(1 / 4 * ∑ i, trainWeight a i * (c i * (b i - b' i) ^ 2)) ≤ ∑ i, (trainWeight a i * prox b i (u (.inl i)) - trainWeight a i * prox b' i (v (.inl i))) *
        ((u (.inl i) - trainWeight a i * prox b i (u (.inl i))) / sigma i - (v (.inl i) - trainWeight a i * prox b' i (v (.inl i))) / sigma i) := by
      rw [mul_sum, ← sum_neg_distrib]
      refine sum_le_sum fun i _ => ?_
      rcases htw i with h | h
      · rw [h]; simp
      · rw [h]
        simp only [one_mul]
        have b1 := hpix b i (u (.inl i))
        have b2 := hpix b' i (v (.inl i))
        generalize (u (.inl i) - prox b i (u (.inl i))) / sigma i = y1 at b1 ⊢
        generalize (v (.inl i) - prox b' i (v (.inl i))) / sigma i = y2 at b2 ⊢
        rw [b1, b2]
        have e : (c i * (y1 + optVal S.term.background i - b i) - c i * (y2 + optVal S.term.background i - b' i)) * (y1 - y2) + 1 / 4 * (c i * (b i - b' i) ^ 2) =
            c i * ((y1 - y2) - 1 / 2 * (b i - b' i)) ^ 2 := by ring
        have := mul_nonneg (hc0 i) (sq_nonneg ((y1 - y2) - 1 / 2 * (b i - b' i)))
        linarith
    linarith
  set x0 : Arr ν := o.getD fun _ => 0 with hx0
  let ast : Arr ν × Arr ν × Arr (Rows ι δ gs) → Arr ν × Arr ν × Arr (Rows ι δ gs) := fun s =>
    let e' := Rf b' fun k => s.2.2 k + Pb.σ k * Pb.K s.2.1 k
    let x' := Pb.P fun j => s.1 j - tau j * Pb.Kt e' j
    (x', fun j => x' j + (x' j - s.1 j), e')
  let abs : ℕ → Arr ν × Arr ν × Arr (Rows ι δ gs) := fun n => ast^[n] (x0, x0, e0)
  have hxs : ∀ N, xs N = (abs N).1 := by
    intro N
    obtain ⟨info, S', h0⟩ := hrun N
    obtain ⟨sigma', tau', tt, h1, h2, h3⟩ := pdhg_ok h0
    have hsc' : pdhgScaling S (matrixOp M) { a with iterations := N, x0 := o } true rnd = pdhgScaling S (matrixOp M) a true rnd := rfl
    rw [hsc', hsc] at h1
    simp only [Except.ok.injEq, Prod.mk.injEq] at h1
    obtain ⟨rfl, rfl⟩ := h1
    dsimp only at h2 h3
    have hx : xs N = _ := congrArg Prod.fst h3
    rw [hx]
    -- the loop as an iterate
    let toState : Arr ν × Arr ν × Arr (Rows ι δ gs) → Arr ν × Arr ν × Arr ι × List (Arr δ) := fun s =>
      (s.1, s.2.1, fun i => s.2.2 (.inl i), List.ofFn fun k d => s.2.2 (.inr (k, d)) / (gs.get k).scale d)
    set term := S.term.assignData (some (.array b')) (.array sigma) with hterm
    set a' : Args ν ι := { a with iterations := N, x0 := o }
    let f : Arr ν × Arr ν × Arr ι × List (Arr δ) → Arr ν × Arr ν × Arr ι × List (Arr δ) := fun s =>
      let p := applyMask (initBMasks a.bMask a.bTestMask).1 (term.proxDual (term.updateDual s.2.2.1 ((matrixOp M).fwd s.2.1)))
      let q := updateRegDuals S.regs s.2.2.2 s.2.1
      let u := addRegUpdates S.regs q ((matrixOp M).adj p)
      let x' := clipMask a' fun j => s.1 j - u.1 j * tau j
      (x', fun j => x' j + (x' j - s.1 j), p, u.2)
    have hloop := forRange_noBreak (step := pdhgStep (matrixOp M) a' S.regs term tt (initBMasks a.bMask a.bTestMask).1
        (initBMasks a.bMask a.bTestMask).2 tau S.tolerance)
      (fun s : PDState ν ι (Arr δ) => (s.x, s.xRelax, s.p, s.q)) f
      (fun k s => by
        simp only [pdhgStep, hT]
        exact recordResiduals_noTol)
      (fun k s => by
        simp only [pdhgStep, matrixOp, f]) N
      ⟨x0, x0, term.initializeDual, S.regs.map (·.initDual),
        initialResiduals term tt (initBMasks a.bMask a.bTestMask).1 (initBMasks a.bMask a.bTestMask).2 S.tolerance
          ((matrixOp M).fwd x0) (Info.new N S.tolerance)⟩
    have hfx := congrArg Prod.fst hloop
    refine Eq.trans hfx ?_
    have hinit : ((x0, x0, term.initializeDual, S.regs.map (·.initDual)) : Arr ν × Arr ν × Arr ι × List (Arr δ)) =
        toState (x0, x0, e0) := by
      simp only [toState, e0, Sum.elim_inl, Sum.elim_inr, Prod.mk.injEq, true_and]
      refine ⟨rfl, ?_⟩
      rw [hregs]
      refine List.ext_getElem (by simp) fun k h1 h2 => ?_
      simp only [List.getElem_map, List.getElem_ofFn]
      funext d
      exact (mul_div_cancel_left₀ _ (hsc0 _ _).ne').symm
    have hsim : ∀ s, f (toState s) = toState (ast s) := by
      intro s
      have hp : applyMask (initBMasks a.bMask a.bTestMask).1 (term.proxDual (term.updateDual (fun i => s.2.2 (.inl i))
          ((matrixOp M).fwd s.2.1))) = fun i => (ast s).2.2 (.inl i) := by
        rw [applyMask_bm]
        funext i
        rw [hprox]
        simp only [ast, Rf, Pb, Sum.elim_inl, stK, matrixOp]
        rcases htw i with h | h
        · rw [h]; simp
        · rw [h]; simp
      have hq' : updateRegDuals S.regs (List.ofFn fun k d => s.2.2 (.inr (k, d)) / (gs.get k).scale d) s.2.1 =
          List.ofFn fun k d => (ast s).2.2 (.inr (k, d)) / (gs.get k).scale d := by
        rw [hregs, updateRegDuals_eq gs R hsc0 hR (fun k d => s.2.2 (.inr (k, d)))]
        rfl
      have hKt : ∀ j, ((matrixOp M).adj fun i => (ast s).2.2 (.inl i)) j +
          ∑ k, (gs.get k).pen.Kt (fun d => (ast s).2.2 (.inr (k, d))) j = Pb.Kt (ast s).2.2 j := by
        intro j
        simp only [Pb, Rf, stKt, matrixOp, ast, Sum.elim_inl]
        congr 1
        refine sum_congr rfl fun i _ => ?_
        rw [← mul_assoc (trainWeight a i), hm2]
      have hu : addRegUpdates S.regs (List.ofFn fun k d => (ast s).2.2 (.inr (k, d)) / (gs.get k).scale d)
          ((matrixOp M).adj fun i => (ast s).2.2 (.inl i)) =
          (fun j => Pb.Kt (ast s).2.2 j, List.ofFn fun k d => (ast s).2.2 (.inr (k, d)) / (gs.get k).scale d) := by
        rw [hregs, addRegUpdates_eq gs (fun g hg' => (hg g hg').primal)]
        have e5 : ∀ k d, (gs.get k).scale d * ((ast s).2.2 (.inr (k, d)) / (gs.get k).scale d) = (ast s).2.2 (.inr (k, d)) :=
          fun k d => mul_div_cancel₀ _ (hsc0 k d).ne'
        simp only [e5, hKt]
      have hx' : (clipMask a' fun j => s.1 j - Pb.Kt (ast s).2.2 j * tau j) = (ast s).1 := by
        simp only [ast, Pb]
        show clipMask a _ = clipMask a _
        congr 1
        funext j
        ring
      simp only [f, toState, hp, hq', hu, hx']
      rfl
    have hit : ∀ n, f^[n] (toState (x0, x0, e0)) = toState (ast^[n] (x0, x0, e0)) := by
      intro n
      induction n with
      | zero => rfl
      | succ n ih => rw [Function.iterate_succ_apply', Function.iterate_succ_apply', ih, hsim]
    show (f^[N] (x0, x0, term.initializeDual, S.regs.map (·.initDual))).1 = _
    rw [hinit, hit]
  -- the pairs follow the primal-first iteration
  let w : ℕ → Arr ν × Arr (Rows ι δ gs) := fun n => ((abs n).1, (abs (n + 1)).2.2)
  have hsucc : ∀ n, abs (n + 1) = ast (abs n) := fun n => Function.iterate_succ_apply' _ _ _
  have hw : ∀ n, w (n + 1) = pdStep Pb.K Pb.Kt Pb.σ Pb.τ Pb.P (Rf b') (w n) := by
    intro n
    have hx1 : (abs (n + 1)).1 = Pb.P fun j => (abs n).1 j - Pb.τ j * Pb.Kt (abs (n + 1)).2.2 j := by
      rw [hsucc]
    have hr1 : (abs (n + 1)).2.1 = fun j => 2 * (abs (n + 1)).1 j - (abs n).1 j := by
      rw [hsucc]
      funext j
      simp only [ast]
      ring
    have he2 : (abs (n + 2)).2.2 = Rf b' fun k => (abs (n + 1)).2.2 k + Pb.σ k * Pb.K (abs (n + 1)).2.1 k := by
      rw [hsucc (n + 1)]
    refine Prod.ext hx1 ?_
    show (abs (n + 2)).2.2 = _
    rw [he2, hr1]
    simp only [pdStep, w]
    rw [← hx1]
  refine ⟨w, hw, fun n => (hxs n).symm, ?_⟩
  show (abs 1).2.2 = _
  rw [hsucc 0]
  rfl

/-- C141. PDHG with the preconditioned step sizes, for every matrix, data, background, data term with a convex
functional, 0/1 masks, limits, list of regularizers that stand for convex penalties, and relaxation in (0, 1): if the
reconstruction problem has a solution (and, for terms that are not finite everywhere, an admissible volume in the interior
of their domain), then the volumes returned after `N` iterations converge to a solution of the problem as `N` grows,
whatever the start. -/
theorem C141_pdhg_converges {M : ι → ν → ℝ} {S : Solver ν ι (Arr δ)} {b : Arr ι} {a : Args ν ι} {rnd : Arr ι}
    {gs : List (PReg ν δ)} (hregs : S.regs = gs.map (·.reg)) (hg : ∀ g ∈ gs, g.Ok)
    (hk : ConvexKind S.term.kind) (hT : S.tolerance = none) (hω : 0 < S.relaxation) (hω1 : S.relaxation < 1)
    (hs : SensibleScale M a) (htw : ∀ i, trainWeight a i = 0 ∨ trainWeight a i = 1)
    (hcols : ∀ j, (∑ i, |M i j|) + (gs.map fun g => g.c j).sum ≤ 100000)
    (hsol : ∃ x, IsSolution S M a b (gs.map (·.pen)) x)
    (hint : ∃ x, Admissible a x ∧ ∀ i, trainWeight a i ≠ 0 →
      S.term.addBackground (fun i => ∑ j, M i j * x j) i ∈ interior (pixelFunctional S.term.kind (b i) i).dom)
    {xs : ℕ → Arr ν} (hrun : ∀ N, ∃ info S', pdhg S (matrixOp M) b { a with iterations := N } true rnd = .ok (xs N, info, S')) :
    ∃ x, IsSolution S M a b (gs.map (·.pen)) x ∧ Tendsto xs atTop (𝓝 x) := by
  obtain ⟨sigma, tau, hsc⟩ : ∃ sigma tau, pdhgScaling S (matrixOp M) a true rnd = .ok (sigma, tau) := by
    obtain ⟨info, S', h0⟩ := hrun 0
    obtain ⟨sigma, tau, _, h1, _⟩ := pdhg_ok h0
    exact ⟨sigma, tau, h1⟩
  obtain ⟨Pb, e0, Rf, hRf, -, -, -, hCc, hFc, hmin, hq, hw, -⟩ := pdhg_problem (b := b) hregs hg hk hT hω hω1 hs htw hcols (by obtain ⟨x, hx⟩ := hsol; exact ⟨x, hx.1.1⟩) hsc
  obtain ⟨w, hw1, hw2, -⟩ := hw b a.x0 xs hrun
  rw [hRf] at hw1
  obtain ⟨x, hx, hlim⟩ := Pb.converges hCc hFc (by obtain ⟨x, hx⟩ := hsol; exact ⟨x, (hmin x).2 hx⟩) (hq hint) w hw1
  exact ⟨x, (hmin x).1 hx, hlim.congr hw2⟩

end Verif
