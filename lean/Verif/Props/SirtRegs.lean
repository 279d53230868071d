import Verif.Props.PdhgRegs
import Mathlib.Analysis.InnerProductSpace.PiL2
import Verif.Props.PdhgDefault
import Verif.Lemmas.Cocoercive

/-! # C284: what SIRT with regularizers converges to -/

namespace Verif
open Classical DataTerm Finset Filter Topology Verif.Spec

variable {ν ι δ : Type} [Fintype ν] [Fintype ι] [Fintype δ]

/-- Specification: the smoothed objective. Each penalty `H(K x)` is replaced by `H(v) + σ/2 |K x - v|²` with a free `v`. -/
noncomputable def softObjective (S : Solver ν ι (Arr δ)) (M : ι → ν → ℝ) (b s : Arr ι) (gs : List (PReg ν δ)) (x : Arr ν) (v : Fin gs.length → Arr δ) : ℝ :=
  misfit S (matrixOp M) b s x +
    ∑ k, ((gs.get k).pen.H (v k) + ∑ d, (gs.get k).σ / 2 * ((gs.get k).pen.K x d - v k d) ^ 2)

/-- Specification: an admissible volume and split variables with the least smoothed objective. -/
def IsSoftSolution (S : Solver ν ι (Arr δ)) (M : ι → ν → ℝ) (a : Args ν ι) (b s : Arr ι) (gs : List (PReg ν δ)) (x : Arr ν)
    (v : Fin gs.length → Arr δ) : Prop :=
  Admissible a x ∧ ∀ y w, Admissible a y → softObjective S M b s gs x v ≤ softObjective S M b s gs y w

namespace SmoothProblem
variable {κ : Type} [Fintype κ] (P : SmoothProblem ν κ)

theorem fixed_of_vi {a : Args ν ι} (hs : SensibleScale (fun (_ : ι) (_ : ν) => (0 : ℝ)) a) {z : Arr ν} (hz : Admissible a z)
    (hvi : ∀ y, Admissible a y → 0 ≤ ∑ j, (y j - z j) * P.G z j) : P.T a z = z := by
  have h1 := hvi _ (clipMask_admissible hs hz fun j => z j - P.ω / P.W j * P.G z j)
  change 0 ≤ ∑ j, (P.T a z j - z j) * P.G z j at h1
  have h2 : ∀ j, P.W j / P.ω * (z j - P.T a z j) ^ 2 + (P.T a z j - z j) * P.G z j ≤ 0 := fun j => by
    have h := clip_vi hs hz (fun j => z j - P.ω / P.W j * P.G z j) j
    change (z j - P.ω / P.W j * P.G z j - P.T a z j) * (z j - P.T a z j) ≤ 0 at h
    have hW := P.Wpos j
    have hω := P.ωpos
    have h3 := mul_le_mul_of_nonneg_left h (div_pos hW hω).le
    rw [mul_zero] at h3
    refine le_trans (le_of_eq ?_) h3
    field_simp
    ring
  have h4 := sum_le_sum fun j (_ : j ∈ univ) => h2 j
  rw [sum_add_distrib, sum_const_zero] at h4
  have h5 : ∀ j ∈ univ, 0 ≤ P.W j / P.ω * (z j - P.T a z j) ^ 2 := fun j _ => mul_nonneg (div_pos (P.Wpos j) P.ωpos).le (sq_nonneg _)
  have h6 := (sum_eq_zero_iff_of_nonneg h5).1 (le_antisymm (by linarith) (sum_nonneg h5))
  funext j
  have h7 := h6 j (mem_univ _)
  rcases mul_eq_zero.1 h7 with h | h
  · exact absurd h (div_pos (P.Wpos j) P.ωpos).ne'
  · have := pow_eq_zero_iff (two_ne_zero) |>.1 h
    linarith

end SmoothProblem

private theorem regs_fold (gs : List (PReg ν δ)) (f : Reg ν (Arr δ) → Arr ν) (u : Arr ν) :
    (gs.map (·.reg)).foldl (fun u r => fun j => u j - f r j) u = fun j => u j - ∑ k : Fin gs.length, f (gs.get k).reg j := by
  induction gs generalizing u with
  | nil => simp
  | cons g gs ih =>
    rw [List.map_cons, List.foldl_cons, ih]
    funext j
    rw [show (∑ k : Fin (g :: gs).length, f ((g :: gs).get k).reg j) = f g.reg j + ∑ k : Fin gs.length, f (gs.get k).reg j from
      Fin.sum_univ_succ (n := gs.length) fun k => f ((g :: gs).get k).reg j]
    ring

private theorem sum_get (gs : List (PReg ν δ)) (f : PReg ν δ → ℝ) : (gs.map f).sum = ∑ k : Fin gs.length, f (gs.get k) := by
  rw [← List.sum_ofFn]
  congr 1
  refine List.ext_getElem (by simp) fun k h1 h2 => ?_
  simp

/-- The step sizes of SIRT are those of PDHG with the relaxation on the volume only. -/
private theorem scaling_one {S : Solver ν ι (Arr δ)} {M : ι → ν → ℝ} {a : Args ν ι} {rnd : Arr ι} (hω : 0 < S.relaxation) {sigma tau}
    (hsc : diagonalScaling (absOrSelf (matrixOp M)).1 (absOrSelf (matrixOp M)).2 S.regs 1 S.relaxation a.xMask
      (initBMasks a.bMask a.bTestMask).1 = .ok (sigma, tau)) :
    pdhgScaling { S with relaxation := 1 } (matrixOp M) a true rnd = .ok (sigma, fun j => tau j / S.relaxation) := by
  unfold pdhgScaling
  simp only [matrixOp, absOrSelf, if_true] at hsc ⊢
  unfold diagonalScaling at hsc ⊢
  dsimp only at hsc ⊢
  split_ifs at hsc ⊢ with h1 h2
  simp only [Except.ok.injEq, Prod.mk.injEq] at hsc ⊢
  refine ⟨hsc.1, ?_⟩
  rw [← hsc.2]
  funext j
  have := hω.ne'
  rw [div_right_comm, div_self this]

private theorem sigma_rows {S : Solver ν ι (Arr δ)} {M : ι → ν → ℝ} {a : Args ν ι} {sigma tau}
    (hsc : diagonalScaling (absOrSelf (matrixOp M)).1 (absOrSelf (matrixOp M)).2 S.regs 1 S.relaxation a.xMask
      (initBMasks a.bMask a.bTestMask).1 = .ok (sigma, tau)) (hpos : ∀ i, 0 < sigma i) (hx : ∀ j, 0 ≤ volumeWeight a j) :
    RowNormalized M a fun i => trainWeight a i * sigma i := by
  unfold diagonalScaling at hsc
  dsimp only [matrixOp, absOrSelf] at hsc
  split_ifs at hsc with h1 h2
  simp only [Except.ok.injEq, Prod.mk.injEq] at hsc
  intro i
  have h3 := hpos i
  rw [← hsc.1] at h3 ⊢
  dsimp only at h3 ⊢
  refine ⟨_, one_div_pos.1 h3, ?_, ?_⟩
  rotate_left
  · rw [mul_one_div]
  · rcases fixSmall_cases (fun i => |∑ j, |M i j| * applyMask a.xMask (fun _ => 1) j|) i with h | h
    · left
      rw [h, abs_of_nonneg]
      · refine sum_congr rfl fun j _ => ?_
        unfold volumeWeight applyMask
        cases a.xMask <;> simp
      · refine sum_nonneg fun j _ => mul_nonneg (abs_nonneg _) ?_
        have := hx j
        unfold volumeWeight at this
        unfold applyMask
        cases hm : a.xMask <;> simp_all
    · exact Or.inr h

private theorem tau_fold (rs : List (Reg ν (Arr δ))) (c : Reg ν (Arr δ) → Arr ν) (h : ∀ r ∈ rs, ∀ t, r.sigmaTau t = c r) (t : Arr ν) :
    rs.foldl (fun t r => fun j => t j + r.sigmaTau t j) t = fun j => t j + (rs.map fun r => c r j).sum := by
  induction rs generalizing t with
  | nil => simp
  | cons r rs ih =>
    rw [List.foldl_cons, ih fun r hr => h r (by simp [hr])]
    funext j
    rw [h r (by simp), List.map_cons, List.sum_cons]
    ring

private theorem tau_cols {S : Solver ν ι (Arr δ)} {M : ι → ν → ℝ} {a : Args ν ι} {gs : List (PReg ν δ)} (hregs : S.regs = gs.map (·.reg))
    (hg : ∀ g ∈ gs, g.Ok) (hω : 0 < S.relaxation) (htw : ∀ i, 0 ≤ trainWeight a i) {sigma tau}
    (hsc : diagonalScaling (absOrSelf (matrixOp M)).1 (absOrSelf (matrixOp M)).2 S.regs 1 S.relaxation a.xMask
      (initBMasks a.bMask a.bTestMask).1 = .ok (sigma, tau)) (j : ν) :
    S.relaxation / tau j = ∑ i, |M i j| * trainWeight a i + (gs.map fun g => g.c j).sum ∨ S.relaxation / tau j = 1 := by
  unfold diagonalScaling at hsc
  dsimp only [matrixOp, absOrSelf] at hsc
  split_ifs at hsc with h1 h2
  simp only [Except.ok.injEq, Prod.mk.injEq] at hsc
  rw [← hsc.2]
  dsimp only
  rw [div_div_cancel₀ hω.ne']
  have hf := tau_fold S.regs (fun r => r.sigmaTau fun _ => 0) (fun r hr t => by
    rw [hregs, List.mem_map] at hr
    obtain ⟨g, hg', rfl⟩ := hr
    rw [(hg g hg').step.published, (hg g hg').step.published]) fun j => |∑ i, |M i j| * applyMask (initBMasks a.bMask a.bTestMask).1 (fun _ => 1) i|
  rw [hf]
  rcases fixSmall_cases (fun j => |∑ i, |M i j| * applyMask (initBMasks a.bMask a.bTestMask).1 (fun _ => 1) i| +
    (S.regs.map fun r => r.sigmaTau (fun _ => 0) j).sum) j with h | h
  · left
    rw [h]
    have e : ∀ i, applyMask (initBMasks a.bMask a.bTestMask).1 (fun _ => 1) i = trainWeight a i := fun i => by
      rw [← effMask_eq]
      unfold effMask applyMask
      cases (initBMasks a.bMask a.bTestMask).1 <;> simp
    simp only [e]
    rw [abs_of_nonneg (sum_nonneg fun i _ => mul_nonneg (abs_nonneg _) (htw i)), hregs, List.map_map]
    congr 2
    refine List.map_congr_left fun g hg' => ?_
    simp only [Function.comp, (hg g hg').step.published]
  · exact Or.inr h

/-- The update of one regularizer. -/
noncomputable def PReg.resp (g : PReg ν δ) (R : Arr δ → Arr δ) (y : Arr δ) : Arr δ := fun d => R (fun k => g.σ * y k) d / g.σ

private theorem resp_firm {g : PReg ν δ} (hσ : 0 < g.σ) {R : Arr δ → Arr δ}
    (hR : ∀ u z, g.pen.H (fun k => (u k - R u k) / g.σ) + ∑ k, R u k * (z k - (u k - R u k) / g.σ) ≤ g.pen.H z) (u v : Arr δ) :
    ∑ k, g.σ * (g.resp R u k - g.resp R v k) ^ 2 ≤ ∑ k, g.σ * ((g.resp R u k - g.resp R v k) * (u k - v k)) := by
  have h1 := hR (fun k => g.σ * u k) fun k => (g.σ * v k - R (fun k => g.σ * v k) k) / g.σ
  have h2 := hR (fun k => g.σ * v k) fun k => (g.σ * u k - R (fun k => g.σ * u k) k) / g.σ
  have h3 : ∑ k, g.σ * ((g.resp R u k - g.resp R v k) * (u k - v k)) - ∑ k, g.σ * (g.resp R u k - g.resp R v k) ^ 2 =
      -(∑ k, R (fun k => g.σ * u k) k * ((g.σ * v k - R (fun k => g.σ * v k) k) / g.σ - (g.σ * u k - R (fun k => g.σ * u k) k) / g.σ) +
      ∑ k, R (fun k => g.σ * v k) k * ((g.σ * u k - R (fun k => g.σ * u k) k) / g.σ - (g.σ * v k - R (fun k => g.σ * v k) k) / g.σ)) := by
    rw [← sum_sub_distrib, ← sum_add_distrib, ← sum_neg_distrib]
    refine sum_congr rfl fun k _ => ?_
    unfold PReg.resp
    have := hσ.ne'
    field_simp
    ring
  linarith

private theorem resp_cert {g : PReg ν δ} (hσ : 0 < g.σ) {R : Arr δ → Arr δ}
    (hR : ∀ u z, g.pen.H (fun k => (u k - R u k) / g.σ) + ∑ k, R u k * (z k - (u k - R u k) / g.σ) ≤ g.pen.H z) (y y' v : Arr δ) :
    (g.pen.H (fun k => y k - g.resp R y k) + ∑ d, g.σ / 2 * (y d - (y d - g.resp R y d)) ^ 2) + ∑ d, g.σ * (g.resp R y d * (y' d - y d)) ≤
      g.pen.H v + ∑ d, g.σ / 2 * (y' d - v d) ^ 2 := by
  have h1 := hR (fun k => g.σ * y k) v
  have e : (fun k => (g.σ * y k - R (fun k => g.σ * y k) k) / g.σ) = fun k => y k - g.resp R y k := by
    funext k
    unfold PReg.resp
    have := hσ.ne'
    field_simp
  have h2 : ∑ k, R (fun k => g.σ * y k) k * (v k - (g.σ * y k - R (fun k => g.σ * y k) k) / g.σ) =
      ∑ k, g.σ * (g.resp R y k * (v k - (y k - g.resp R y k))) := by
    refine sum_congr rfl fun k _ => ?_
    unfold PReg.resp
    have := hσ.ne'
    field_simp
  rw [e, h2] at h1
  have h3 : 0 ≤ ∑ d, g.σ / 2 * (v d - y' d + g.resp R y d) ^ 2 := sum_nonneg fun d _ => mul_nonneg (by linarith) (sq_nonneg _)
  have h4 : ∑ d, g.σ / 2 * (v d - y' d + g.resp R y d) ^ 2 = ∑ k, g.σ * (g.resp R y k * (v k - (y k - g.resp R y k))) +
      ∑ d, g.σ / 2 * (y' d - v d) ^ 2 - ∑ d, g.σ / 2 * (y d - (y d - g.resp R y d)) ^ 2 - ∑ d, g.σ * (g.resp R y d * (y' d - y d)) := by
    rw [← sum_add_distrib, ← sum_sub_distrib, ← sum_sub_distrib]
    exact sum_congr rfl fun k _ => by ring
  linarith

/-- The smoothed problem, and that SIRT is its gradient iteration. -/
private theorem sirt_problem {M : ι → ν → ℝ} {S : Solver ν ι (Arr δ)} {b : Arr ι} {a : Args ν ι} {gs : List (PReg ν δ)}
    (hregs : S.regs = gs.map (·.reg)) (hg : ∀ g ∈ gs, g.Ok) (hinit : ∀ g ∈ gs, g.reg.initDual = fun _ => 0)
    (hk : S.term.kind = .l2) (hT : S.tolerance = none) (hω : 0 < S.relaxation) (hω2 : S.relaxation < 2) (hs : SensibleScale M a)
    (hcols : ∀ j, (∑ i, |M i j|) + (gs.map fun g => g.c j).sum ≤ 100000) {sigma tau}
    (hsc : diagonalScaling (absOrSelf (matrixOp M)).1 (absOrSelf (matrixOp M)).2 S.regs 1 S.relaxation a.xMask
      (initBMasks a.bMask a.bTestMask).1 = .ok (sigma, tau)) :
    ∃ (P : SmoothProblem ν (Rows ι δ gs)) (s : Arr ι) (V : Arr ν → Fin gs.length → Arr δ), P.m = effXMask a ∧ RowNormalized M a s ∧
      (P.ω = S.relaxation ∧ (∀ j, P.W j = ∑ i, |M i j| * trainWeight a i + (gs.map fun g => g.c j).sum ∨ P.W j = 1) ∧
        ∀ x y, softObjective S M b s gs y (V x) =
          softObjective S M b s gs x (V x) + ∑ j, (y j - x j) * P.G x j + 1 / 2 * ∑ k, P.D k * (P.K y k - P.K x k) ^ 2) ∧
      (∀ x y w, softObjective S M b s gs x (V x) + ∑ j, (y j - x j) * P.G x j ≤ softObjective S M b s gs y w) ∧
      SirtStepOk M a s P.W ∧
      (∀ b' o N x info S', sirt S (matrixOp M) b' { a with iterations := N, x0 := o } = .ok (x, info, S') →
        x = (fun x => clipMask a fun j => x j - P.ω / P.W j * (P.G x j - ∑ i, M i j * (s i * (b' i - b i))))^[N] (o.getD fun _ => 0)) := by
  have hstepc : ∀ x, ZeroOutsideMask a x → _ := fun x hx =>
    C14_diagonal_scaling_relaxed { S with relaxation := 1 } M a (fun _ => 1) hs one_pos le_rfl
      (gs.map fun g => (g.reg, (fun x => ∑ k, g.σ * g.pen.K x k ^ 2), g.c))
      (by simp only [hregs]; simp) (by
        simp only [List.mem_map]
        rintro _ ⟨g, hg', rfl⟩
        exact (hg g hg').step) (by simpa [Function.comp_def] using hcols) (scaling_one hω hsc) x hx
  have hz0 : ZeroOutsideMask a (fun _ => (0 : ℝ)) := fun _ _ _ _ => rfl
  have hσ := (hstepc _ hz0).1
  have hτ : ∀ j, 0 < tau j := fun j => by
    have := (hstepc _ hz0).2.1 j
    rcases div_pos_iff.1 this with h | h
    · exact h.1
    · linarith [h.2]
  have hRall : ∀ k : Fin gs.length, ∃ R : Arr δ → Arr δ,
      (∀ q x d, (gs.get k).scale d * (gs.get k).reg.proxDual ((gs.get k).reg.updateDual q x) d =
        R (fun d => (gs.get k).scale d * q d + (gs.get k).σ * (gs.get k).pen.K x d) d) ∧
      ∀ u z, (gs.get k).pen.H (fun d => (u d - R u d) / (gs.get k).σ) +
        ∑ d, R u d * (z d - (u d - R u d) / (gs.get k).σ) ≤ (gs.get k).pen.H z :=
    fun k => (hg _ (List.get_mem gs k)).dual
  choose R hR hRc using hRall
  have hok : ∀ k : Fin gs.length, (gs.get k).Ok := fun k => hg _ (List.get_mem gs k)
  have htw0 : ∀ i, 0 ≤ trainWeight a i := fun i => by
    have h := (effMask_range hs i).1
    rwa [effMask_eq] at h
  let s : Arr ι := fun i => trainWeight a i * sigma i
  have hs0 : ∀ i, 0 ≤ s i := fun i => mul_nonneg (htw0 i) (hσ i).le
  let t : Arr ι := fun i => b i - S.term.addBackground (fun _ => 0) i
  let P : SmoothProblem ν (Rows ι δ gs) :=
    { K := fun x => Sum.elim (fun i => ∑ j, M i j * x j) fun q => (gs.get q.1).pen.K x q.2
      Kt := fun p j => ∑ i, M i j * p (.inl i) + ∑ k, (gs.get k).pen.Kt (fun d => p (.inr (k, d))) j
      D := Sum.elim s fun q => (gs.get q.1).σ
      W := fun j => S.relaxation / tau j
      m := effXMask a
      ψ := fun y => Sum.elim (fun i => y (.inl i) - t i) fun q => (gs.get q.1).resp (R q.1) (fun d => y (.inr (q.1, d))) q.2
      ω := S.relaxation
      ωpos := hω
      ωlt := hω2
      sub := fun x y => by
        funext k
        rcases k with i | q
        · simp only [Sum.elim_inl, ← sum_sub_distrib]
          exact sum_congr rfl fun j _ => by ring
        · have := congrFun ((hok q.1).lin 1 (-1) x y) q.2
          simp only [one_mul, neg_mul, ← sub_eq_add_neg] at this
          exact this
      smul := fun c x => by
        funext k
        rcases k with i | q
        · simp only [Sum.elim_inl, mul_sum]
          exact sum_congr rfl fun j _ => by ring
        · have := congrFun ((hok q.1).lin c 0 x x) q.2
          simp only [zero_mul, add_zero] at this
          exact this
      adj := fun x p => by
        rw [Fintype.sum_sum_type, Fintype.sum_prod_type]
        simp only [Sum.elim_inl, Sum.elim_inr, mul_add, sum_add_distrib]
        congr 1
        · rw [matrix_adjoint M x]
        · simp only [mul_sum]
          rw [sum_comm (γ := ν)]
          refine sum_congr rfl fun k _ => ?_
          exact ((hok k).adj x fun d => p (.inr (k, d))).symm
      D0 := fun k => by
        rcases k with i | q
        · exact hs0 i
        · exact (hok q.1).σpos.le
      Wpos := fun j => div_pos hω (hτ j)
      mask := fun j => effXMask_binary hs j
      firm := fun u v => by
        rw [Fintype.sum_sum_type, Fintype.sum_sum_type, Fintype.sum_prod_type, Fintype.sum_prod_type]
        simp only [Sum.elim_inl, Sum.elim_inr]
        refine add_le_add (sum_le_sum fun i _ => le_of_eq (by ring)) (sum_le_sum fun k _ => ?_)
        exact resp_firm (hok k).σpos (hRc k) _ _
      pc := fun d hd => by
        have h0 : ZeroOutsideMask a d := fun m hm j hj => hd j (by simp [effXMask, hm, hj])
        have h1 := (hstepc _ h0).2.2
        rw [List.map_map, sum_get] at h1
        rw [Fintype.sum_sum_type, Fintype.sum_prod_type]
        refine le_trans (le_of_eq ?_) (h1.trans (le_of_eq ?_))
        · congr 1
          exact sum_congr rfl fun i _ => by simp only [Sum.elim_inl, s]; ring
        · rw [one_mul]
          refine sum_congr rfl fun j _ => ?_
          have := (hτ j).ne'
          have := hω.ne'
          field_simp }
  have hG : ∀ x j, P.G x j = ∑ i, M i j * (s i * (∑ j, M i j * x j - t i)) +
      ∑ k, (gs.get k).pen.Kt (R k fun d => (gs.get k).σ * (gs.get k).pen.K x d) j := by
    intro x j
    show ∑ i, M i j * (s i * (∑ j, M i j * x j - t i)) + _ = _
    congr 1
    refine sum_congr rfl fun k _ => ?_
    congr 1
    funext d
    show (gs.get k).σ * (R k (fun d => (gs.get k).σ * (gs.get k).pen.K x d) d / (gs.get k).σ) = _
    rw [mul_div_cancel₀ _ (hok k).σpos.ne']
  refine ⟨P, s, fun x k d => (gs.get k).pen.K x d - (gs.get k).resp (R k) ((gs.get k).pen.K x) d, rfl, ?_, ⟨rfl, fun j => tau_cols hregs hg hω htw0 hsc j, ?_⟩, ?_, ⟨hs0, P.Wpos, fun d hd => ?_⟩, ?_⟩
  · refine sigma_rows hsc hσ fun j => ?_
    rcases effXMask_binary hs j with h | h <;> rw [← effXMask_eq, h]; norm_num
  · intro x y
    have h1 := P.adj (fun j => y j - x j) fun k => P.D k * P.ψ (P.K x) k
    rw [P.sub] at h1
    change ∑ j, (y j - x j) * P.G x j = _ at h1
    rw [h1, Fintype.sum_sum_type, Fintype.sum_prod_type, Fintype.sum_sum_type, Fintype.sum_prod_type]
    have h2 : ∀ z, misfit S (matrixOp M) b s z = ∑ i, s i / 2 * (∑ j, M i j * z j - t i) ^ 2 := fun z => by
      unfold misfit
      rw [Finset.sum_div]
      refine sum_congr rfl fun i _ => ?_
      have hbg : S.term.addBackground ((matrixOp M).fwd z) i = S.term.addBackground (fun _ => 0) i + ∑ j, M i j * z j := by
        unfold addBackground
        cases S.term.background <;> simp [matrixOp, add_comm]
      simp only [t, hbg]
      ring
    have h3 : misfit S (matrixOp M) b s y = misfit S (matrixOp M) b s x +
        ∑ i, (P.K y (.inl i) - P.K x (.inl i)) * (P.D (.inl i) * P.ψ (P.K x) (.inl i)) +
        1 / 2 * ∑ i, P.D (.inl i) * (P.K y (.inl i) - P.K x (.inl i)) ^ 2 := by
      rw [h2, h2, mul_sum, ← sum_add_distrib, ← sum_add_distrib]
      refine sum_congr rfl fun i _ => ?_
      show _ = s i / 2 * (∑ j, M i j * x j - t i) ^ 2 + (∑ j, M i j * y j - ∑ j, M i j * x j) * (s i * (∑ j, M i j * x j - t i)) +
        1 / 2 * (s i * (∑ j, M i j * y j - ∑ j, M i j * x j) ^ 2)
      ring
    unfold softObjective
    rw [h3, mul_add, mul_sum (s := univ) (f := fun k : Fin gs.length => ∑ d, P.D (.inr (k, d)) * (P.K y (.inr (k, d)) - P.K x (.inr (k, d))) ^ 2)]
    have h4 : ∀ k : Fin gs.length, ((gs.get k).pen.H (fun d => (gs.get k).pen.K x d - (gs.get k).resp (R k) ((gs.get k).pen.K x) d) +
          ∑ d, (gs.get k).σ / 2 * ((gs.get k).pen.K y d - ((gs.get k).pen.K x d - (gs.get k).resp (R k) ((gs.get k).pen.K x) d)) ^ 2) =
        ((gs.get k).pen.H (fun d => (gs.get k).pen.K x d - (gs.get k).resp (R k) ((gs.get k).pen.K x) d) +
          ∑ d, (gs.get k).σ / 2 * ((gs.get k).pen.K x d - ((gs.get k).pen.K x d - (gs.get k).resp (R k) ((gs.get k).pen.K x) d)) ^ 2) +
        ∑ d, (P.K y (.inr (k, d)) - P.K x (.inr (k, d))) * (P.D (.inr (k, d)) * P.ψ (P.K x) (.inr (k, d))) +
        1 / 2 * ∑ d, P.D (.inr (k, d)) * (P.K y (.inr (k, d)) - P.K x (.inr (k, d))) ^ 2 := fun k => by
      rw [mul_sum, add_assoc, add_assoc, ← sum_add_distrib, ← sum_add_distrib]
      congr 1
      refine sum_congr rfl fun d _ => ?_
      show _ = (gs.get k).σ / 2 * ((gs.get k).pen.K x d - ((gs.get k).pen.K x d - (gs.get k).resp (R k) ((gs.get k).pen.K x) d)) ^ 2 +
        (((gs.get k).pen.K y d - (gs.get k).pen.K x d) * ((gs.get k).σ * (gs.get k).resp (R k) ((gs.get k).pen.K x) d) +
        1 / 2 * ((gs.get k).σ * ((gs.get k).pen.K y d - (gs.get k).pen.K x d) ^ 2))
      ring
    rw [sum_congr rfl fun k _ => h4 k, sum_add_distrib, sum_add_distrib]
    ring
  · intro x y w
    have h1 := P.adj (fun j => y j - x j) fun k => P.D k * P.ψ (P.K x) k
    rw [P.sub] at h1
    change ∑ j, (y j - x j) * P.G x j = _ at h1
    rw [h1, Fintype.sum_sum_type, Fintype.sum_prod_type]
    have h2 : ∀ z, misfit S (matrixOp M) b s z = ∑ i, s i / 2 * (∑ j, M i j * z j - t i) ^ 2 := fun z => by
      unfold misfit
      rw [Finset.sum_div]
      refine sum_congr rfl fun i _ => ?_
      have hbg : S.term.addBackground ((matrixOp M).fwd z) i = S.term.addBackground (fun _ => 0) i + ∑ j, M i j * z j := by
        unfold addBackground
        cases S.term.background <;> simp [matrixOp, add_comm]
      simp only [t, hbg]
      ring
    have h3 : misfit S (matrixOp M) b s x + ∑ i, (P.K y (.inl i) - P.K x (.inl i)) * (P.D (.inl i) * P.ψ (P.K x) (.inl i)) ≤
        misfit S (matrixOp M) b s y := by
      rw [h2, h2, ← sum_add_distrib]
      refine sum_le_sum fun i _ => ?_
      show s i / 2 * (∑ j, M i j * x j - t i) ^ 2 + (∑ j, M i j * y j - ∑ j, M i j * x j) * (s i * (∑ j, M i j * x j - t i)) ≤ _
      nlinarith [mul_nonneg (hs0 i) (sq_nonneg (∑ j, M i j * y j - ∑ j, M i j * x j))]
    have h4 := sum_le_sum fun k (_ : k ∈ univ) => resp_cert (hok k).σpos (hRc k) ((gs.get k).pen.K x) ((gs.get k).pen.K y) (w k)
    rw [sum_add_distrib] at h4
    have h5 : ∑ k : Fin gs.length, ∑ d, (P.K y (.inr (k, d)) - P.K x (.inr (k, d))) * (P.D (.inr (k, d)) * P.ψ (P.K x) (.inr (k, d))) =
        ∑ k, ∑ d, (gs.get k).σ * ((gs.get k).resp (R k) ((gs.get k).pen.K x) d * ((gs.get k).pen.K y d - (gs.get k).pen.K x d)) := by
      refine sum_congr rfl fun k _ => sum_congr rfl fun d _ => ?_
      show ((gs.get k).pen.K y d - (gs.get k).pen.K x d) * ((gs.get k).σ * (gs.get k).resp (R k) ((gs.get k).pen.K x) d) = _
      ring
    rw [h5]
    unfold softObjective
    linarith
  · have h1 := P.pc d hd
    rw [Fintype.sum_sum_type] at h1
    refine le_trans (le_add_of_nonneg_right ?_) h1
    exact sum_nonneg fun q _ => mul_nonneg (P.D0 (.inr q)) (sq_nonneg _)
  · intro b' o N x info S' h
    obtain ⟨sigma', tau', tt, hsc', -, he⟩ := sirt_ok h
    simp only [Prod.mk.injEq] at he
    have hsc'' : diagonalScaling (absOrSelf (matrixOp M)).1 (absOrSelf (matrixOp M)).2 S.regs 1 S.relaxation a.xMask
        (initBMasks a.bMask a.bTestMask).1 = .ok (sigma', tau') := hsc'
    rw [hsc] at hsc''
    simp only [Except.ok.injEq, Prod.mk.injEq] at hsc''
    obtain ⟨rfl, rfl⟩ := hsc''
    rw [he.1, hT]
    refine forRange_noBreak (π := XState.x) (f := fun x => clipMask a fun j => x j - P.ω / P.W j * (P.G x j - ∑ i, M i j * (s i * (b' i - b i)))) (fun k st => ?_) (fun k st => ?_) N _
    · rw [sirtStep_cases, recordResiduals_noTol]
    · rw [sirtStep_cases, recordResiduals_noTol, hregs]
      simp only [Bool.false_eq_true, if_false]
      rw [regs_fold gs fun r => (r.updatePrimal (r.proxDual (r.updateDual r.initDual st.x))).1]
      show _ = clipMask a fun j => st.x j - S.relaxation / (S.relaxation / tau j) * (P.G st.x j - ∑ i, M i j * (s i * (b' i - b i)))
      refine congrArg (clipMask a) ?_
      funext j
      have h1 : ∀ i, (S.term.assignData (some (.array b')) (.array sigma)).residual ((matrixOp M).fwd st.x)
          (initBMasks a.bMask a.bTestMask).1 i * sigma i = s i * (t i + (b' i - b i) - ∑ j, M i j * st.x j) := by
        intro i
        have hK : (S.term.assignData (some (.array b')) (.array sigma)).kind = .l2 := hk
        have hD : (S.term.assignData (some (.array b')) (.array sigma)).data = some (.array b') := rfl
        have hbg : (S.term.assignData (some (.array b')) (.array sigma)).addBackground ((matrixOp M).fwd st.x) i =
            S.term.addBackground (fun _ => 0) i + ∑ j, M i j * st.x j := by
          unfold addBackground
          change (match S.term.background with | none => _ | some bg => _) = _
          cases S.term.background <;> simp [matrixOp, add_comm]
        unfold DataTerm.residual
        simp only [hK, hD, Attr.get]
        show _ = trainWeight a i * sigma i * (t i + (b' i - b i) - _)
        rw [← effMask_eq]
        unfold effMask applyMask
        cases (initBMasks a.bMask a.bTestMask).1 <;> simp only [hbg, t, Option.getD_none, Option.getD_some] <;> ring
      have h2 : ∀ k : Fin gs.length, ((gs.get k).reg.updatePrimal ((gs.get k).reg.proxDual ((gs.get k).reg.updateDual (gs.get k).reg.initDual st.x))).1 j =
          (gs.get k).pen.Kt (R k fun d => (gs.get k).σ * (gs.get k).pen.K st.x d) j := by
        intro k
        rw [(hok k).primal, hinit _ (List.get_mem gs k)]
        show (gs.get k).pen.Kt _ j = _
        congr 1
        funext d
        rw [hR k]
        congr 1
        funext d
        rw [mul_zero, zero_add]
      simp only [h2]
      rw [hG, div_div_cancel₀ hω.ne']
      have h3 : (matrixOp M).adj (fun i => (S.term.assignData (some (.array b')) (.array sigma)).residual ((matrixOp M).fwd st.x)
          (initBMasks a.bMask a.bTestMask).1 i * sigma i) j = -∑ i, M i j * (s i * (∑ j, M i j * st.x j - t i)) + ∑ i, M i j * (s i * (b' i - b i)) := by
        simp only [h1]
        simp only [matrixOp]
        rw [← sum_neg_distrib, ← sum_add_distrib]
        exact sum_congr rfl fun i _ => by ring
      rw [h3]
      ring

/-- The iterations of one run, in the notation of the smoothed problem. -/
private theorem same_data {κ : Type} [Fintype κ] (P : SmoothProblem ν κ) (M : ι → ν → ℝ) (a : Args ν ι) (b s : Arr ι) :
    (fun x => clipMask a fun j => x j - P.ω / P.W j * (P.G x j - ∑ i, M i j * (s i * (b i - b i)))) = P.T a := by
  funext x
  simp only [sub_self, mul_zero, sum_const_zero, sub_zero]
  rfl

/-- C284: SIRT with regularizers (l2 data term, any list of convex regularizers, limits, masks, relaxation below 2): if the
smoothed problem has a solution (it has one when both limits are given), the volumes converge to one, whatever the starting volume; and
whenever the volumes converge, their limit is such a solution. Missing: the limit is in general not a solution of the problem with the penalties themselves (`C284_sirt_regs_violated`). -/
theorem C284_sirt_regs_partial {M : ι → ν → ℝ} {S : Solver ν ι (Arr δ)} {b : Arr ι} {a : Args ν ι} {gs : List (PReg ν δ)}
    (hregs : S.regs = gs.map (·.reg)) (hg : ∀ g ∈ gs, g.Ok) (hinit : ∀ g ∈ gs, g.reg.initDual = fun _ => 0)
    (hk : S.term.kind = .l2) (hT : S.tolerance = none) (hω : 0 < S.relaxation) (hω2 : S.relaxation < 2) (hs : SensibleScale M a)
    (hcols : ∀ j, (∑ i, |M i j|) + (gs.map fun g => g.c j).sum ≤ 100000) {xs : ℕ → Arr ν}
    (hrun : ∀ N, ∃ info S', sirt S (matrixOp M) b { a with iterations := N } = .ok (xs N, info, S')) :
    ∃ s, RowNormalized M a s ∧
      (∀ l u, a.lower = some l → a.upper = some u → (∃ z, Admissible a z) → ∃ z v, IsSoftSolution S M a b s gs z v) ∧
      (∀ z v, IsSoftSolution S M a b s gs z v → ∃ c vc, IsSoftSolution S M a b s gs c vc ∧ Tendsto xs atTop (𝓝 c)) ∧
      ∀ c, (∃ z, Admissible a z) → Tendsto xs atTop (𝓝 c) → ∃ vc, IsSoftSolution S M a b s gs c vc := by
  obtain ⟨info0, S0', h0⟩ := hrun 0
  obtain ⟨sigma, tau, tt, hsc, -, -⟩ := sirt_ok h0
  have hsc' : diagonalScaling (absOrSelf (matrixOp M)).1 (absOrSelf (matrixOp M)).2 S.regs 1 S.relaxation a.xMask
      (initBMasks a.bMask a.bTestMask).1 = .ok (sigma, tau) := hsc
  obtain ⟨P, s, V, hm, hrow, -, hcert, -, hit'⟩ := sirt_problem (b := b) hregs hg hinit hk hT hω hω2 hs hcols hsc'
  have hit : ∀ N x info S', sirt S (matrixOp M) b { a with iterations := N } = .ok (x, info, S') → x = (P.T a)^[N] (startVolume a 0) :=
    fun N x info S' h => by
      rw [hit' b a.x0 N x info S' h, same_data]
      rfl
  have hs' : SensibleScale (fun (_ : ι) (_ : ν) => (0 : ℝ)) a := ⟨hs.bMask, hs.test, hs.xMask, by simp, by simp⟩
  refine ⟨s, hrow, ?_, fun z v hzv => ?_, fun c ⟨z, hz⟩ hlim => ?_⟩
  · intro l u hl hu hadm
    have hcomp : IsCompact {x : Arr ν | Admissible a x} := by
      have hcl : IsClosed {x : Arr ν | Admissible a x} := by
        have : {x : Arr ν | Admissible a x} = ⋂ j, {x | x j ∈ {y : ℝ | (∀ l, a.lower = some l → l.get j ≤ y) ∧ (∀ u, a.upper = some u → y ≤ u.get j) ∧
            (∀ m, a.xMask = some m → y * m j = y)}} := by
          ext x
          simp only [Set.mem_setOf_eq, Set.mem_iInter]
          exact admissible_iff a x
        rw [this]
        exact isClosed_iInter fun j => (admissible_closed a j).preimage (continuous_apply j)
      refine (isCompact_univ_pi fun j => isCompact_Icc (a := l.get j) (b := u.get j)).of_isClosed_subset hcl fun x hx => ?_
      exact fun j _ => ⟨hx.1.1 l hl j, hx.1.2 u hu j⟩
    have hlsc : LowerSemicontinuousOn (fun x => softObjective S M b s gs x (V x)) {x : Arr ν | Admissible a x} := by
      intro x _ c hc
      have hcont : ContinuousAt (fun y : Arr ν => softObjective S M b s gs x (V x) + ∑ j, (y j - x j) * P.G x j) x := 
        (continuous_const.add (continuous_finset_sum _ fun j _ => ((continuous_apply j).sub continuous_const).mul continuous_const)).continuousAt
      have h1 : ∀ᶠ y in 𝓝 x, c < softObjective S M b s gs x (V x) + ∑ j, (y j - x j) * P.G x j :=
        hcont.eventually (lt_mem_nhds (by simpa using hc))
      exact (h1.filter_mono nhdsWithin_le_nhds).mono fun y hy => hy.trans_le (hcert x y (V y))
    obtain ⟨z, hz, hmin⟩ := hlsc.exists_isMinOn hadm hcomp
    exact ⟨z, V z, hz, fun y w hy => by
      have h1 := hcert y y w
      simp only [sub_self, zero_mul, sum_const_zero, add_zero] at h1
      exact (hmin hy).trans h1⟩
  · have hvi : ∀ y, Admissible a y → 0 ≤ ∑ j, (y j - z j) * P.G z j := by
      intro y hy
      have hkey : ∀ t : ℝ, 0 < t → t ≤ 1 → -(t * ∑ k, P.D k * (P.K (fun j => y j - z j) k) ^ 2) ≤ ∑ j, (y j - z j) * P.G z j := by
        intro t ht ht1
        set zt : Arr ν := fun j => z j + t * (y j - z j) with hzt
        have hadm : Admissible a zt := by
          rw [admissible_iff] at hy ⊢
          have hz := (admissible_iff a z).1 hzv.1
          intro j
          have h := (admissible_ordConnected hs j).convex (hz j) (hy j) (by linarith : 0 ≤ 1 - t) ht.le (by ring)
          have e : (1 - t) • z j + t • y j = zt j := by simp only [hzt, smul_eq_mul]; ring
          rwa [e] at h
        have h1 := hcert zt z v
        have h2 := hzv.2 zt (V zt) hadm
        have h3 := P.inner_le zt z
        have h4 : ∑ k, P.D k * (P.K zt k - P.K z k) ^ 2 = t ^ 2 * ∑ k, P.D k * (P.K (fun j => y j - z j) k) ^ 2 := by
          have h5 := P.sub zt z
          have h6 := P.smul t fun j => y j - z j
          have h7 : (fun j => zt j - z j) = fun j => t * (y j - z j) := by funext j; simp only [hzt]; ring
          rw [h7, h6] at h5
          rw [mul_sum]
          refine sum_congr rfl fun k _ => ?_
          rw [← congrFun h5 k]
          ring
        rw [h4] at h3
        have h8 : ∑ j, (zt j - z j) * (P.G zt j - P.G z j) = -(∑ j, (z j - zt j) * P.G zt j) - t * ∑ j, (y j - z j) * P.G z j := by
          rw [mul_sum, ← sum_neg_distrib, ← sum_sub_distrib]
          exact sum_congr rfl fun j _ => by simp only [hzt]; ring
        rw [h8] at h3
        have h9 : t * (-(t * ∑ k, P.D k * (P.K (fun j => y j - z j) k) ^ 2)) ≤ t * ∑ j, (y j - z j) * P.G z j := by linarith
        exact le_of_mul_le_mul_left h9 ht
      have hC : 0 ≤ ∑ k, P.D k * (P.K (fun j => y j - z j) k) ^ 2 := sum_nonneg fun k _ => mul_nonneg (P.D0 k) (sq_nonneg _)
      set C := ∑ k, P.D k * (P.K (fun j => y j - z j) k) ^ 2
      by_contra hne
      push Not at hne
      set g := ∑ j, (y j - z j) * P.G z j
      have h1 := hkey 1 one_pos le_rfl
      have hCp : 0 < C := by linarith
      have h2 := hkey (-g / (2 * C)) (by apply div_pos <;> linarith) (by rw [div_le_one (by linarith)]; linarith)
      have h3 : -g / (2 * C) * C = -g / 2 := by field_simp
      rw [h3] at h2
      linarith
    have hf := P.fixed_of_vi hs' hzv.1 hvi
    obtain ⟨c, hc, hfc, hlim⟩ := P.T_converges hs' hm hzv.1 hzv.1 hf (startVolume a 0)
    refine ⟨c, V c, ⟨hc, fun y w hy => ?_⟩, ?_⟩
    · have h1 := hcert c y w
      have h2 := P.vi_of_fixed hs' hm hzv.1 hfc hy
      linarith
    · refine hlim.congr fun N => ?_
      obtain ⟨info, S', h⟩ := hrun N
      exact (hit N _ _ _ h).symm
  · have hlim' : Tendsto (fun n => (P.T a)^[n] (startVolume a 0)) atTop (𝓝 c) := hlim.congr fun N => by
      obtain ⟨info, S', h⟩ := hrun N
      exact hit N _ _ _ h
    obtain ⟨hc, hfc⟩ := P.limit_fixed hs' hm hz hlim'
    refine ⟨V c, hc, fun y w hy => ?_⟩
    have h1 := hcert c y w
    have h2 := P.vi_of_fixed hs' hm hz hfc hy
    linarith

/-- Specification: the penalty changes by at most `L` times the Euclidean distance. -/
def LipschitzPenalty (H : Arr δ → ℝ) (L : ℝ) : Prop := ∀ y v, (H y - H v) ^ 2 ≤ L ^ 2 * ∑ d, (y d - v d) ^ 2

private theorem lipschitz_gap {H : Arr δ → ℝ} {L σ : ℝ} (hσ : 0 < σ) (h : LipschitzPenalty H L) (y v : Arr δ) :
    H y ≤ (H v + ∑ d, σ / 2 * (y d - v d) ^ 2) + L ^ 2 / (2 * σ) := by
  have h1 := h y v
  rw [← mul_sum]
  set D := ∑ d, (y d - v d) ^ 2
  have hD : 0 ≤ D := sum_nonneg fun d _ => sq_nonneg _
  have h2 : 0 ≤ σ / 2 * D + L ^ 2 / (2 * σ) := by positivity
  have h3 : L ^ 2 * D ≤ (σ / 2 * D + L ^ 2 / (2 * σ)) ^ 2 := by
    have : (σ / 2 * D + L ^ 2 / (2 * σ)) ^ 2 - L ^ 2 * D = (σ / 2 * D - L ^ 2 / (2 * σ)) ^ 2 := by field_simp; ring
    nlinarith [sq_nonneg (σ / 2 * D - L ^ 2 / (2 * σ))]
  have h4 := abs_le_of_sq_le_sq (h1.trans h3) h2
  linarith [le_abs_self (H y - H v)]

/-- C284: how far the limit is from the problem with the penalties themselves. If penalty `k` is `L k`-Lipschitz, no admissible volume has a
(row-weighted) misfit plus penalties that is lower than that of the limit by more than `∑ (L k)² / (2 σ k)`. -/
theorem C284_sirt_regs_gap {M : ι → ν → ℝ} {S : Solver ν ι (Arr δ)} {b : Arr ι} {a : Args ν ι} {gs : List (PReg ν δ)}
    (hregs : S.regs = gs.map (·.reg)) (hg : ∀ g ∈ gs, g.Ok) (hinit : ∀ g ∈ gs, g.reg.initDual = fun _ => 0)
    (hk : S.term.kind = .l2) (hT : S.tolerance = none) (hω : 0 < S.relaxation) (hω2 : S.relaxation < 2) (hs : SensibleScale M a)
    (hcols : ∀ j, (∑ i, |M i j|) + (gs.map fun g => g.c j).sum ≤ 100000) {L : Fin gs.length → ℝ}
    (hL : ∀ k, LipschitzPenalty (gs.get k).pen.H (L k)) (hadm : ∃ z, Admissible a z) {xs : ℕ → Arr ν} {c : Arr ν}
    (hrun : ∀ N, ∃ info S', sirt S (matrixOp M) b { a with iterations := N } = .ok (xs N, info, S')) (hlim : Tendsto xs atTop (𝓝 c)) :
    Admissible a c ∧ ∃ s, RowNormalized M a s ∧ ∀ y, Admissible a y →
      misfit S (matrixOp M) b s c + ∑ k, (gs.get k).pen.H ((gs.get k).pen.K c) ≤
        misfit S (matrixOp M) b s y + ∑ k, (gs.get k).pen.H ((gs.get k).pen.K y) + ∑ k, L k ^ 2 / (2 * (gs.get k).σ) := by
  obtain ⟨s, hrow, -, -, h⟩ := C284_sirt_regs_partial (b := b) hregs hg hinit hk hT hω hω2 hs hcols hrun
  obtain ⟨v, hc, hmin⟩ := h c hadm hlim
  refine ⟨hc, s, hrow, fun y hy => ?_⟩
  have h1 := hmin y (fun k => (gs.get k).pen.K y) hy
  have h2 := sum_le_sum fun k (_ : k ∈ univ) =>
    lipschitz_gap (hg _ (List.get_mem gs k)).σpos (hL k) ((gs.get k).pen.K c) (v k)
  rw [sum_add_distrib] at h2
  unfold softObjective at h1
  simp only [sub_self, ne_eq, OfNat.ofNat_ne_zero, not_false_eq_true, zero_pow, mul_zero, sum_const_zero, add_zero] at h1
  linarith

/-- C284: the weighted l1 penalties are Lipschitz, whatever the transform; the constant is the Euclidean norm of the weights. -/
theorem C284_l1_lipschitz (r : RegState ν δ) : LipschitzPenalty (l1Penalty r).H (Real.sqrt (∑ k, r.weight.get (r.pix k) ^ 2)) := by
  intro y v
  rw [Real.sq_sqrt (sum_nonneg fun k _ => sq_nonneg _)]
  have e : (l1Penalty r).H y - (l1Penalty r).H v = ∑ k, r.weight.get (r.pix k) * (|y k| - |v k|) := by
    simp only [l1Penalty, mul_sub, sum_sub_distrib]
  rw [e]
  refine (sum_mul_sq_le_sq_mul_sq _ _ _).trans ?_
  refine mul_le_mul_of_nonneg_left (sum_le_sum fun k _ => ?_) (sum_nonneg fun k _ => sq_nonneg _)
  exact sq_le_sq.2 (abs_abs_sub_abs_le _ _)

private theorem euclid_lipschitz {m : ℕ} (y v : Fin m → ℝ) :
    (Real.sqrt (∑ i, y i ^ 2) - Real.sqrt (∑ i, v i ^ 2)) ^ 2 ≤ ∑ i, (y i - v i) ^ 2 := by
  have h := abs_norm_sub_norm_le (WithLp.toLp 2 y : EuclideanSpace ℝ (Fin m)) (WithLp.toLp 2 v)
  rw [EuclideanSpace.norm_eq, EuclideanSpace.norm_eq, EuclideanSpace.norm_eq] at h
  simp only [Real.norm_eq_abs, sq_abs, PiLp.sub_apply] at h
  have h2 := sq_le_sq.2 (h.trans (le_abs_self _))
  rwa [Real.sq_sqrt (sum_nonneg fun i _ => sq_nonneg _)] at h2

/-- C284: so is the total variation, with the weight times the root of the number of voxels. -/
theorem C284_tv_lipschitz {κ : Type} [Fintype κ] [DecidableEq κ] {n : κ → ℕ} (mode : PadMode) {m : ℕ} (axes : Fin m → κ) (w : ℝ) :
    LipschitzPenalty (tvPenalty (n := n) mode axes w).H (Real.sqrt (∑ _p : Idx n, w ^ 2)) := by
  intro y v
  rw [Real.sq_sqrt (sum_nonneg fun k _ => sq_nonneg _)]
  have e : (tvPenalty (n := n) mode axes w).H y - (tvPenalty (n := n) mode axes w).H v =
      ∑ p, w * (Real.sqrt (∑ i, y (i, p) ^ 2) - Real.sqrt (∑ i, v (i, p) ^ 2)) := by
    simp only [tvPenalty, mul_sub, sum_sub_distrib, mul_sum]
  rw [e]
  refine (sum_mul_sq_le_sq_mul_sq _ _ _).trans ?_
  refine mul_le_mul_of_nonneg_left ?_ (sum_nonneg fun k _ => sq_nonneg _)
  rw [Fintype.sum_prod_type, sum_comm]
  exact sum_le_sum fun p _ => euclid_lipschitz (fun i => y (i, p)) fun i => v (i, p)

/-- One step of the rate. -/
private theorem rate_step {κ : Type} [Fintype κ] (P : SmoothProblem ν κ) {a : Args ν ι} (hs : SensibleScale (fun (_ : ι) (_ : ν) => (0 : ℝ)) a)
    (hm : P.m = effXMask a) {φ : Arr ν → ℝ} (hdesc : ∀ x y, φ y ≤ φ x + ∑ j, (y j - x j) * P.G x j + 1 / 2 * ∑ k, P.D k * (P.K y k - P.K x k) ^ 2)
    {x z : Arr ν} {J : ℝ} (hx : ∀ j, effXMask a j = 0 → x j = 0) (hz : Admissible a z) (hJ : φ x + ∑ j, (z j - x j) * P.G x j ≤ J) :
    φ (P.T a x) + 1 / (2 * P.ω) * dist2 P.W (P.T a x) z ≤
      J + 1 / (2 * P.ω) * dist2 P.W x z + (1 / 2 - 1 / (2 * P.ω)) * dist2 P.W (P.T a x) x := by
  have hω := P.ωpos
  have h1 := hdesc x (P.T a x)
  have h2 := P.pc (fun j => P.T a x j - x j) fun j hj => by
    have hj' : effXMask a j = 0 := by rw [← hm]; exact hj
    rw [hx j hj', zeroOutside_eff (admissible_zero (P.T_adm hs hm hz x)) j hj', sub_zero]
  rw [P.sub] at h2
  change _ ≤ dist2 P.W (P.T a x) x at h2
  have h3 : ∑ j, (P.T a x j - z j) * P.G x j ≤ 1 / (2 * P.ω) * dist2 P.W x z - 1 / (2 * P.ω) * dist2 P.W (P.T a x) x - 1 / (2 * P.ω) * dist2 P.W (P.T a x) z := by
    unfold dist2
    rw [mul_sum, mul_sum, mul_sum, ← sum_sub_distrib, ← sum_sub_distrib]
    refine sum_le_sum fun j _ => ?_
    have h := clip_vi hs hz (fun j => x j - P.ω / P.W j * P.G x j) j
    change (x j - P.ω / P.W j * P.G x j - P.T a x j) * (z j - P.T a x j) ≤ 0 at h
    have hW := P.Wpos j
    have h4 := mul_le_mul_of_nonneg_left h (div_pos hW hω).le
    rw [mul_zero] at h4
    have h5 : P.W j / P.ω * ((x j - P.ω / P.W j * P.G x j - P.T a x j) * (z j - P.T a x j)) =
        (P.T a x j - z j) * P.G x j - (1 / (2 * P.ω) * (P.W j * (x j - z j) ^ 2) - 1 / (2 * P.ω) * (P.W j * (P.T a x j - x j) ^ 2) -
          1 / (2 * P.ω) * (P.W j * (P.T a x j - z j) ^ 2)) := by
      field_simp
      ring
    linarith
  have h4 : ∑ j, (P.T a x j - x j) * P.G x j = ∑ j, (P.T a x j - z j) * P.G x j + ∑ j, (z j - x j) * P.G x j := by
    rw [← sum_add_distrib]
    exact sum_congr rfl fun j _ => by ring
  rw [h4] at h1
  nlinarith

/-- C285: the rate. With a relaxation of at most 1 and a start that is 0 where the solution mask is, the smoothed objective after `N` iterations
is above that of any admissible volume by at most its weighted squared distance to the start over `2 N` times the relaxation; and it never
increases after the first iteration. The weights are the column sums plus the step sizes of the regularizers. -/
theorem C285_sirt_regs_rate {M : ι → ν → ℝ} {S : Solver ν ι (Arr δ)} {b : Arr ι} {a : Args ν ι} {gs : List (PReg ν δ)}
    (hregs : S.regs = gs.map (·.reg)) (hg : ∀ g ∈ gs, g.Ok) (hinit : ∀ g ∈ gs, g.reg.initDual = fun _ => 0)
    (hk : S.term.kind = .l2) (hT : S.tolerance = none) (hω : 0 < S.relaxation) (hω1 : S.relaxation ≤ 1) (hs : SensibleScale M a)
    (hcols : ∀ j, (∑ i, |M i j|) + (gs.map fun g => g.c j).sum ≤ 100000) (hx0 : ZeroOutsideMask a (startVolume a 0)) {xs : ℕ → Arr ν}
    (hrun : ∀ N, ∃ info S', sirt S (matrixOp M) b { a with iterations := N } = .ok (xs N, info, S')) :
    ∃ (s : Arr ι) (w : Arr ν), RowNormalized M a s ∧
      (∀ j, 0 < w j ∧ (w j = ∑ i, |M i j| * trainWeight a i + (gs.map fun g => g.c j).sum ∨ w j = 1)) ∧
      ∃ v : ℕ → Fin gs.length → Arr δ, ∀ z u, Admissible a z → ∀ N, 1 ≤ N → Admissible a (xs N) ∧
        softObjective S M b s gs (xs (N + 1)) (v (N + 1)) ≤ softObjective S M b s gs (xs N) (v N) ∧
        softObjective S M b s gs (xs N) (v N) ≤ softObjective S M b s gs z u + dist2 w (startVolume a 0) z / (2 * S.relaxation * N) := by
  obtain ⟨info0, S0', h0⟩ := hrun 0
  obtain ⟨sigma, tau, tt, hsc, -, -⟩ := sirt_ok h0
  have hsc' : diagonalScaling (absOrSelf (matrixOp M)).1 (absOrSelf (matrixOp M)).2 S.regs 1 S.relaxation a.xMask
      (initBMasks a.bMask a.bTestMask).1 = .ok (sigma, tau) := hsc
  obtain ⟨P, s, V, hm, hrow, ⟨hPω, hW, hex⟩, hcert, -, hit'⟩ := sirt_problem (b := b) hregs hg hinit hk hT hω (by linarith) hs hcols hsc'
  have hit : ∀ N x info S', sirt S (matrixOp M) b { a with iterations := N } = .ok (x, info, S') → x = (P.T a)^[N] (startVolume a 0) :=
    fun N x info S' h => by
      rw [hit' b a.x0 N x info S' h, same_data]
      rfl
  have hs' : SensibleScale (fun (_ : ι) (_ : ν) => (0 : ℝ)) a := ⟨hs.bMask, hs.test, hs.xMask, by simp, by simp⟩
  have hxs : ∀ N, xs N = (P.T a)^[N] (startVolume a 0) := fun N => by
    obtain ⟨info, S', h⟩ := hrun N
    exact hit N _ _ _ h
  have hsucc : ∀ N, xs (N + 1) = P.T a (xs N) := fun N => by rw [hxs, hxs, Function.iterate_succ_apply']
  refine ⟨s, P.W, hrow, fun j => ⟨P.Wpos j, hW j⟩, fun N => V (xs N), fun z u hz => ?_⟩
  set φ : Arr ν → ℝ := fun x => softObjective S M b s gs x (V x) with hφ
  have hdesc : ∀ x y, φ y ≤ φ x + ∑ j, (y j - x j) * P.G x j + 1 / 2 * ∑ k, P.D k * (P.K y k - P.K x k) ^ 2 := fun x y => by
    rw [hφ]
    dsimp only
    rw [← hex x y]
    have := hcert y y (V x)
    simpa using this
  have hadm : ∀ N, 1 ≤ N → Admissible a (xs N) := fun N hN => by
    obtain ⟨n, rfl⟩ := Nat.exists_eq_add_of_le' hN
    rw [hsucc]
    exact P.T_adm hs' hm hz _
  have hzero : ∀ N, ∀ j, effXMask a j = 0 → xs N j = 0 := fun N => by
    rcases Nat.eq_zero_or_pos N with rfl | h
    · rw [hxs 0]; exact fun j hj => zeroOutside_eff hx0 j hj
    · exact fun j hj => zeroOutside_eff (admissible_zero (hadm N h)) j hj
  have hc : 0 < 1 / (2 * P.ω) := by have := P.ωpos; positivity
  have hc1 : 1 / 2 - 1 / (2 * P.ω) ≤ 0 := by
    have h2 : (1 : ℝ) / 2 ≤ 1 / (2 * P.ω) := by
      rw [hPω]
      exact one_div_le_one_div_of_le (by linarith) (by linarith)
    linarith
  have hd0 : ∀ x y : Arr ν, 0 ≤ dist2 P.W x y := fun x y => sum_nonneg fun j _ => mul_nonneg (P.Wpos j).le (sq_nonneg _)
  have hstep : ∀ N, φ (xs (N + 1)) + 1 / (2 * P.ω) * dist2 P.W (xs (N + 1)) z ≤ softObjective S M b s gs z u + 1 / (2 * P.ω) * dist2 P.W (xs N) z := by
    intro N
    rw [hsucc]
    have h1 := rate_step P hs' hm hdesc (hzero N) hz (hcert (xs N) z u)
    nlinarith [hd0 (P.T a (xs N)) (xs N)]
  have hmono : ∀ N, 1 ≤ N → φ (xs (N + 1)) ≤ φ (xs N) := by
    intro N hN
    rw [hsucc]
    have h1 := rate_step P hs' hm hdesc (hzero N) (hadm N hN) (hcert (xs N) (xs N) (V (xs N)))
    have h2 : dist2 P.W (xs N) (xs N) = 0 := by simp [dist2]
    rw [h2] at h1
    nlinarith [hd0 (P.T a (xs N)) (xs N)]
  have hsum : ∀ N : ℕ, N * φ (xs N) + 1 / (2 * P.ω) * dist2 P.W (xs N) z ≤
      N * softObjective S M b s gs z u + 1 / (2 * P.ω) * dist2 P.W (xs 0) z := by
    intro N
    induction N with
    | zero => simp
    | succ n ih =>
      have h1 := hstep n
      have h2 : (n : ℝ) * φ (xs (n + 1)) ≤ n * φ (xs n) := by
        rcases Nat.eq_zero_or_pos n with rfl | h
        · simp
        · exact mul_le_mul_of_nonneg_left (hmono n h) (Nat.cast_nonneg n)
      push_cast
      linarith
  intro N hN
  refine ⟨hadm N hN, hmono N hN, ?_⟩
  have h1 := hsum N
  have hNp : (0 : ℝ) < N := by exact_mod_cast hN
  have h2 : 0 ≤ 1 / (2 * P.ω) * dist2 P.W (xs N) z := mul_nonneg hc.le (hd0 _ _)
  have h3 : dist2 P.W (startVolume a 0) z / (2 * S.relaxation * N) = 1 / (2 * P.ω) * dist2 P.W (xs 0) z / N := by
    rw [hxs 0, hPω]
    simp only [Function.iterate_zero, id_eq]
    field_simp
  rw [h3]
  have h4 : φ (xs N) - softObjective S M b s gs z u ≤ 1 / (2 * P.ω) * dist2 P.W (xs 0) z / N := by
    rw [le_div_iff₀ hNp]
    linarith
  linarith

/-- C286: SIRT with regularizers is stable. Two runs of `n` iterations with data `b`, `b'` and start volumes that differ only where the solution
mask is not zero: in the volume's weighted norm the results differ at most by as much as the start volumes do plus `n` times the relaxation times
the difference of the data in the row-normalised norm. -/
theorem C286_sirt_regs_stable {M : ι → ν → ℝ} {S : Solver ν ι (Arr δ)} {b b' : Arr ι} {a : Args ν ι} {gs : List (PReg ν δ)}
    (hregs : S.regs = gs.map (·.reg)) (hg : ∀ g ∈ gs, g.Ok) (hinit : ∀ g ∈ gs, g.reg.initDual = fun _ => 0)
    (hk : S.term.kind = .l2) (hT : S.tolerance = none) (hω : 0 < S.relaxation) (hω2 : S.relaxation < 2) (hs : SensibleScale M a)
    (hcols : ∀ j, (∑ i, |M i j|) + (gs.map fun g => g.c j).sum ≤ 100000) (hadm : ∃ z, Admissible a z) {o o' : Option (Arr ν)} {n : ℕ}
    (hst : ∀ m, a.xMask = some m → ∀ j, m j = 0 → (o.getD fun _ => 0) j = (o'.getD fun _ => 0) j) {x y info info' S1 S2}
    (h : sirt S (matrixOp M) b { a with iterations := n, x0 := o } = .ok (x, info, S1))
    (h' : sirt S (matrixOp M) b' { a with iterations := n, x0 := o' } = .ok (y, info', S2)) :
    ∃ (s : Arr ι) (w : Arr ν), RowNormalized M a s ∧
      (∀ j, 0 < w j ∧ (w j = ∑ i, |M i j| * trainWeight a i + (gs.map fun g => g.c j).sum ∨ w j = 1)) ∧
      Real.sqrt (dist2 w x y) ≤ Real.sqrt (dist2 w (o.getD fun _ => 0) (o'.getD fun _ => 0)) +
        n * (S.relaxation * Real.sqrt (∑ i, s i * (b i - b' i) ^ 2)) := by
  obtain ⟨sigma, tau, tt, hsc, -, -⟩ := sirt_ok h
  have hsc' : diagonalScaling (absOrSelf (matrixOp M)).1 (absOrSelf (matrixOp M)).2 S.regs 1 S.relaxation a.xMask
      (initBMasks a.bMask a.bTestMask).1 = .ok (sigma, tau) := hsc
  obtain ⟨P, s, V, hm, hrow, ⟨hPω, hW, -⟩, -, hok, hit⟩ := sirt_problem (b := b) hregs hg hinit hk hT hω hω2 hs hcols hsc'
  have hs' : SensibleScale (fun (_ : ι) (_ : ν) => (0 : ℝ)) a := ⟨hs.bMask, hs.test, hs.xMask, by simp, by simp⟩
  obtain ⟨z0, hz0⟩ := hadm
  refine ⟨s, P.W, hrow, fun j => ⟨P.Wpos j, hW j⟩, ?_⟩
  rw [hit b o n x info S1 h, hit b' o' n y info' S2 h', same_data]
  set T' : Arr ν → Arr ν := fun x => clipMask a fun j => x j - P.ω / P.W j * (P.G x j - ∑ i, M i j * (s i * (b' i - b i))) with hT'
  set u : Arr ν := o.getD fun _ => 0
  set v : Arr ν := o'.getD fun _ => 0
  have hnoise : ∀ Y, Real.sqrt (dist2 P.W (P.T a Y) (T' Y)) ≤ S.relaxation * Real.sqrt (∑ i, s i * (b i - b' i) ^ 2) := by
    intro Y
    set x' : Arr ν := fun j => Y j - P.ω / P.W j * P.G Y j with hx'
    have h1 := sirtMap_noise (t := fun i => ∑ j, M i j * x' j) (t' := fun i => ∑ j, M i j * x' j + (b' i - b i)) hω.le hs hok hz0 x'
    have e1 : sirtMap M a s (fun i => ∑ j, M i j * x' j) P.W S.relaxation x' = P.T a Y := by
      unfold sirtMap
      refine congrArg (clipMask a) ?_
      funext j
      simp [wgrad, hx']
    have e2 : sirtMap M a s (fun i => ∑ j, M i j * x' j + (b' i - b i)) P.W S.relaxation x' = T' Y := by
      unfold sirtMap
      rw [hT']
      refine congrArg (clipMask a) ?_
      funext j
      simp only [wgrad, add_sub_cancel_left, hPω, hx']
      ring
    rw [e1, e2] at h1
    refine h1.trans (le_of_eq ?_)
    congr 2
    exact sum_congr rfl fun i _ => by ring
  have key : ∀ k : ℕ, (∀ j, effXMask a j = 0 → (P.T a)^[k] u j = T'^[k] v j) ∧
      Real.sqrt (dist2 P.W ((P.T a)^[k] u) (T'^[k] v)) ≤
      Real.sqrt (dist2 P.W u v) + k * (S.relaxation * Real.sqrt (∑ i, s i * (b i - b' i) ^ 2)) := by
    intro k
    induction k with
    | zero =>
      refine ⟨fun j hj => ?_, by simp⟩
      unfold effXMask at hj
      cases hm : a.xMask with
      | none => simp [hm] at hj
      | some m => exact hst m hm j (by simpa [hm] using hj)
    | succ k ih =>
      rw [Function.iterate_succ_apply', Function.iterate_succ_apply']
      set X := (P.T a)^[k] u
      set Y := T'^[k] v
      refine ⟨fun j hj => ?_, ?_⟩
      · rw [zeroOutside_eff (admissible_zero (P.T_adm hs' hm hz0 X)) j hj, hT']
        exact (zeroOutside_eff (admissible_zero (clipMask_admissible hs hz0 _)) j hj).symm
      · have h1 := dist2_triangle P.Wpos (P.T a X) (P.T a Y) (T' Y)
        have h2 := Real.sqrt_le_sqrt (P.T_nonexp hs' hm hz0 ih.1)
        have h3 := hnoise Y
        push_cast
        linarith [ih.2]
  exact (key n).2

/-- A single voxel, measured as 1, and the l1 penalty. -/
private noncomputable def oneReg : PReg (Fin 1) (Fin 1) :=
  (l1Reg (.scalar 1) none (.new .l1 none)).preg (l1Penalty (l1Reg (.scalar 1) none (.new .l1 none)))

private noncomputable def oneS : Solver (Fin 1) (Fin 1) (Arr (Fin 1)) :=
  ⟨1, none, [oneReg].map (·.reg), .new .l2 none, .new .l2 none, none⟩

private theorem one_fix (c : ℝ) (hc : 0 < c) : fixSmall (fun _ : Fin 1 => c) = fun _ => c := by
  funext i
  unfold fixSmall
  simp only [npMax, ciSup_const]
  rw [if_neg]
  rw [div_self hc.ne']
  norm_num

private theorem one_scaling : diagonalScaling (absOrSelf (matrixOp fun _ _ : Fin 1 => (1 : ℝ))).1 (absOrSelf (matrixOp fun _ _ : Fin 1 => (1 : ℝ))).2
    oneS.regs 1 1 none none = .ok (fun _ => 1, fun _ => 1 / 2) := by
  have h1 := one_fix 1 one_pos
  have h2 := one_fix 2 two_pos
  simp only [diagonalScaling, absOrSelf, matrixOp, oneS, oneReg, RegState.preg, RegState.toReg, l1Reg, applyMask, List.map_cons, List.map_nil,
    List.foldl_cons, List.foldl_nil, univ_unique, sum_singleton, abs_one, mul_one]
  norm_num [npMax, h1, h2]

private theorem one_ok : oneReg.Ok := C141_l1 _ (fun _ => one_pos) _ rfl

private theorem one_resp (x : Arr (Fin 1)) (h0 : 0 ≤ x 0) (h1 : x 0 ≤ 1) :
    (oneReg.reg.updatePrimal (oneReg.reg.proxDual (oneReg.reg.updateDual oneReg.reg.initDual x))).1 0 = x 0 := by
  have h2 : |x 0| ≤ 1 := by rw [abs_of_nonneg h0]; exact h1
  simp [oneReg, RegState.preg, RegState.toReg, RegState.updatePrimal, RegState.proxDual, RegState.updateDual, l1Reg, Kind.isL1, assignData, DataTerm.new,
    proxDual, applyThreshold, subSigmaData, innerNorm, applyMask, Attr.get, max_eq_right h2]

private theorem one_step (N ii : ℕ) (tt : DataTerm (Fin 1)) (tm : Option (Arr (Fin 1))) (st : XState (Fin 1)) (h0 : 0 ≤ st.x 0) (h1 : st.x 0 ≤ 1) :
    (sirtStep (matrixOp fun _ _ : Fin 1 => (1 : ℝ)) { iterations := N } oneS.regs (oneS.term.assignData (some (.array fun _ => 1)) (.array fun _ => 1))
      tt none tm (fun _ => 1) (fun _ => 1 / 2) none ii st).1.x = fun _ => 1 / 2 := by
  rw [sirtStep_cases, recordResiduals_noTol]
  have h2 := one_resp st.x h0 h1
  funext j
  fin_cases j
  simp only [oneS, List.map_cons, List.map_nil, List.foldl_cons, List.foldl_nil, Bool.false_eq_true, if_false]
  simp [clipMask, matrixOp, assignData, DataTerm.new, DataTerm.residual, addBackground, Attr.get, h2, clip1, applyMask]
  ring

private theorem one_run (N : ℕ) : ∃ x info S', sirt oneS (matrixOp fun _ _ : Fin 1 => (1 : ℝ)) (fun _ => 1) { iterations := N } = .ok (x, info, S') ∧
    (1 ≤ N → x = fun _ => 1 / 2) := by
  obtain ⟨⟨x, info, S'⟩, hr⟩ := sirt_runs (b := fun _ => 1) (a := { iterations := N }) one_scaling rfl
  refine ⟨x, info, S', hr, fun hN => ?_⟩
  obtain ⟨sigma, tau, tt, hsc, htt, he⟩ := sirt_ok hr
  simp only [Prod.mk.injEq] at he
  have hsc' : diagonalScaling (absOrSelf (matrixOp fun _ _ : Fin 1 => (1 : ℝ))).1 (absOrSelf (matrixOp fun _ _ : Fin 1 => (1 : ℝ))).2
      oneS.regs 1 1 none none = .ok (sigma, tau) := hsc
  rw [one_scaling] at hsc'
  simp only [Except.ok.injEq, Prod.mk.injEq] at hsc'
  obtain ⟨rfl, rfl⟩ := hsc'
  rw [he.1]
  refine forRange_ind (fun k (s : XState (Fin 1)) => 0 ≤ s.x 0 ∧ s.x 0 ≤ 1 ∧ (1 ≤ k → s.x = fun _ => 1 / 2)) (fun s => s.x = fun _ => 1 / 2) ?_ ?_ ?_ ?_
  · simp
  · intro k s _ h _
    have h1 := one_step N k tt none s h.1 h.2.1
    refine ⟨?_, ?_, fun _ => h1⟩
    · exact (congrFun h1 0).symm ▸ (by norm_num)
    · exact (congrFun h1 0).symm ▸ (by norm_num)
  · intro k s _ h _
    exact one_step N k tt none s h.1 h.2.1
  · intro s h
    exact h.2.2 hN

/-- C284: the limit is not a solution of the problem with the penalty itself. One voxel measured as 1, and the l1 penalty with weight 1: every
run of at least one iteration returns 1/2, the solution is 0. -/
theorem C284_sirt_regs_violated : ∃ (S : Solver (Fin 1) (Fin 1) (Arr (Fin 1))) (M : Fin 1 → Fin 1 → ℝ) (a : Args (Fin 1) (Fin 1)) (b : Arr (Fin 1))
    (gs : List (PReg (Fin 1) (Fin 1))) (xs : ℕ → Arr (Fin 1)),
    S.regs = gs.map (·.reg) ∧ (∀ g ∈ gs, g.Ok) ∧ (∀ g ∈ gs, g.reg.initDual = fun _ => 0) ∧ S.term.kind = .l2 ∧ S.tolerance = none ∧ S.relaxation = 1 ∧
    SensibleScale M a ∧ (∀ N, ∃ info S', sirt S (matrixOp M) b { a with iterations := N } = .ok (xs N, info, S')) ∧
    Tendsto xs atTop (𝓝 fun _ => 1 / 2) ∧ IsSolution S M a b (gs.map (·.pen)) (fun _ => 0) ∧ ¬ IsSolution S M a b (gs.map (·.pen)) fun _ => 1 / 2 := by
  choose xs info S' hx using one_run
  have hobj : ∀ x : Arr (Fin 1), objective oneS (fun _ _ : Fin 1 => (1 : ℝ)) { iterations := 0 } (fun _ => 1) ([oneReg].map (·.pen)) x = (x 0 - 1) ^ 2 / 2 + |x 0| := by
    intro x
    simp [objective, oneS, DataTerm.new, pixelFunctional, fL2, trainWeight, addBackground, oneReg, RegState.preg, l1Penalty, l1Reg, Attr.get]
  have hfe : ∀ x : Arr (Fin 1), Feasible oneS (fun _ _ : Fin 1 => (1 : ℝ)) ({ iterations := 0 } : Args (Fin 1) (Fin 1)) (fun _ => 1) x := by
    intro x
    refine ⟨⟨⟨by simp, by simp⟩, by simp⟩, fun i _ => ?_⟩
    simp [oneS, DataTerm.new, pixelFunctional, fL2]
  refine ⟨oneS, fun _ _ => 1, { iterations := 0 }, fun _ => 1, [oneReg], xs, rfl, ?_, ?_, rfl, rfl, rfl, ⟨by simp, by simp, by simp, by simp, by simp⟩,
    fun N => ⟨info N, S' N, (hx N).1⟩, ?_, ⟨hfe _, fun z _ => ?_⟩, fun h => ?_⟩
  · intro g hg; rw [List.mem_singleton.1 hg]; exact one_ok
  · intro g hg; rw [List.mem_singleton.1 hg]; rfl
  · exact tendsto_const_nhds.congr' (eventually_atTop.2 ⟨1, fun N hN => ((hx N).2 hN).symm⟩)
  · rw [hobj, hobj]
    simp only [abs_zero]
    nlinarith [le_abs_self (z 0), sq_nonneg (z 0)]
  · have h1 := h.2 (fun _ => 0) (hfe _)
    rw [hobj, hobj] at h1
    norm_num at h1

/-- Two data pixels of both signs, limits and the l1 penalty meet the hypotheses of C284 and C285, with a solution of the smoothed problem. -/
example : ∃ (S : Solver (Fin 1) (Fin 2) (Arr (Fin 1))) (gs : List (PReg (Fin 1) (Fin 1))) (xs : ℕ → Arr (Fin 1)),
    S.regs = gs.map (·.reg) ∧ (∀ g ∈ gs, g.Ok) ∧ gs ≠ [] ∧ (∀ g ∈ gs, g.reg.initDual = fun _ => 0) ∧ S.term.kind = .l2 ∧ S.tolerance = none ∧
    0 < S.relaxation ∧ S.relaxation ≤ 1 ∧ ZeroOutsideMask demoArgs (startVolume demoArgs 0) ∧ SensibleScale demoM demoArgs ∧ (∀ j, (∑ i, |demoM i j|) + (gs.map fun g => g.c j).sum ≤ 100000) ∧
    (∀ N, ∃ info S', sirt S (matrixOp demoM) ![3, 5] { demoArgs with iterations := N } = .ok (xs N, info, S')) ∧
    ∃ s c vc, IsSoftSolution S demoM demoArgs ![3, 5] s gs c vc ∧ Tendsto xs atTop (𝓝 c) := by
  let S : Solver (Fin 1) (Fin 2) (Arr (Fin 1)) := ⟨1, none, [oneReg].map (·.reg), .new .l2 none, .new .l2 none, none⟩
  have hok : ∀ g ∈ [oneReg], g.Ok := fun g hg => by rw [List.mem_singleton.1 hg]; exact one_ok
  have hin : ∀ g ∈ [oneReg], g.reg.initDual = fun _ => 0 := fun g hg => by rw [List.mem_singleton.1 hg]; rfl
  have hcols : ∀ j, (∑ i, |demoM i j|) + ([oneReg].map fun g => g.c j).sum ≤ 100000 := fun j => by
    simp [demoM, Fin.sum_univ_two, oneReg, RegState.preg, l1Reg, applyMask]; norm_num
  obtain ⟨p, hp⟩ := scaling_regs_ok (M := demoM) ⟨0, 0, by simp [demoM]⟩ S demoArgs ⟨rfl, rfl, rfl⟩ (by
    intro r hr t j
    simp only [S, List.map_cons, List.map_nil, List.mem_singleton] at hr
    subst hr
    simp [oneReg, RegState.preg, RegState.toReg, l1Reg, applyMask]) fun _ => 1
  have hrun : ∀ N, ∃ x, ∃ info S', sirt S (matrixOp demoM) ![3, 5] { demoArgs with iterations := N } = .ok (x, info, S') := fun N => by
    obtain ⟨⟨x, info, S'⟩, h⟩ := sirt_runs (S := S) (A := matrixOp demoM) (b := ![3, 5]) (a := { demoArgs with iterations := N }) (p := p)
      (by simpa [pdhgScaling, matrixOp, absOrSelf, S] using hp) rfl
    exact ⟨x, info, S', h⟩
  choose xs info S' hx using hrun
  have hrun' : ∀ N, ∃ info S', sirt S (matrixOp demoM) ![3, 5] { demoArgs with iterations := N } = .ok (xs N, info, S') := fun N => ⟨_, _, hx N⟩
  obtain ⟨s, -, h1, h2, -⟩ := C284_sirt_regs_partial (gs := [oneReg]) rfl hok hin rfl rfl one_pos one_lt_two demo_scale hcols hrun'
  obtain ⟨z, v, hzv⟩ := h1 _ _ rfl rfl ⟨_, demo_admissible⟩
  obtain ⟨c, vc, hc, hl⟩ := h2 z v hzv
  exact ⟨S, [oneReg], xs, rfl, hok, by simp, hin, rfl, rfl, one_pos, le_rfl, admissible_zero demo_admissible, demo_scale, hcols, hrun', s, c, vc, hc, hl⟩

/-- The l1 penalty with weight 1 on one voxel is Lipschitz with constant 1 (hypothesis of C284_sirt_regs_gap). -/
example : ∀ k, LipschitzPenalty (([oneReg].get k).pen.H) 1 := by
  intro k y v
  rw [List.mem_singleton.1 (List.get_mem [oneReg] k)]
  simp only [oneReg, RegState.preg, l1Penalty, l1Reg, Attr.get, univ_unique, sum_singleton, one_mul, one_pow]
  exact sq_le_sq.2 (abs_abs_sub_abs_le _ _)

end Verif
