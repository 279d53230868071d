import Verif.Lemmas.ProxGrad
import Verif.Lemmas.Solvers
import Verif.Spec.Operators

/-! # C274: without limits and regularizers, reconstructions superpose -/

namespace Verif
open Classical DataTerm

variable {ν ι Q : Type} [Fintype ν] [Fintype ι]

/-- `α x + β y`. -/
def comb {X : Type} (α β : ℝ) (x y : Arr X) : Arr X := fun i => α * x i + β * y i

/-- Least squares, possibly weighted, without background. -/
def LeastSquares (t : DataTerm ι) : Prop := t.background = none ∧ (t.kind = .l2 ∨ ∃ w, t.kind = .wl2 w)

/-- The arguments with this start volume. -/
def Args.startingAt (a : Args ν ι) (x : Arr ν) : Args ν ι := { a with x0 := some x }

/-- No limits. -/
def NoLimits (a : Args ν ι) : Prop := a.lower = none ∧ a.upper = none

/-! ## Three runs at once -/

theorem loopFrom_rel3 {S : Type} (s1 s2 s3 : ℕ → S → S × Bool) (R : S → S → S → Prop)
    (hS : ∀ k a b c, R a b c → R (s1 k a).1 (s2 k b).1 (s3 k c).1 ∧ (s1 k a).2 = false ∧ (s2 k b).2 = false ∧ (s3 k c).2 = false) :
    ∀ n ii a b c, R a b c → R (loopFrom s1 n ii a) (loopFrom s2 n ii b) (loopFrom s3 n ii c)
  | 0, _, _, _, _, h => h
  | n + 1, ii, a, b, c, h => by
    rw [loopFrom, loopFrom, loopFrom]
    have := hS ii a b c h
    rcases e1 : s1 ii a with ⟨t1, b1⟩
    rcases e2 : s2 ii b with ⟨t2, b2⟩
    rcases e3 : s3 ii c with ⟨t3, b3⟩
    rw [e1, e2, e3] at this
    obtain ⟨h1, h2, h3, h4⟩ := this
    dsimp at h1 h2 h3 h4
    subst h2 h3 h4
    exact loopFrom_rel3 s1 s2 s3 R hS n (ii + 1) t1 t2 t3 h1

omit [Fintype ν] in
private theorem clipMask_comb {a : Args ν ι} (h : NoLimits a) (α β : ℝ) (x y : Arr ν) : clipMask a (comb α β x y) = comb α β (clipMask a x) (clipMask a y) := by
  funext j
  unfold clipMask applyMask comb clip1
  rw [h.1, h.2]
  cases a.xMask with
  | none => rfl
  | some m => simp only [Option.map_none]; ring

omit [Fintype ν] in
private theorem masks_start (a : Args ν ι) (x : Arr ν) : (a.startingAt x).bMask = a.bMask ∧ (a.startingAt x).bTestMask = a.bTestMask := ⟨rfl, rfl⟩

omit [Fintype ν] in
private theorem clipMask_start (a : Args ν ι) (x y : Arr ν) : clipMask (a.startingAt x) y = clipMask a y := rfl

private theorem residual_comb {t : DataTerm ι} (ht : LeastSquares t) (s : Attr ι) (b1 b2 : Arr ι) (m : Option (Arr ι)) (α β : ℝ) (p1 p2 : Arr ι) :
    (t.assignData (some (.array (comb α β b1 b2))) s).residual (comb α β p1 p2) m =
      comb α β ((t.assignData (some (.array b1)) s).residual p1 m) ((t.assignData (some (.array b2)) s).residual p2 m) := by
  obtain ⟨hb, hk⟩ := ht
  funext i
  rcases hk with hk | ⟨w, hk⟩ <;> simp only [DataTerm.residual, DataTerm.assignData, hk, DataTerm.addBackground, hb, comb, Attr.get] <;>
    cases m <;> simp only [applyMask] <;> ring

private theorem dual_comb {t : DataTerm ι} (ht : LeastSquares t) (s : Arr ι) (b1 b2 : Arr ι) (α β : ℝ) (d1 d2 p1 p2 : Arr ι) :
    (t.assignData (some (.array (comb α β b1 b2))) (.array s)).proxDual ((t.assignData (some (.array (comb α β b1 b2))) (.array s)).updateDual (comb α β d1 d2) (comb α β p1 p2)) =
      comb α β ((t.assignData (some (.array b1)) (.array s)).proxDual ((t.assignData (some (.array b1)) (.array s)).updateDual d1 p1))
        ((t.assignData (some (.array b2)) (.array s)).proxDual ((t.assignData (some (.array b2)) (.array s)).updateDual d2 p2)) := by
  obtain ⟨hb, hk⟩ := ht
  funext i
  rcases hk with hk | ⟨w, hk⟩ <;>
    simp only [DataTerm.proxDual, DataTerm.updateDual, DataTerm.subSigmaData, DataTerm.assignData, DataTerm.computeSigmaData, hk, hb, comb, Attr.get, Attr.map₂] <;> ring

omit [Fintype ν] [Fintype ι] in
private theorem mask_comb {X : Type} (m : Option (Arr X)) (α β : ℝ) (x y : Arr X) : applyMask m (comb α β x y) = comb α β (applyMask m x) (applyMask m y) := by
  funext i
  cases m <;> simp only [applyMask, comb]
  ring

/-- SIRT: the reconstruction of `α b₁ + β b₂` from the start `α x₁ + β x₂` is `α` times the first plus `β` times the second one. -/
theorem C274_sirt {S : Solver ν ι Q} (hregs : S.regs = []) (htol : S.tolerance = none) (hterm : LeastSquares S.term) {A : Operator ν ι} (hf : IsLinear A.fwd)
    (hadj : IsLinear A.adj) {a : Args ν ι} (hlim : NoLimits a) (b1 b2 : Arr ι) (x1 x2 : Arr ν) (α β : ℝ) {r1 r2 r}
    (h1 : sirt S A b1 (a.startingAt x1) = .ok r1) (h2 : sirt S A b2 (a.startingAt x2) = .ok r2)
    (h : sirt S A (comb α β b1 b2) (a.startingAt (comb α β x1 x2)) = .ok r) : r.1 = comb α β r1.1 r2.1 := by
  obtain ⟨σ, τ, t1, hs1, _, e1⟩ := sirt_ok h1
  obtain ⟨σ2, τ2, t2, hs2, _, e2⟩ := sirt_ok h2
  obtain ⟨σ3, τ3, t3, hs3, _, e3⟩ := sirt_ok h
  simp only [Args.startingAt] at hs1 hs2 hs3 e1 e2 e3
  rw [hs1] at hs2 hs3
  cases hs2
  cases hs3
  rw [e1, e2, e3]
  refine loopFrom_rel3 _ _ _ (fun (s1 s2 s : XState ν) => s.x = comb α β s1.x s2.x) ?_ _ _ _ _ _ rfl
  rintro k ⟨x1, i1⟩ ⟨x2, i2⟩ ⟨x, i⟩ hx
  dsimp only at hx
  subst hx
  simp only [sirtStep_cases, htol, recordResiduals_noTol, Bool.false_eq_true, if_false, hregs, List.foldl_nil, and_true]
  rw [show A.fwd (comb α β x1 x2) = comb α β (A.fwd x1) (A.fwd x2) from hf α β x1 x2, residual_comb hterm]
  have e : ∀ u v : Arr ι, (fun i => comb α β u v i * σ i) = comb α β (fun i => u i * σ i) fun i => v i * σ i := fun u v => by funext i; simp only [comb]; ring
  rw [e, show ∀ u v, A.adj (comb α β u v) = comb α β (A.adj u) (A.adj v) from fun u v => hadj α β u v]
  have e' : ∀ u v : Arr ν, (fun j => comb α β x1 x2 j + comb α β u v j * τ j) = comb α β (fun j => x1 j + u j * τ j) fun j => x2 j + v j * τ j :=
    fun u v => by funext i; simp only [comb]; ring
  rw [e']
  exact clipMask_comb (a := { a with x0 := some _ }) hlim α β _ _

/-- FISTA, whatever its restart period and step sizes. -/
theorem C274_fista {S : Solver ν ι Q} (hregs : S.regs = []) (htol : S.tolerance = none) (hterm : LeastSquares S.term) {A : Operator ν ι} (hf : IsLinear A.fwd)
    (hadj : IsLinear A.adj) {a : Args ν ι} (hlim : NoLimits a) (pc : Bool) (rnd : Arr ι) (b1 b2 : Arr ι) (x1 x2 : Arr ν) (α β : ℝ) {r1 r2 r}
    (h1 : fista S A b1 (a.startingAt x1) pc rnd = .ok r1) (h2 : fista S A b2 (a.startingAt x2) pc rnd = .ok r2)
    (h : fista S A (comb α β b1 b2) (a.startingAt (comb α β x1 x2)) pc rnd = .ok r) : r.1 = comb α β r1.1 r2.1 := by
  obtain ⟨σ, τ, t1, hs1, _, e1⟩ := fista_ok h1
  obtain ⟨σ2, τ2, t2, hs2, _, e2⟩ := fista_ok h2
  obtain ⟨σ3, τ3, t3, hs3, _, e3⟩ := fista_ok h
  have hs : ∀ x, fistaScaling S A (a.startingAt x) pc rnd = fistaScaling S A a pc rnd := fun _ => rfl
  rw [hs] at hs1 hs2 hs3
  rw [hs1] at hs2 hs3
  cases hs2
  cases hs3
  rw [e1, e2, e3]
  refine (loopFrom_rel3 _ _ _ (fun (s1 s2 s : FState ν) => s.x = comb α β s1.x s2.x ∧ s.y = comb α β s1.y s2.y ∧ s1.t = s.t ∧ s2.t = s.t) ?_ _ _ _ _ _
    ?_).1
  swap
  · exact ⟨mask_comb a.xMask α β x1 x2, mask_comb a.xMask α β x1 x2, rfl, rfl⟩
  rintro k ⟨x1, y1, t1, i1⟩ ⟨x2, y2, t2, i2⟩ ⟨x, y, t, i⟩ ⟨hx, hy, ht1, ht2⟩
  dsimp only at hx hy ht1 ht2
  subst hx hy ht1 ht2
  unfold fistaStep
  simp only [clipMask_start, masks_start, hregs, htol, recordResiduals_noTol, and_true]
  rw [show A.fwd (comb α β y1 y2) = comb α β (A.fwd y1) (A.fwd y2) from hf α β y1 y2, residual_comb hterm]
  have e : ∀ u v : Arr ι, (fun i => comb α β u v i * σ i) = comb α β (fun i => u i * σ i) fun i => v i * σ i := fun u v => by funext i; simp only [comb]; ring
  rw [e, show ∀ u v, A.adj (comb α β u v) = comb α β (A.adj u) (A.adj v) from fun u v => hadj α β u v]
  have e' : ∀ u v : Arr ν, (fun j => comb α β y1 y2 j + τ j * comb α β u v j) = comb α β (fun j => y1 j + τ j * u j) fun j => y2 j + τ j * v j :=
    fun u v => by funext i; simp only [comb]; ring
  rw [e', clipMask_comb hlim]
  refine ⟨rfl, ?_⟩
  funext j
  simp only [comb]
  ring

/-- PDHG, whatever its step sizes. -/
theorem C274_pdhg {S : Solver ν ι Q} (hregs : S.regs = []) (htol : S.tolerance = none) (hterm : LeastSquares S.term) {A : Operator ν ι} (hf : IsLinear A.fwd)
    (hadj : IsLinear A.adj) {a : Args ν ι} (hlim : NoLimits a) (pc : Bool) (rnd : Arr ι) (b1 b2 : Arr ι) (x1 x2 : Arr ν) (α β : ℝ) {r1 r2 r}
    (h1 : pdhg S A b1 (a.startingAt x1) pc rnd = .ok r1) (h2 : pdhg S A b2 (a.startingAt x2) pc rnd = .ok r2)
    (h : pdhg S A (comb α β b1 b2) (a.startingAt (comb α β x1 x2)) pc rnd = .ok r) : r.1 = comb α β r1.1 r2.1 := by
  obtain ⟨σ, τ, t1, hs1, _, e1⟩ := pdhg_ok h1
  obtain ⟨σ2, τ2, t2, hs2, _, e2⟩ := pdhg_ok h2
  obtain ⟨σ3, τ3, t3, hs3, _, e3⟩ := pdhg_ok h
  have hs : ∀ x, pdhgScaling S A (a.startingAt x) pc rnd = pdhgScaling S A a pc rnd := fun _ => rfl
  rw [hs] at hs1 hs2 hs3
  rw [hs1] at hs2 hs3
  cases hs2
  cases hs3
  rw [e1, e2, e3]
  refine (loopFrom_rel3 _ _ _ (fun (s1 s2 s : PDState ν ι Q) => s.x = comb α β s1.x s2.x ∧ s.xRelax = comb α β s1.xRelax s2.xRelax ∧ s.p = comb α β s1.p s2.p)
    ?_ _ _ _ _ _ ⟨rfl, rfl, ?_⟩).1
  · rintro k ⟨x1, y1, p1, q1, i1⟩ ⟨x2, y2, p2, q2, i2⟩ ⟨x, y, p, q, i⟩ ⟨hx, hy, hp⟩
    dsimp only at hx hy hp
    subst hx hy hp
    have hnil : ∀ (q : List Q) u, addRegUpdates ([] : List (Reg ν Q)) q u = (u, q) := fun _ _ => rfl
    unfold pdhgStep
    simp only [clipMask_start, masks_start, hregs, htol, recordResiduals_noTol, hnil, and_true, if_true]
    rw [show A.fwd (comb α β y1 y2) = comb α β (A.fwd y1) (A.fwd y2) from hf α β y1 y2, dual_comb hterm, mask_comb,
      show ∀ u v, A.adj (comb α β u v) = comb α β (A.adj u) (A.adj v) from fun u v => hadj α β u v]
    have e' : ∀ u v : Arr ν, (fun j => comb α β x1 x2 j - comb α β u v j * τ j) = comb α β (fun j => x1 j - u j * τ j) fun j => x2 j - v j * τ j :=
      fun u v => by funext i; simp only [comb]; ring
    rw [e', clipMask_comb hlim]
    refine ⟨rfl, ?_, ?_⟩
    · funext j
      simp only [comb]
      ring
    · cases A.aliasBack <;> rfl
  · funext i
    simp [comb, DataTerm.initializeDual]

private theorem matrix_linear (M : ι → ν → ℝ) : IsLinear (matrixOp M).fwd ∧ IsLinear (matrixOp M).adj := by
  refine ⟨fun α β x y => ?_, fun α β x y => ?_⟩ <;> funext i <;> simp only [matrixOp, Finset.mul_sum, ← Finset.sum_add_distrib] <;>
    exact Finset.sum_congr rfl fun _ _ => by ring

/-- For every matrix other than 0, without masks, all runs finish, so that the three theorems say: the reconstruction of `α b₁ + β b₂` is `α` times that of `b₁` plus
`β` times that of `b₂`, from the default start. -/
theorem C274_matrix {M : ι → ν → ℝ} (hM : ∃ i j, M i j ≠ 0) {S : Solver ν ι Q} (hregs : S.regs = []) (htol : S.tolerance = none) (hterm : LeastSquares S.term)
    (n : ℕ) (b1 b2 : Arr ι) (α β : ℝ) (rnd : Arr ι) :
    (∃ r1 r2 r, sirt S (matrixOp M) b1 { iterations := n } = .ok r1 ∧ sirt S (matrixOp M) b2 { iterations := n } = .ok r2 ∧
      sirt S (matrixOp M) (comb α β b1 b2) { iterations := n } = .ok r ∧ r.1 = comb α β r1.1 r2.1) ∧
    (∃ r1 r2 r, fista S (matrixOp M) b1 { iterations := n } true rnd = .ok r1 ∧ fista S (matrixOp M) b2 { iterations := n } true rnd = .ok r2 ∧
      fista S (matrixOp M) (comb α β b1 b2) { iterations := n } true rnd = .ok r ∧ r.1 = comb α β r1.1 r2.1) ∧
    ∃ r1 r2 r, pdhg S (matrixOp M) b1 { iterations := n } true rnd = .ok r1 ∧ pdhg S (matrixOp M) b2 { iterations := n } true rnd = .ok r2 ∧
      pdhg S (matrixOp M) (comb α β b1 b2) { iterations := n } true rnd = .ok r ∧ r.1 = comb α β r1.1 r2.1 := by
  have hz : comb α β (fun _ : ν => (0 : ℝ)) (fun _ => 0) = fun _ => 0 := by funext j; simp [comb]
  obtain ⟨l1, l2⟩ := matrix_linear M
  have hlim : NoLimits ({ iterations := n } : Args ν ι) := ⟨rfl, rfl⟩
  refine ⟨?_, ?_, ?_⟩
  · have hr : ∀ b, ∃ r, sirt S (matrixOp M) b { iterations := n } = .ok r := fun b => by
      obtain ⟨p, hp⟩ := matrix_scaling_ok (Q := Q) 1 S.relaxation hM
      exact sirt_runs (a := { iterations := n }) (by rw [hregs]; exact hp) rfl
    obtain ⟨r1, e1⟩ := hr b1
    obtain ⟨r2, e2⟩ := hr b2
    obtain ⟨r, e⟩ := hr (comb α β b1 b2)
    refine ⟨r1, r2, r, e1, e2, e, ?_⟩
    refine C274_sirt hregs htol hterm l1 l2 hlim b1 b2 (fun _ => 0) (fun _ => 0) α β (r1 := r1) (r2 := r2) ?_ ?_ ?_
    · exact e1
    · exact e2
    · rw [hz]; exact e
  · have hr : ∀ b, ∃ r, fista S (matrixOp M) b { iterations := n } true rnd = .ok r := fun b => by
      obtain ⟨p, hp⟩ := matrix_scaling_ok (Q := Q) 1 S.relaxation hM
      exact fista_runs (a := { iterations := n }) (p := p) (by unfold fistaScaling; exact hp) rfl
    obtain ⟨r1, e1⟩ := hr b1
    obtain ⟨r2, e2⟩ := hr b2
    obtain ⟨r, e⟩ := hr (comb α β b1 b2)
    refine ⟨r1, r2, r, e1, e2, e, ?_⟩
    refine C274_fista hregs htol hterm l1 l2 hlim true rnd b1 b2 (fun _ => 0) (fun _ => 0) α β (r1 := r1) (r2 := r2) ?_ ?_ ?_
    · exact e1
    · exact e2
    · rw [hz]; exact e
  · have hr : ∀ b, ∃ r, pdhg S (matrixOp M) b { iterations := n } true rnd = .ok r := fun b => by
      obtain ⟨p, hp⟩ := matrix_scaling_ok (Q := Q) S.relaxation S.relaxation hM
      exact pdhg_runs (a := { iterations := n }) (p := p) (by unfold pdhgScaling; rw [hregs]; exact hp) rfl
    obtain ⟨r1, e1⟩ := hr b1
    obtain ⟨r2, e2⟩ := hr b2
    obtain ⟨r, e⟩ := hr (comb α β b1 b2)
    refine ⟨r1, r2, r, e1, e2, e, ?_⟩
    refine C274_pdhg hregs htol hterm l1 l2 hlim true rnd b1 b2 (fun _ => 0) (fun _ => 0) α β (r1 := r1) (r2 := r2) ?_ ?_ ?_
    · exact e1
    · exact e2
    · rw [hz]; exact e

end Verif
