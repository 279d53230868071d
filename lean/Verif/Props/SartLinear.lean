import Verif.Props.Units

/-! # C277: SART superposes, and the unit of the data does not matter -/

namespace Verif
open Classical DataTerm

variable {ν Q : Type} [Fintype ν] {na nu : ℕ}

/-- Projection and back-projection of every angle are linear. -/
def AngleLinear (A : AngleOp ν na nu) : Prop := (∀ k, IsLinear (A.fwd k)) ∧ ∀ k, IsLinear (A.adj k)

omit [Fintype ν] in
private theorem clip_comb {a : Args ν (Fin na × Fin nu)} (h : NoLimits a) (α β : ℝ) (x y : Arr ν) :
    clipMask a (comb α β x y) = comb α β (clipMask a x) (clipMask a y) := by
  funext j
  unfold clipMask applyMask comb clip1
  rw [h.1, h.2]
  cases a.xMask with
  | none => rfl
  | some m => simp only [Option.map_none]; ring

omit [Fintype ν] in
private theorem sartRow_eq (A : AngleOp ν na nu) (b : Fin na × Fin nu → ℝ) (a : Args ν (Fin na × Fin nu)) (σ : Arr (Fin na × Fin nu)) (τ : Arr (Fin na × ν))
    (x : Arr ν) (k : Fin na) : sartRow A b a σ τ x k =
      clipMask a fun j => x j - A.adj k (fun u => (A.fwd k x u - b (k, u)) * a.bMask.getD (fun _ => 1) (k, u) * σ (k, u)) j * τ (k, j) := by
  unfold sartRow
  cases a.bMask <;> simp

omit [Fintype ν] in
private theorem sartRow_comb {A : AngleOp ν na nu} (hA : AngleLinear A) {a : Args ν (Fin na × Fin nu)} (h : NoLimits a) (α β : ℝ) (b1 b2 : Fin na × Fin nu → ℝ)
    (σ : Arr (Fin na × Fin nu)) (τ : Arr (Fin na × ν)) (x1 x2 : Arr ν) (k : Fin na) :
    sartRow A (comb α β b1 b2) a σ τ (comb α β x1 x2) k = comb α β (sartRow A b1 a σ τ x1 k) (sartRow A b2 a σ τ x2 k) := by
  rw [sartRow_eq, sartRow_eq, sartRow_eq, ← clip_comb h]
  have hf : A.fwd k (comb α β x1 x2) = comb α β (A.fwd k x1) (A.fwd k x2) := hA.1 k α β x1 x2
  have hg : ∀ u v, A.adj k (comb α β u v) = comb α β (A.adj k u) (A.adj k v) := fun u v => hA.2 k α β u v
  have e : (fun u => (comb α β (A.fwd k x1) (A.fwd k x2) u - comb α β b1 b2 (k, u)) * a.bMask.getD (fun _ => 1) (k, u) * σ (k, u)) =
    comb α β (fun u => (A.fwd k x1 u - b1 (k, u)) * a.bMask.getD (fun _ => 1) (k, u) * σ (k, u))
      (fun u => (A.fwd k x2 u - b2 (k, u)) * a.bMask.getD (fun _ => 1) (k, u) * σ (k, u)) := by
    funext u
    simp only [comb]
    ring
  rw [hf, e, hg]
  refine congrArg (clipMask a) (funext fun j => ?_)
  simp only [comb]
  ring

/-- SART without limits and tolerance: the reconstruction of `α b₁ + β b₂` from `α x₁ + β x₂` is the same combination of the reconstructions, whatever the order of
the projections, the masks and the relaxation. -/
theorem C277_superposition {S : Solver ν (Fin na × Fin nu) Q} (htol : S.tolerance = none) {A : AngleOp ν na nu} (hA : AngleLinear A) {a : Args ν (Fin na × Fin nu)}
    (hlim : NoLimits a) (b1 b2 : Fin na × Fin nu → ℝ) (x1 x2 : Arr ν) (α β : ℝ) (rows : List (Fin na)) {r1 r2 r}
    (h1 : sart S A b1 (a.startingAt x1) rows = .ok r1) (h2 : sart S A b2 (a.startingAt x2) rows = .ok r2)
    (h : sart S A (comb α β b1 b2) (a.startingAt (comb α β x1 x2)) rows = .ok r) : r.1 = comb α β r1.1 r2.1 := by
  obtain ⟨σ, τ, hs1, _, e1⟩ := sart_ok h1
  obtain ⟨σ2, τ2, hs2, _, e2⟩ := sart_ok h2
  obtain ⟨σ3, τ3, hs3, _, e3⟩ := sart_ok h
  have hs : ∀ x, sartScaling A S.relaxation (a.startingAt x) = sartScaling A S.relaxation a := fun _ => rfl
  rw [hs] at hs1 hs2 hs3
  rw [hs1] at hs2 hs3
  cases hs2
  cases hs3
  rw [e1, e2, e3]
  have hrows : ∀ (l : List (Fin na)) x1 x2, l.foldl (sartRow A (comb α β b1 b2) a σ τ) (comb α β x1 x2) =
      comb α β (l.foldl (sartRow A b1 a σ τ) x1) (l.foldl (sartRow A b2 a σ τ) x2) := by
    intro l
    induction l with
    | nil => exact fun _ _ => rfl
    | cons k l ih =>
      intro x1 x2
      rw [List.foldl_cons, List.foldl_cons, List.foldl_cons, sartRow_comb hA hlim, ih]
  refine loopFrom_rel3 _ _ _ (fun (s1 s2 s : XState ν) => s.x = comb α β s1.x s2.x) ?_ _ _ _ _ _ rfl
  rintro k ⟨x1, i1⟩ ⟨x2, i2⟩ ⟨x, i⟩ hx
  dsimp only at hx
  subst hx
  simp only [sartStep, htol, and_true]
  exact hrows rows x1 x2

omit [Fintype ν] in
private theorem clip_unit {α : ℝ} (hα : 0 ≤ α) (a : Args ν (Fin na × Fin nu)) (x : Arr ν) : clipMask (a.inUnit α) (scaled α x) = scaled α (clipMask a x) := by
  have hget : ∀ (t : Attr ν) j, (t.map (α * ·)).get j = α * t.get j := fun t j => by cases t <;> rfl
  funext j
  unfold clipMask applyMask
  simp only [Args.inUnit, scaled, clip1, Option.map_map]
  cases a.xMask <;> cases a.lower <;> cases a.upper <;> simp [hget, mul_max_of_nonneg _ _ hα, mul_min_of_nonneg _ _ hα, ← mul_assoc]

omit [Fintype ν] in
private theorem sartRow_unit {A : AngleOp ν na nu} (hA : AngleLinear A) {α : ℝ} (hα : 0 ≤ α) (a : Args ν (Fin na × Fin nu)) (b : Fin na × Fin nu → ℝ)
    (σ : Arr (Fin na × Fin nu)) (τ : Arr (Fin na × ν)) (x : Arr ν) (k : Fin na) :
    sartRow A (scaled α b) (a.inUnit α) σ τ (scaled α x) k = scaled α (sartRow A b a σ τ x k) := by
  rw [sartRow_eq, sartRow_eq, ← clip_unit hα, linear_scaled (hA.1 k)]
  have e : (fun u => (scaled α (A.fwd k x) u - scaled α b (k, u)) * (a.inUnit α).bMask.getD (fun _ => 1) (k, u) * σ (k, u)) =
    scaled α fun u => (A.fwd k x u - b (k, u)) * a.bMask.getD (fun _ => 1) (k, u) * σ (k, u) := by
    funext u
    simp only [scaled, show (a.inUnit α).bMask = a.bMask from rfl]
    ring
  rw [e, linear_scaled (hA.2 k)]
  refine congrArg (clipMask (a.inUnit α)) (funext fun j => ?_)
  simp only [scaled]
  ring

private theorem sqrt_unit {α : ℝ} (hα : 0 ≤ α) {X Y : Type} [Fintype X] [Fintype Y] (f : X → Y → ℝ) :
    Real.sqrt (∑ i, ∑ j, (α * f i j) ^ 2) = α * Real.sqrt (∑ i, ∑ j, f i j ^ 2) := by
  simp only [mul_pow, ← Finset.mul_sum]
  rw [Real.sqrt_mul (sq_nonneg α), Real.sqrt_sq hα]

omit [Fintype ν] in
private theorem residual_unit {A : AngleOp ν na nu} (hA : AngleLinear A) {α : ℝ} (hα : 0 ≤ α) (b : Fin na × Fin nu → ℝ) (m : Option (Arr (Fin na × Fin nu))) (x : Arr ν) :
    sartResidualNorm A (scaled α b) m (scaled α x) = α * sartResidualNorm A b m x := by
  unfold sartResidualNorm
  have e : ∀ k l i, ∀ p : Fin na × Fin nu, (A.fwd k (scaled α x) l - scaled α b p) * i = α * ((A.fwd k x l - b p) * i) := fun k l i p => by
    rw [linear_scaled (hA.1 k)]
    simp only [scaled]
    ring
  simp only [e, sqrt_unit hα]
  split_ifs <;> simp

/-- SART in another unit: data, start, limits and tolerance multiplied by `α > 0` multiply the volume by `α`. (The tolerance of SART is compared to the norm of the
residual, that of the other solvers to its square.) -/
theorem C277_unit (S : Solver ν (Fin na × Fin nu) Q) {A : AngleOp ν na nu} (hA : AngleLinear A) {α : ℝ} (hα : 0 < α) (a : Args ν (Fin na × Fin nu))
    (b : Fin na × Fin nu → ℝ) (rows : List (Fin na)) :
    volume (sart { S with tolerance := S.tolerance.map (α * ·) } A (scaled α b) (a.inUnit α) rows) = (volume (sart S A b a rows)).map (scaled α) := by
  have hrows : ∀ (σ τ) (l : List (Fin na)) x, l.foldl (sartRow A (scaled α b) (a.inUnit α) σ τ) (scaled α x) = scaled α (l.foldl (sartRow A b a σ τ) x) := by
    intro σ τ l
    induction l with
    | nil => exact fun _ => rfl
    | cons k l ih =>
      intro x
      rw [List.foldl_cons, List.foldl_cons, sartRow_unit hA hα.le, ih]
  have hsc : sartScaling A S.relaxation (a.inUnit α) = sartScaling A S.relaxation a := rfl
  have hstart : ((a.inUnit α).x0.getD fun _ => 0) = scaled α (a.x0.getD fun _ => 0) := by
    funext j
    simp only [Args.inUnit]
    cases a.x0 <;> simp [scaled]
  unfold sart volume
  rw [hsc]
  rcases sartScaling A S.relaxation a with e | ⟨σ, τ⟩
  · rfl
  simp only [Bind.bind, Except.bind, Except.map, Option.isSome_map, hstart]
  by_cases hbad : S.tolerance.isSome = true ∧ ¬ sartShapesOk na nu
  · rw [if_pos hbad, if_pos hbad]
  · rw [if_neg hbad, if_neg hbad]
    simp only [Except.ok.injEq]
    refine forRange_rel (R := fun (s s' : XState ν) => s.x = scaled α s'.x) ?_ ?_
    · split_ifs <;> rfl
    · rintro k ⟨x, i⟩ ⟨x', i'⟩ h
      dsimp only at h
      subst h
      cases htol : S.tolerance with
      | none => exact ⟨hrows σ τ rows x', rfl⟩
      | some t =>
        simp only [sartStep, Option.map_some, hrows, true_and]
        rw [show (a.inUnit α).bMask = a.bMask from rfl, residual_unit hA hα.le]
        simp only [gt_iff_lt, mul_lt_mul_iff_right₀ hα]

/-- Non-vacuity: the projections of a stack of matrices are linear in this sense. -/
theorem angleLinear_matrix (M : Fin na → Fin nu → ν → ℝ) :
    AngleLinear (⟨fun k x u => ∑ j, M k u j * x j, fun k y j => ∑ u, M k u j * y u⟩ : AngleOp ν na nu) := by
  refine ⟨fun k α β x y => ?_, fun k α β x y => ?_⟩ <;> funext i <;> simp only [Finset.mul_sum, ← Finset.sum_add_distrib] <;>
    exact Finset.sum_congr rfl fun _ _ => by ring

end Verif
