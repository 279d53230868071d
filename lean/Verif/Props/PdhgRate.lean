import Verif.Props.PdhgStability

/-! # C281: how fast PDHG settles -/

namespace Verif
open Classical DataTerm Finset Filter Topology Verif.Spec

namespace PDProblem
variable {ν κ : Type} [Fintype ν] [Fintype κ] (S : PDProblem ν κ)

theorem settles (hC : Convex ℝ S.C) {s : Arr ν × Arr κ} (hs : S.setup.Saddle s) (w : ℕ → Arr ν × Arr κ)
    (hw : ∀ n, w (n + 1) = pdStep S.K S.Kt S.σ S.τ S.P S.R (w n)) (hw0 : (w 0).1 ∈ S.C) (n : ℕ) :
    (1 - S.ω) * ∑ j, ((w (n + 1)).1 j - (w n).1 j) ^ 2 / S.τ j ≤ S.setup.dist (w 0) s / (n + 1) := by
  have hmem : ∀ n, (w n).1 ∈ S.C := by
    intro n
    cases n with
    | zero => exact hw0
    | succ n => rw [hw]; exact S.memC _
  have hstep : ∀ n, w (n + 1) = S.setup.step (w n) := hw
  have hnn : ∀ n, 0 ≤ S.setup.dist (w n) s := fun n => S.setup.dist_nonneg (hmem n) trivial hs.C hs.D
  -- the increments decrease
  have hdec : ∀ n, S.setup.dist (w (n + 1)) (w (n + 2)) ≤ S.setup.dist (w n) (w (n + 1)) := by
    intro n
    have h := S.nonexp hC (R' := S.R) (c := 0) (fun u v => by rw [neg_zero]; exact (S.cert u).mono (S.cert v)) (hmem n) (hmem (n + 1)) (w n).2 (w (n + 1)).2
    rw [mul_zero, add_zero] at h
    have e1 : pdStep S.K S.Kt S.σ S.τ S.P S.R ((w n).1, (w n).2) = w (n + 1) := (hw n).symm
    have e2 : pdStep S.K S.Kt S.σ S.τ S.P S.R ((w (n + 1)).1, (w (n + 1)).2) = w (n + 2) := (hw (n + 1)).symm
    rw [e1, e2] at h
    exact h
  have hanti : Antitone fun n => S.setup.dist (w n) (w (n + 1)) := antitone_nat_of_succ_le hdec
  -- and can be summed
  have hsum : ∀ n, ∑ k ∈ range n, S.setup.dist (w k) (w (k + 1)) + S.setup.dist (w n) s ≤ S.setup.dist (w 0) s := by
    intro n
    induction n with
    | zero => simp
    | succ n ih =>
      rw [sum_range_succ]
      have := S.setup.fejer hs (w n)
      rw [← hstep] at this
      linarith
  have h1 : (n + 1 : ℕ) * S.setup.dist (w n) (w (n + 1)) ≤ ∑ k ∈ range (n + 1), S.setup.dist (w k) (w (k + 1)) := by
    have := card_nsmul_le_sum (range (n + 1)) (fun k => S.setup.dist (w k) (w (k + 1))) (S.setup.dist (w n) (w (n + 1)))
      fun k hk => hanti (Nat.lt_succ_iff.1 (mem_range.1 hk))
    rwa [card_range, nsmul_eq_mul] at this
  have h2 : S.setup.dist (w n) (w (n + 1)) ≤ S.setup.dist (w 0) s / (n + 1) := by
    rw [le_div_iff₀ (by positivity)]
    have := hsum (n + 1)
    have := hnn (n + 1)
    push_cast at h1
    linarith
  refine le_trans ?_ h2
  have hE := S.energy _ (hmem n) _ (hmem (n + 1))
  have h3 := S.lower (fun j => (w n).1 j - (w (n + 1)).1 j) (fun k => (w n).2 k - (w (n + 1)).2 k) (by rw [S.K_sub']; exact hE)
  refine le_trans (le_of_eq ?_) h3
  congr 1
  exact sum_congr rfl fun j _ => by ring

end PDProblem

variable {ν ι δ : Type} [Fintype ν] [Fintype ι] [Fintype δ]

/-- C281. PDHG with the preconditioned step sizes settles: under the hypotheses of C141 and for an admissible start, there is a constant such that the squared change of the volume
in each further iteration, weighted by the inverse of the primal step sizes, is at most the constant divided by the number of iterations. -/
theorem C281_settles {M : ι → ν → ℝ} {S : Solver ν ι (Arr δ)} {b : Arr ι} {a : Args ν ι} {rnd : Arr ι}
    {gs : List (PReg ν δ)} (hregs : S.regs = gs.map (·.reg)) (hg : ∀ g ∈ gs, g.Ok)
    (hk : ConvexKind S.term.kind) (hT : S.tolerance = none) (hω : 0 < S.relaxation) (hω1 : S.relaxation < 1)
    (hs : SensibleScale M a) (htw : ∀ i, trainWeight a i = 0 ∨ trainWeight a i = 1)
    (hcols : ∀ j, (∑ i, |M i j|) + (gs.map fun g => g.c j).sum ≤ 100000)
    (hsol : ∃ x, IsSolution S M a b (gs.map (·.pen)) x)
    (hint : ∃ x, Admissible a x ∧ ∀ i, trainWeight a i ≠ 0 →
      S.term.addBackground (fun i => ∑ j, M i j * x j) i ∈ interior (pixelFunctional S.term.kind (b i) i).dom)
    {sigma : Arr ι} {tau : Arr ν} (hsc : pdhgScaling S (matrixOp M) a true rnd = .ok (sigma, tau)) (hx0 : Admissible a (a.x0.getD fun _ => 0))
    {xs : ℕ → Arr ν} (hrun : ∀ N, ∃ info S', pdhg S (matrixOp M) b { a with iterations := N } true rnd = .ok (xs N, info, S')) :
    ∃ D, ∀ n : ℕ, ∑ j, (xs (n + 1) j - xs n j) ^ 2 / tau j ≤ D / (n + 1) := by
  obtain ⟨Pb, e0, Rf, hRf, hC, hω', hτ, hCc, hFc, hmin, hq, hw, -⟩ := pdhg_problem (b := b) hregs hg hk hT hω hω1 hs htw hcols ⟨_, hx0⟩ hsc
  obtain ⟨w, hw1, hw2, -⟩ := hw b a.x0 xs hrun
  rw [hRf] at hw1
  obtain ⟨x, hx⟩ := hsol
  obtain ⟨z, hz, hzi⟩ := hq hint
  obtain ⟨p, hsad⟩ := Pb.exists_saddle hCc hFc ((hmin x).2 hx) hz hzi
  have e0x : xs 0 = a.x0.getD fun _ => 0 := by
    obtain ⟨i', S', h⟩ := hrun 0
    obtain ⟨_, _, _, _, _, h3⟩ := pdhg_ok h
    exact congrArg Prod.fst h3
  refine ⟨Pb.setup.dist (w 0) (x, p) / (1 - S.relaxation), fun n => ?_⟩
  have h := Pb.settles hCc hsad w hw1 (by rw [hw2, e0x, hC]; exact hx0) n
  simp only [hw2, hω', hτ] at h
  have h1 : (0 : ℝ) < 1 - S.relaxation := by linarith
  rw [div_right_comm, le_div_iff₀ h1, mul_comm]
  exact h

/-- Non-vacuity: one projection of two voxels at least 1. -/
example : let S : Solver (Fin 2) (Fin 1) (Arr Unit) := ⟨1 / 2, none, [], .new .l2 none, .new .l2 none, none⟩
    let a : Args (Fin 2) (Fin 1) := { iterations := 0, lower := some (.scalar 1), x0 := some fun _ => 4 }
    let M : Fin 1 → Fin 2 → ℝ := fun _ _ => 1
    ∃ (tau : Arr (Fin 2)) (xs : ℕ → Arr (Fin 2)), (∀ N, ∃ info S', pdhg S (matrixOp M) (fun _ => 3) { a with iterations := N } true (fun _ => 1) = .ok (xs N, info, S')) ∧
      ∃ D, ∀ n : ℕ, ∑ j, (xs (n + 1) j - xs n j) ^ 2 / tau j ≤ D / (n + 1) := by
  intro S a M
  obtain ⟨⟨sigma, tau⟩, hp⟩ := scaling_regs_ok (δ := Unit) (M := M) ⟨0, 0, by simp [M]⟩ S a ⟨rfl, rfl, rfl⟩ (by simp [S]) fun _ => 1
  have hr : ∀ N, ∃ x info S', pdhg S (matrixOp M) (fun _ => 3) { a with iterations := N } true (fun _ => 1) = .ok (x, info, S') := fun N => by
    obtain ⟨⟨x, info, S'⟩, h⟩ := pdhg_runs (S := S) (A := matrixOp M) (b := fun _ => 3) (a := { a with iterations := N }) (pc := true) (rnd := fun _ => 1) hp rfl
    exact ⟨x, info, S', h⟩
  choose xs hxs using hr
  have hs : SensibleScale M a := ⟨by simp [a], by simp [a], by simp [a], by simp [M]; norm_num, by simp [M]⟩
  have hadm : ∀ c : ℝ, 1 ≤ c → Admissible a fun _ => c := by
    refine fun c hc => ⟨⟨?_, by simp [a]⟩, by simp [a]⟩
    rintro l hl j
    have : l = .scalar 1 := by simpa [a] using hl.symm
    rw [this]
    exact hc
  refine ⟨tau, xs, hxs, C281_settles (gs := []) (S := S) (a := a) (M := M) rfl (by simp) trivial rfl (by norm_num [S]) (by norm_num [S])
    hs (fun i => Or.inr (by simp [trainWeight, a])) (by simp [M])
    (lsq_solution_exists hs (w := fun _ => 1) (fun _ => zero_le_one) (Or.inl ⟨rfl, rfl⟩) ⟨_, hadm 1 le_rfl⟩)
    ⟨_, hadm 1 le_rfl, fun i _ => by
      have : (pixelFunctional S.term.kind ((fun _ => 3 : Arr (Fin 1)) i) i).dom = Set.univ := rfl
      rw [this, interior_univ]; trivial⟩ hp (hadm 4 (by norm_num)) hxs⟩

end Verif
