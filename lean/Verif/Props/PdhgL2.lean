import Verif.Props.PdhgDefault
import Verif.Props.SirtConv

/-! # C141 for least squares: no existence hypothesis, whatever the limits -/

namespace Verif
open Classical DataTerm Finset Filter Topology Verif.Spec

variable {ν ι δ Q : Type} [Fintype ν] [Fintype ι]

/-- A (weighted) least-squares fit without penalties has a solution whenever some volume is admissible: no limits, one, or both, finite or not. -/
theorem lsq_solution_exists {S : Solver ν ι Q} {M : ι → ν → ℝ} {a : Args ν ι} {b : Arr ι} (hs : SensibleScale M a) {w : Arr ι} (hw : ∀ i, 0 ≤ w i)
    (hk : S.term.kind = .l2 ∧ w = (fun _ => 1) ∨ S.term.kind = .wl2 (.array w)) (hne : ∃ z, Admissible a z) :
    ∃ x, IsSolution (δ := δ) S M a b [] x := by
  have htw : ∀ i, 0 ≤ trainWeight a i := by
    intro i
    unfold trainWeight
    refine mul_nonneg ?_ ?_
    · cases hm : a.bMask with
      | none => norm_num
      | some m => exact (hs.bMask m hm i).1
    · cases hm : a.bTestMask with
      | none => norm_num
      | some m => have := (hs.test m hm i).2; dsimp only; linarith
  obtain ⟨z0, hz0⟩ := hne
  obtain ⟨x, hx, hmin⟩ := box_lsq_exists (admissible_closed a) (admissible_ordConnected hs) M
    (fun i => b i - S.term.addBackground (fun _ => 0) i) (s := fun i => trainWeight a i * w i) (fun i => mul_nonneg (htw i) (hw i)) ((admissible_iff a z0).1 hz0)
  have hdom : ∀ i, (pixelFunctional S.term.kind (b i) i).dom = Set.univ := by
    intro i
    rcases hk with ⟨h, -⟩ | h <;> rw [h] <;> rfl
  have hobj : ∀ y, objective (δ := δ) S M a b [] y = wls M (fun i => trainWeight a i * w i) (fun i => b i - S.term.addBackground (fun _ => 0) i) y := by
    intro y
    have h1 : ∀ i, (pixelFunctional S.term.kind (b i) i).val (S.term.addBackground (fun i => ∑ j, M i j * y j) i) =
        w i * (b i - S.term.addBackground (fun _ => 0) i - ∑ j, M i j * y j) ^ 2 / 2 := by
      intro i
      have e : S.term.addBackground (fun i => ∑ j, M i j * y j) i = ∑ j, M i j * y j + S.term.addBackground (fun _ => 0) i := by
        unfold addBackground
        cases S.term.background <;> simp
      rcases hk with ⟨h, hw1⟩ | h
      · rw [h, e, hw1]
        simp only [pixelFunctional, fL2]
        ring
      · rw [h, e]
        simp only [pixelFunctional, fWL2, Attr.get]
        ring
    unfold objective wls
    rw [List.map_nil, List.sum_nil, add_zero, sum_div]
    refine sum_congr rfl fun i _ => ?_
    rw [h1]
    ring
  refine ⟨x, ⟨(admissible_iff a x).2 hx, fun i _ => by rw [hdom]; trivial⟩, fun z hz => ?_⟩
  rw [hobj, hobj]
  exact hmin z ((admissible_iff a z).1 hz.1)

/-- C141, least squares (l2 or weighted l2 term with non-negative weights) without regularizers: whatever the limits (none, one of them, both) and the solution mask, as soon as
some volume is admissible, the volumes returned by PDHG converge to a constrained least-squares solution; nothing is assumed about the existence of a solution. -/
theorem C141_pdhg_converges_lsq {M : ι → ν → ℝ} {S : Solver ν ι (Arr Unit)} {b : Arr ι} {a : Args ν ι} {rnd : Arr ι}
    (hregs : S.regs = []) {w : Arr ι} (hw : ∀ i, 0 ≤ w i) (hk : S.term.kind = .l2 ∧ w = (fun _ => 1) ∨ S.term.kind = .wl2 (.array w)) (hT : S.tolerance = none)
    (hω : 0 < S.relaxation) (hω1 : S.relaxation < 1) (hs : SensibleScale M a) (htw : ∀ i, trainWeight a i = 0 ∨ trainWeight a i = 1)
    (hne : ∃ z, Admissible a z)
    {xs : ℕ → Arr ν} (hrun : ∀ N, ∃ info S', pdhg S (matrixOp M) b { a with iterations := N } true rnd = .ok (xs N, info, S')) :
    ∃ x, IsSolution (δ := Unit) S M a b [] x ∧ Tendsto xs atTop (𝓝 x) := by
  have hck : ConvexKind S.term.kind := by
    rcases hk with ⟨h, -⟩ | h <;> rw [h]
    · trivial
    · exact hw
  have hkl : S.term.kind ≠ .kl := by
    rcases hk with ⟨h, -⟩ | h <;> rw [h] <;> simp
  obtain ⟨z, hz⟩ := hne
  exact C141_pdhg_converges_plain hregs hck hT hω hω1 hs htw (lsq_solution_exists hs hw hk ⟨z, hz⟩)
    ⟨z, hz, fun i _ => by rw [pixelFunctional_dom_univ hck hkl, interior_univ]; trivial⟩ hrun

/-- Non-vacuity: a rank-deficient problem (two voxels, one pixel) with a lower limit only. -/
example : let S : Solver (Fin 2) (Fin 1) (Arr Unit) := ⟨1 / 2, none, [], .new .l2 none, .new .l2 none, none⟩
    let a : Args (Fin 2) (Fin 1) := { iterations := 0, lower := some (.scalar 1) }
    let M : Fin 1 → Fin 2 → ℝ := fun _ _ => 1
    ∃ xs : ℕ → Arr (Fin 2), (∀ N, ∃ info S', pdhg S (matrixOp M) (fun _ => 3) { a with iterations := N } true (fun _ => 1) = .ok (xs N, info, S')) ∧
      ∃ x, IsSolution (δ := Unit) S M a (fun _ => 3) [] x ∧ Tendsto xs atTop (𝓝 x) := by
  intro S a M
  obtain ⟨p, hp⟩ := scaling_regs_ok (δ := Unit) (M := M) ⟨0, 0, by simp [M]⟩ S a ⟨rfl, rfl, rfl⟩ (by simp [S]) fun _ => 1
  have hr : ∀ N, ∃ x info S', pdhg S (matrixOp M) (fun _ => 3) { a with iterations := N } true (fun _ => 1) = .ok (x, info, S') := fun N => by
    obtain ⟨⟨x, info, S'⟩, h⟩ := pdhg_runs (S := S) (A := matrixOp M) (b := fun _ => 3) (a := { a with iterations := N }) (pc := true) (rnd := fun _ => 1) hp rfl
    exact ⟨x, info, S', h⟩
  choose xs hxs using hr
  refine ⟨xs, hxs, C141_pdhg_converges_lsq (w := fun _ => 1) rfl (fun _ => zero_le_one) (Or.inl ⟨rfl, rfl⟩) rfl (by norm_num [S]) (by norm_num [S])
    ⟨by simp [a], by simp [a], by simp [a], by simp [M]; norm_num, by simp [M]⟩ (fun i => Or.inr (by simp [trainWeight, a])) ⟨fun _ => 1, ⟨?_, by simp [a]⟩, by simp [a]⟩ hxs⟩
  rintro l hl j
  have : l = .scalar 1 := by simpa [a] using hl.symm
  rw [this]
  exact le_rfl

end Verif
