import Verif.Lemmas.Solvers
import Verif.Lemmas.Scaling

/-!
# C266: SART with a tolerance
-/

namespace Verif
open Classical DataTerm

variable {ν Q : Type} [Fintype ν]

/-- The distance of the projections of a volume from the data, over the pixels that the mask keeps (with its weights). -/
noncomputable def dataDistance {na nu : ℕ} (A : AngleOp ν na nu) (b : Fin na × Fin nu → ℝ) (m : Option (Arr (Fin na × Fin nu))) (x : Arr ν) : ℝ :=
  Real.sqrt (∑ k, ∑ l, ((A.fwd k x l - b (k, l)) * (match m with | some m => m (k, l) | none => 1)) ^ 2)

/-- C266 (violated), shapes: with a tolerance, SART raises `ValueError` for every data set whose numbers of angles and of pixels differ and are both larger than one (for every
operator, volume, masks and number of iterations), except where it already fails while computing the step sizes; it does so for no other shape, and for no shape without
tolerance. -/
theorem C266_shapes_violated {na nu : ℕ} (S : Solver ν (Fin na × Fin nu) Q) (A : AngleOp ν na nu) (b : Fin na × Fin nu → ℝ) (a : Args ν (Fin na × Fin nu))
    (rows : List (Fin na)) : sart S A b a rows = .error .valueError ↔
      (∃ p, sartScaling A S.relaxation a = .ok p) ∧ S.tolerance ≠ none ∧ na ≠ nu ∧ na ≠ 1 ∧ nu ≠ 1 := by
  unfold sart
  simp only [bind, Except.bind]
  rcases hs : sartScaling A S.relaxation a with e | ⟨sigma, tau⟩
  · have : e = .nonFinite := by
      unfold sartScaling at hs
      simp only at hs
      split_ifs at hs
      cases hs; rfl
    subst this
    simp
  · by_cases ht : S.tolerance = none
    · simp [ht]
    · have : S.tolerance.isSome = true := by simpa [Option.isSome_iff_ne_none] using ht
      by_cases h : sartShapesOk na nu
      · simp only [this, h, not_true_eq_false, and_false, if_false]
        unfold sartShapesOk at h
        constructor
        · intro h'; cases h'
        · rintro ⟨-, -, h1, h2, h3⟩; omega
      · simp only [this, h, not_false_eq_true, and_self, if_true]
        unfold sartShapesOk at h
        push Not at h
        simp [ht, h]

/-- C266 (violated), values: where the call is accepted, the residual that decides when to stop compares the projections with the transposed data. Of a volume that
reproduces the data exactly it is, for as many angles as pixels, the distance of the data from their transpose; for one angle, the distances of all pixels from each other. -/
theorem C266_exact_solution_violated {na nu : ℕ} (A : AngleOp ν na nu) (b : Fin na × Fin nu → ℝ) (x : Arr ν) (hx : ∀ k l, A.fwd k x l = b (k, l)) :
    dataDistance A b none x = 0 ∧
    (∀ h : na = nu, sartResidualNorm A b none x = Real.sqrt (∑ k : Fin na, ∑ l : Fin na, (b (l, Fin.cast h k) - b (k, Fin.cast h l)) ^ 2)) ∧
    (∀ h : na = 1, sartResidualNorm A b none x =
      Real.sqrt (∑ k : Fin nu, ∑ l : Fin nu, (b (Fin.cast h.symm 0, k) - b (Fin.cast h.symm 0, l)) ^ 2)) := by
  refine ⟨by simp [dataDistance, hx], fun h => ?_, fun h => ?_⟩
  · subst h
    simp [sartResidualNorm, hx]
  · subst h
    by_cases h1 : 1 = nu
    · subst h1
      simp [sartResidualNorm, hx]
    · simp [sartResidualNorm, hx, h1]

/-- C266, what holds: the recorded residual is the distance from the data (whatever the mask) if there are as many angles as pixels and the projections and the data are
unchanged when angles and pixels are exchanged; in particular for one angle and one pixel.
(Missing: everything else, `C266_shapes_violated`, `C266_exact_solution_violated`.) -/
theorem C266_symmetric_partial {n : ℕ} (A : AngleOp ν n n) (b : Fin n × Fin n → ℝ) (m : Option (Arr (Fin n × Fin n))) (x : Arr ν)
    (hs : ∀ k l, A.fwd k x l = A.fwd l x k) : sartResidualNorm A b m x = dataDistance A b m x := by
  unfold sartResidualNorm dataDistance
  rw [dif_pos rfl]
  congr 1
  refine Finset.sum_congr rfl fun k _ => Finset.sum_congr rfl fun l _ => ?_
  simp only [Fin.cast_eq_self, hs l k]
  cases m <;> rfl

/-- Non-vacuity: symmetric projections that are not all equal. -/
example : let A : AngleOp (Fin 1) 2 2 := ⟨fun k x l => x 0 * (k.val + l.val), fun _ _ _ => 0⟩
    (∀ k l x, A.fwd k x l = A.fwd l x k) ∧ A.fwd 0 (fun _ => 1) 0 ≠ A.fwd 0 (fun _ => 1) 1 := by
  refine ⟨fun k l x => by simp [add_comm], by simp⟩

/-- Non-vacuity of `C266_shapes_violated`: two angles and three pixels of a sum of one voxel with a tolerance; without tolerance the same call returns. -/
example : let A : AngleOp (Fin 1) 2 3 := ⟨fun _ x _ => x 0, fun _ y _ => y 0 + y 1 + y 2⟩
    let S : Option ℝ → Solver (Fin 1) (Fin 2 × Fin 3) Unit := fun t => ⟨1, t, [], .new .l2 none, .new .l2 none, none⟩
    let a : Args (Fin 1) (Fin 2 × Fin 3) := ⟨1, none, none, none, none, none, none⟩
    sart (S (some 1)) A (fun _ => 1) a [0, 1] = .error .valueError ∧ ∃ r, sart (S none) A (fun _ => 1) a [0, 1] = .ok r := by
  intro A S a
  have hsc : ∃ p, sartScaling A 1 a = .ok p := by
    rcases hs : sartScaling A 1 a with e | p
    swap
    · exact ⟨p, rfl⟩
    exfalso
    unfold sartScaling at hs
    simp only at hs
    split_ifs at hs with hc
    rcases hc with h | h
    · have := le_npMax (fun p : Fin 2 × Fin 1 => |A.adj p.1 (fun u => applyMask a.bMask (fun _ => 1) (p.1, u)) p.2|) (0, 0)
      rw [h] at this
      norm_num [A, applyMask, a] at this
    · have := le_npMax (fun p : Fin 2 × Fin 3 => |A.fwd p.1 (applyMask a.xMask fun _ => 1) p.2|) (0, 0)
      rw [h] at this
      norm_num [A, applyMask, a] at this
  refine ⟨(C266_shapes_violated _ _ _ _ _).2 ⟨hsc, by simp [S], by norm_num, by norm_num, by norm_num⟩, ?_⟩
  obtain ⟨⟨sg, ta⟩, hp⟩ := hsc
  have h : ∃ r, sart (S none) A (fun _ => 1) a [0, 1] = .ok r := by
    unfold sart
    simp [S, hp, bind, Except.bind]
  exact h

end Verif
