import Verif.Props.SartConv
import Verif.Props.SirtStability

/-! # C282: SART is stable with respect to noise and to the start volume -/

namespace Verif
open Classical DataTerm Finset SartConv

variable {ν Q : Type} [Fintype ν] {na nu : ℕ} {M : Fin na → Fin nu → ν → ℝ} {a : Args ν (Fin na × Fin nu)} {c : Arr ν}

/-- The options as far as one projection is concerned. -/
private def oneProj (a : Args ν (Fin na × Fin nu)) : Args ν (Fin nu) where
  iterations := a.iterations
  x0 := a.x0
  lower := a.lower
  upper := a.upper
  xMask := a.xMask

private theorem oneProj_scale (h : EvenWeights M a c) : SensibleScale (fun (_ : Fin nu) (_ : ν) => (0 : ℝ)) (oneProj a) :=
  ⟨by simp [oneProj], by simp [oneProj], h.xMask, by simp, by simp⟩

private theorem row_sirt (h : EvenWeights M a c) {b : Fin na × Fin nu → ℝ} {ω : ℝ} {sigma tau} {R : Fin na → Fin nu → ℝ} (hs : ∀ k u, sigma (k, u) = 1 / R k u)
    (ht : ∀ k j, ∑ u, M k u j * trainWeight a (k, u) = c j → tau (k, j) = ω / c j) (x : Arr ν) (k : Fin na) :
    sartRow (angleOp M) b a sigma tau x k = sirtMap (M k) (oneProj a) (fun u => trainWeight a (k, u) / R k u) (fun u => b (k, u)) c ω x := by
  rw [row_eq h hs ht]
  show clipMask a _ = clipMask a _
  refine congrArg (clipMask a) (funext fun j => ?_)
  unfold wgrad
  rw [sub_eq_add_neg, ← mul_neg, ← sum_neg_distrib]
  congr 2
  refine sum_congr rfl fun u _ => ?_
  ring

private theorem one_ok (h : EvenWeights M a c) {R : Fin na → Fin nu → ℝ} (hR : ∀ k u, 0 < R k u) (hR2 : ∀ k u, ∑ j, M k u j * effXMask a j ≤ R k u)
    (k : Fin na) : SirtStepOk (M k) (oneProj a) (fun u => trainWeight a (k, u) / R k u) c :=
  ⟨fun u => div_nonneg (weight_mem h _).1 (hR k u).le, h.pos, fun d hd => block_pc h hR hR2 k d hd⟩

/-- The difference of two data sets in one projection, in the norm in which each pixel is divided by the row sum. -/
noncomputable def projNoise (a : Args ν (Fin na × Fin nu)) (R : Fin na → Fin nu → ℝ) (b b' : Fin na × Fin nu → ℝ) (k : Fin na) : ℝ :=
  Real.sqrt (∑ u, trainWeight a (k, u) / R k u * (b (k, u) - b' (k, u)) ^ 2)

private theorem sweep_stable (h : EvenWeights M a c) {b b' : Fin na × Fin nu → ℝ} {ω : ℝ} (hω : 0 ≤ ω) (hω2 : ω ≤ 2) {sigma tau} {R : Fin na → Fin nu → ℝ}
    (hR : ∀ k u, 0 < R k u) (hR2 : ∀ k u, ∑ j, M k u j * effXMask a j ≤ R k u) (hs : ∀ k u, sigma (k, u) = 1 / R k u)
    (ht : ∀ k j, ∑ u, M k u j * trainWeight a (k, u) = c j → tau (k, j) = ω / c j) {z : Arr ν} (hz : Admissible a z) :
    ∀ (rows : List (Fin na)) (x y : Arr ν), (∀ j, effXMask a j = 0 → x j = y j) →
      (∀ j, effXMask a j = 0 → rows.foldl (sartRow (angleOp M) b a sigma tau) x j = rows.foldl (sartRow (angleOp M) b' a sigma tau) y j) ∧
      Real.sqrt (dist2 c (rows.foldl (sartRow (angleOp M) b a sigma tau) x) (rows.foldl (sartRow (angleOp M) b' a sigma tau) y)) ≤
        Real.sqrt (dist2 c x y) + ω * (rows.map (projNoise a R b b')).sum := by
  intro rows
  have hz' : Admissible (oneProj a) z := hz
  induction rows with
  | nil => intro x y hxy; exact ⟨hxy, by simp⟩
  | cons k l ih =>
    intro x y hxy
    rw [List.foldl_cons, List.foldl_cons, row_sirt h hs ht, row_sirt h hs ht]
    set s : Arr (Fin nu) := fun u => trainWeight a (k, u) / R k u with hsd
    have hok := one_ok h hR hR2 k
    have hzero : ∀ (t : Arr (Fin nu)) (v : Arr ν) j, effXMask a j = 0 → sirtMap (M k) (oneProj a) s t c ω v j = 0 := fun t v j hj =>
      zeroOutside_eff (admissible_zero (clipMask_admissible (oneProj_scale h) hz' _)) j hj
    obtain ⟨i1, i2⟩ := ih (sirtMap (M k) (oneProj a) s (fun u => b (k, u)) c ω x) (sirtMap (M k) (oneProj a) s (fun u => b' (k, u)) c ω y)
      fun j hj => by rw [hzero _ _ j hj, hzero _ _ j hj]
    refine ⟨i1, i2.trans ?_⟩
    have h1 := dist2_triangle h.pos (sirtMap (M k) (oneProj a) s (fun u => b (k, u)) c ω x) (sirtMap (M k) (oneProj a) s (fun u => b (k, u)) c ω y)
      (sirtMap (M k) (oneProj a) s (fun u => b' (k, u)) c ω y)
    have h2 := Real.sqrt_le_sqrt (sirtMap_nonexp (t := fun u => b (k, u)) hω hω2 (oneProj_scale h) hok hz' (x := x) (z := y) hxy)
    have h3 := sirtMap_noise (t := fun u => b (k, u)) (t' := fun u => b' (k, u)) hω (oneProj_scale h) hok hz' y
    rw [List.map_cons, List.sum_cons, mul_add]
    have h4 : projNoise a R b b' k = Real.sqrt (∑ u, s u * (b (k, u) - b' (k, u)) ^ 2) := rfl
    rw [h4]
    linarith

/-- C282. Two SART runs of `n` iterations on the same projections (even weights as in C252) with the same options (relaxation in [0, 2], no tolerance; masks, limits that some
volume respects) and the same order of the projections, with data `b`, `b'` and start volumes that differ only where the solution mask is not zero: in the volume's weighted norm,
the results differ at most by as much as the start volumes do plus `n` times the relaxation times the sum, over the projections gone through, of the difference of the data (each
pixel divided by its row sum `R`, masked pixels counting nothing). With the same data the distance never grows. -/
theorem C282_sart_stable {S : Solver ν (Fin na × Fin nu) Q} {b b' : Fin na × Fin nu → ℝ} {o o' : Option (Arr ν)} {n : ℕ} {x y : Arr ν}
    {info info' : Info} {rows : List (Fin na)} (hr : sart S (angleOp M) b { a with iterations := n, x0 := o } rows = .ok (x, info))
    (hr' : sart S (angleOp M) b' { a with iterations := n, x0 := o' } rows = .ok (y, info')) (hT : S.tolerance = none) (hω : 0 ≤ S.relaxation)
    (hω2 : S.relaxation ≤ 2) (h : EvenWeights M a c) (ha : ∃ z, Admissible a z)
    (hst : ∀ m, a.xMask = some m → ∀ j, m j = 0 → (o.getD fun _ => 0) j = (o'.getD fun _ => 0) j) :
    ∃ R : Fin na → Fin nu → ℝ, (∀ k u, 0 < R k u ∧ ∑ j, M k u j * effXMask a j ≤ R k u) ∧
      Real.sqrt (dist2 c x y) ≤ Real.sqrt (dist2 c (o.getD fun _ => 0) (o'.getD fun _ => 0)) +
        n * (S.relaxation * (rows.map (projNoise a R b b')).sum) := by
  obtain ⟨sigma, tau, hsc, -, -⟩ := sart_ok hr
  have hsc' : sartScaling (angleOp M) S.relaxation a = .ok (sigma, tau) := hsc
  obtain ⟨R, hR, hR2, hs, ht⟩ := scaling_even h hsc'
  obtain ⟨z, hz⟩ := ha
  refine ⟨R, fun k u => ⟨hR k u, hR2 k u⟩, ?_⟩
  have hx : x = (fun x => rows.foldl (sartRow (angleOp M) b a sigma tau) x)^[n] (o.getD fun _ => 0) := run_eq (a := { a with x0 := o }) hT hsc' hr
  have hy : y = (fun x => rows.foldl (sartRow (angleOp M) b' a sigma tau) x)^[n] (o'.getD fun _ => 0) := run_eq (a := { a with x0 := o' }) hT hsc' hr'
  rw [hx, hy]
  set u : Arr ν := o.getD fun _ => 0
  set v : Arr ν := o'.getD fun _ => 0
  set F := fun x => rows.foldl (sartRow (angleOp M) b a sigma tau) x with hF
  set G := fun x => rows.foldl (sartRow (angleOp M) b' a sigma tau) x with hG
  have key : ∀ k : ℕ, (∀ j, effXMask a j = 0 → F^[k] u j = G^[k] v j) ∧
      Real.sqrt (dist2 c (F^[k] u) (G^[k] v)) ≤ Real.sqrt (dist2 c u v) + k * (S.relaxation * (rows.map (projNoise a R b b')).sum) := by
    intro k
    induction k with
    | zero =>
      refine ⟨fun j hj => ?_, by simp⟩
      unfold effXMask at hj
      cases hm : a.xMask with
      | none => simp [hm] at hj
      | some m => exact hst m hm j (by simpa [hm] using hj)
    | succ k ih =>
      rw [Function.iterate_succ_apply', Function.iterate_succ_apply']
      obtain ⟨h1, h2⟩ := sweep_stable h (b := b) (b' := b') hω hω2 hR hR2 hs ht hz rows _ _ ih.1
      refine ⟨h1, h2.trans ?_⟩
      push_cast
      linarith [ih.2]
  exact (key n).2

/-- Non-vacuity: the projections of the example of C252 (the vertical sums, then every voxel on its own), a lower limit, two data sets and two start volumes: both runs
succeed for every number of iterations. -/
example : let M : Fin 2 → Fin 2 → Fin 2 → ℝ := fun k u j => if k = 0 then (if u = 0 then 1 else 0) else (if u = j then 1 else 0)
    let a : Args (Fin 2) (Fin 2 × Fin 2) := { iterations := 0, lower := some (.scalar 0) }
    EvenWeights M a (fun _ => 1) ∧ (∃ z, Admissible a z) ∧
    ∀ n, (∃ r, sart (Q := Unit) ⟨1, none, [], .new .l2 none, .new .l2 none, none⟩ (angleOp M) (fun p => p.1 + p.2) { a with iterations := n, x0 := none } [1, 0] = .ok r) ∧
      ∃ r, sart (Q := Unit) ⟨1, none, [], .new .l2 none, .new .l2 none, none⟩ (angleOp M) (fun _ => 3) { a with iterations := n, x0 := some fun _ => 7 } [1, 0] = .ok r := by
  intro M a
  have hn : ∀ k u j, 0 ≤ M k u j := by
    intro k u j
    simp only [M]
    split_ifs <;> norm_num
  refine ⟨⟨hn, ?_, by simp [a], rfl, by simp [a], by simp, by norm_num, ?_⟩, ⟨![1, 3], ⟨?_, by simp [a]⟩, by simp [a]⟩, fun n => ⟨?_, ?_⟩⟩
  · intro k u
    rw [Fin.sum_univ_two]
    simp only [M]
    split_ifs <;> norm_num
  · intro k j
    right
    rw [Fin.sum_univ_two]
    fin_cases k <;> fin_cases j <;> simp [M, a, trainWeight]
  · intro l hl j
    have : l = .scalar 0 := by simpa [a] using hl.symm
    rw [this]
    fin_cases j <;> simp [Attr.get]
  all_goals
    unfold sart sartScaling
    simp only [Bind.bind, Except.bind]
    rw [if_neg]
    · simp
    · push Not
      constructor
      · refine ne_of_gt (lt_of_lt_of_le ?_ (le_npMax _ (0, 0)))
        simp [angleOp, applyMask, a, M]
      · refine ne_of_gt (lt_of_lt_of_le ?_ (le_npMax _ (0, 0)))
        simp [angleOp, applyMask, a, M]

end Verif
