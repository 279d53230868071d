import Verif.Props.Operators

/-!
# Chains of transposes (C28), explicit matrices (C30) and the disagreements C66–C69
-/

namespace Verif
open Finset

/-! ## C28 -/

/-- Matrix projectors: transposing twice gives the object back, the transposed object projects with the adjoint map, and
taking absolute values commutes with transposing. -/
theorem C28_matrix {α β : Type} [Fintype α] [Fintype β] (A : MatProj α β) :
    A.T.T = A ∧ A.T.fp = A.bp ∧ A.T.bp = A.fp ∧ A.T.absolute = A.absolute.T := ⟨rfl, rfl, rfl, rfl⟩

/-- Every operator: a freshly made operator applies its direct map, its transpose the adjoint map, and each of them
applies the map of the other one from the left (`rmatvec`). -/
theorem C28_transpose {V W : Type} (o : Xform V W) (h : o.isDir = true) :
    (∀ x, o.call (.dir x) = some (.adj (o.direct x))) ∧ (∀ y, o.T.call (.adj y) = some (.dir (o.adjoint y))) ∧
    (∀ v, o.T.rmatvec v = o.call v) ∧ ∀ v, o.rmatvec v = o.T.call v := by
  refine ⟨fun x => by simp [Xform.call, h], fun y => by simp [Xform.call, Xform.T], ?_, ?_⟩ <;>
  · intro v; cases v <;> simp [Xform.call, Xform.T, Xform.rmatvec, h]

example (y : Arr (Fin 1 × Idx ![3])) :
    (⟨gradient .wrap ![0], gradientAdjoint .wrap ![0], true⟩ : Xform (Arr (Idx ![3])) (Arr (Fin 1 × Idx ![3]))).T.call (.adj y) =
      some (.dir (gradientAdjoint .wrap ![0] y)) := (C28_transpose _ rfl).2.1 y

/-! ## C68: transposing twice, for every operator -/

/-- The toolbox' base class does not satisfy it: every chain of one or more `.T` applies the adjoint map, so the twice
transposed operator rejects what the operator accepts (or, for square operators, applies the adjoint). -/
theorem C68_transpose_twice_violated {V W : Type} (o : Xform V W) (h : o.isDir = true) (k : ℕ) :
    (Xform.T^[k + 1] o).call = o.T.call ∧
    ∀ x, o.call (.dir x) ≠ none ∧ o.T.T.call (.dir x) = none := by
  constructor
  · induction k with
    | zero => rfl
    | succ k ih =>
      rw [Function.iterate_succ', Function.comp_apply]
      rw [Function.iterate_succ', Function.comp_apply] at ih ⊢
      exact ih
  · intro x
    simp [Xform.call, Xform.T, h]

/-- What holds: for operators that are their own adjoint (identity, diagonal scaling, Laplacian) any number of transposes
applies the same map as the operator. -/
theorem C68_self_adjoint_partial {V : Type} (f : V → V) (k : ℕ) (x : V) :
    (Xform.T^[k + 1] ⟨f, f, true⟩ : Xform V V).call (.adj x) = some (.dir (f x)) ∧
    (⟨f, f, true⟩ : Xform V V).call (.dir x) = some (.adj (f x)) := by
  refine ⟨?_, rfl⟩
  rw [(C68_transpose_twice_violated (⟨f, f, true⟩ : Xform V V) rfl k).1]
  rfl

/-! ## C30 -/

section
variable {α β : Type} [Fintype α] [Fintype β] [DecidableEq α] [DecidableEq β]

private theorem linear_sum {f : Arr α → Arr β} (hf : IsLinear f) (s : Finset α) (c : α → ℝ) :
    f (fun k => ∑ j ∈ s, c j * (if k = j then 1 else 0)) = fun i => ∑ j ∈ s, c j * explicitMatrix f i j := by
  induction s using Finset.induction_on with
  | empty =>
    have := hf 0 0 (fun _ => 0) (fun _ => 0)
    simpa using this
  | insert a s ha ih =>
    have := hf (c a) 1 (fun k => if k = a then 1 else 0) (fun k => ∑ j ∈ s, c j * (if k = j then 1 else 0))
    rw [ih] at this
    have e : (fun k => ∑ j ∈ insert a s, c j * (if k = j then (1 : ℝ) else 0)) =
        fun k => c a * (if k = a then 1 else 0) + 1 * ∑ j ∈ s, c j * (if k = j then 1 else 0) := by
      funext k; rw [sum_insert ha, one_mul]
    rw [e, this]
    funext i
    rw [sum_insert ha, one_mul]
    rfl

/-- The explicit matrix of a linear operator acts like the operator. -/
theorem C30_explicit (f : Arr α → Arr β) (hf : IsLinear f) (x : Arr α) (i : β) :
    f x i = ∑ j, explicitMatrix f i j * x j := by
  have h := congrFun (linear_sum hf univ x) i
  have e : (fun k => ∑ j, x j * (if k = j then (1 : ℝ) else 0)) = x := by
    funext k; simp
  rw [e] at h
  rw [h]
  exact sum_congr rfl fun j _ => mul_comm _ _

omit [DecidableEq α] [DecidableEq β] in
/-- Operators with an adjoint are linear. -/
theorem IsAdjoint.linear {f : Arr α → Arr β} {g : Arr β → Arr α} (h : IsAdjoint f g) : IsLinear f := by
  classical
  intro a b x y
  funext i
  have key : ∀ z, f z i = dot z (g fun k => if k = i then 1 else 0) := by
    intro z
    rw [← h]
    simp [dot]
  rw [key, key x, key y]
  unfold dot
  rw [mul_sum, mul_sum, ← sum_add_distrib]
  exact sum_congr rfl fun j _ => by ring

/-- With a true adjoint, the explicit matrices of an operator and of its transpose are transposed to each other, and both
represent the application. -/
theorem C30_explicit_transpose (f : Arr α → Arr β) (g : Arr β → Arr α) (h : IsAdjoint f g) :
    (∀ i j, explicitMatrix g j i = explicitMatrix f i j) ∧ (∀ x i, f x i = ∑ j, explicitMatrix f i j * x j) ∧
    ∀ y j, g y j = ∑ i, explicitMatrix f i j * y i := by
  have ht : ∀ i j, explicitMatrix g j i = explicitMatrix f i j := by
    intro i j
    have := h (fun k => if k = j then 1 else 0) (fun k => if k = i then 1 else 0)
    simp only [dot, mul_ite, mul_one, mul_zero, ite_mul, one_mul, zero_mul, sum_ite_eq', mem_univ, if_true] at this
    unfold explicitMatrix
    exact this.symm
  refine ⟨ht, C30_explicit f h.linear, ?_⟩
  intro y j
  have hg : IsAdjoint g f := by
    intro y x
    have := h x y
    unfold dot at *
    simp_rw [mul_comm] at *
    exact this.symm
  rw [C30_explicit g hg.linear y j]
  exact sum_congr rfl fun i _ => by rw [ht]
end

/-- For example the periodic gradient of a 3×4 image. -/
example (x : Arr (Idx ![3, 4])) (q) :
    gradient .wrap ![0, 1] x q = ∑ j, explicitMatrix (gradient .wrap ![0, 1]) q j * x j :=
  C30_explicit _ (C27_gradient (by decide) _).linear x q


/-! ## C66: the default (edge-padded) gradient -/

variable {κ : Type} [Fintype κ] [DecidableEq κ] {n : κ → ℕ}

/-- `p` is the last (first) position of the array along axis `a`. -/
def lastOn (a : κ) (p : Idx n) : ℝ := if (p a : ℕ) + 1 = n a then 1 else 0
/-- See `lastOn`. -/
def firstOn (a : κ) (p : Idx n) : ℝ := if (p a : ℕ) = 0 then 1 else 0

private theorem shift_none (a : κ) (σ : ℤ) (p : Idx n) :
    shiftIdx p (fun k => σ * unitAx a k) = none ↔ ¬ (0 ≤ (p a : ℤ) + σ ∧ (p a : ℤ) + σ < n a) := by
  unfold shiftIdx
  constructor
  · intro h
    split_ifs at h with hs
    intro hh
    apply hs
    intro k
    by_cases hk : k = a
    · subst hk; simpa [unitAx] using hh
    · have := (p k).isLt
      simp only [unitAx, if_neg hk, mul_zero, add_zero]
      omega
  · intro h
    rw [dif_neg]
    intro hs
    have := hs a
    simp only [unitAx, if_true, mul_one] at this
    exact h this

private theorem edge_fwd (x : Arr (Idx n)) (p : Idx n) (a : κ) :
    padGet .edge x p (unitAx a) = padGet .constant x p (unitAx a) + lastOn a p * x p := by
  have e1 : unitAx a = fun k => (1 : ℤ) * unitAx a k := by funext k; ring
  rw [e1, padGet_edge_unit x p a 1 (Or.inl rfl)]
  have := shift_none a 1 p
  have := (p a).isLt
  unfold padGet lastOn
  cases h : shiftIdx p (fun k => (1 : ℤ) * unitAx a k) with
  | none =>
    rw [if_pos (by have := (shift_none a 1 p).1 h; omega)]; simp
  | some q =>
    have : ¬ (shiftIdx p (fun k => (1 : ℤ) * unitAx a k) = none) := by rw [h]; simp
    rw [if_neg (by rw [shift_none] at this; omega)]; simp

private theorem edge_bwd (x : Arr (Idx n)) (p : Idx n) (a : κ) :
    padGet .edge x p (fun k => -unitAx a k) = padGet .constant x p (fun k => -unitAx a k) + firstOn a p * x p := by
  have e1 : (fun k => -unitAx a k) = fun k => (-1 : ℤ) * unitAx a k := by funext k; ring
  rw [e1, padGet_edge_unit x p a (-1) (Or.inr rfl)]
  have := (p a).isLt
  unfold padGet firstOn
  cases h : shiftIdx p (fun k => (-1 : ℤ) * unitAx a k) with
  | none =>
    rw [if_pos (by have := (shift_none a (-1) p).1 h; omega)]; simp
  | some q =>
    have : ¬ (shiftIdx p (fun k => (-1 : ℤ) * unitAx a k) = none) := by rw [h]; simp
    rw [if_neg (by rw [shift_none] at this; omega)]; simp

/-- Exactly how far the transpose of the edge-padded gradient is from the adjoint: one boundary term for the first and one
for the last positions of each axis. So it is the adjoint for arguments that vanish there. -/
theorem C66_edge_gradient_partial {m : ℕ} (axes : Fin m → κ) (x : Arr (Idx n)) (y : Arr (Fin m × Idx n)) :
    (dot (gradient .edge axes x) y - dot x (gradientAdjoint .edge axes y) =
      ∑ i, ∑ p, (lastOn (axes i) p - firstOn (axes i) p) * x p * y (i, p)) ∧
    ((∀ i p, (p (axes i) : ℕ) = 0 ∨ (p (axes i) : ℕ) + 1 = n (axes i) → y (i, p) = 0) →
      dot (gradient .edge axes x) y = dot x (gradientAdjoint .edge axes y)) := by
  have h1 : dot (gradient .edge axes x) y - dot x (gradientAdjoint .edge axes y) =
      ∑ i, ∑ p, (lastOn (axes i) p - firstOn (axes i) p) * x p * y (i, p) := by
    have h := C27_gradient (n := n) (mode := .constant) (by decide) axes x y
    have a1 : dot (gradient .edge axes x) y = dot (gradient .constant axes x) y + ∑ i, ∑ p, lastOn (axes i) p * x p * y (i, p) := by
      unfold dot gradient
      rw [Fintype.sum_prod_type, Fintype.sum_prod_type, ← sum_add_distrib]
      refine sum_congr rfl fun i _ => ?_
      rw [← sum_add_distrib]
      refine sum_congr rfl fun p _ => ?_
      simp only [edge_fwd]
      ring
    have a2 : dot x (gradientAdjoint .edge axes y) =
        dot x (gradientAdjoint .constant axes y) + ∑ i, ∑ p, firstOn (axes i) p * x p * y (i, p) := by
      unfold dot gradientAdjoint divergence
      rw [sum_comm (s := univ (α := Fin m)), ← sum_add_distrib]
      refine sum_congr rfl fun p _ => ?_
      simp only [edge_bwd, ← sum_neg_distrib, mul_sum]
      rw [← sum_add_distrib]
      refine sum_congr rfl fun i _ => ?_
      ring
    rw [a1, a2, h]
    simp only [sub_mul, sum_sub_distrib]
    ring
  refine ⟨h1, fun h => ?_⟩
  rw [← sub_eq_zero, h1]
  refine sum_eq_zero fun i _ => sum_eq_zero fun p _ => ?_
  by_cases hf : (p (axes i) : ℕ) = 0 ∨ (p (axes i) : ℕ) + 1 = n (axes i)
  · rw [h i p hf, mul_zero]
  · rw [not_or] at hf
    simp [lastOn, firstOn, hf.1, hf.2]

/-- The default gradient operator's transpose is not its adjoint. -/
theorem C66_edge_gradient_violated :
    ¬ IsAdjoint (gradient (n := fun _ : Fin 1 => 2) .edge (fun _ : Fin 1 => 0)) (gradientAdjoint .edge fun _ => 0) := by
  intro h
  have h2 := (C66_edge_gradient_partial (n := fun _ : Fin 1 => 2) (fun _ : Fin 1 => 0) (fun p => if (p 0 : ℕ) = 0 then 1 else 0)
    (fun _ => 1)).1
  rw [h, sub_self, Fin.sum_univ_one] at h2
  let e : Idx (fun _ : Fin 1 => 2) ≃ Fin 2 := Equiv.funUnique (Fin 1) (Fin 2)
  rw [← Equiv.sum_comp e.symm, Fin.sum_univ_two] at h2
  simp [e, lastOn, firstOn] at h2

/-! ## C67: the default options of the convolution -/

/-- In one dimension, length `N`, kernel length `W`. -/
abbrev d1 (N : ℕ) : Fin 1 → ℕ := fun _ => N

private theorem sum_d1 {N : ℕ} (f : Idx (d1 N) → ℝ) : ∑ p, f p = ∑ i : Fin N, f fun _ => i := by
  let e : Idx (d1 N) ≃ Fin N := Equiv.funUnique (Fin 1) (Fin N)
  rw [← Equiv.sum_comp e.symm]
  rfl

/-- The transpose of a convolution is not its adjoint: (1) for `is_symm=False`; (2) with `flip_adjoint` for a kernel of even
length; (3) with the default options for a symmetric kernel of length 5; (4) with the default options for an asymmetric
kernel. -/
theorem C67_convolution_violated :
    (¬ IsAdjoint ((⟨fun _ => 2, .constant, false, false⟩ : Convolution (d1 1)).direct (n := d1 1))
      (Convolution.adjoint (w := d1 1) ⟨fun _ => 2, .constant, false, false⟩)) ∧
    (¬ IsAdjoint ((⟨fun j => if (j 0 : ℕ) = 0 then 1 else 0, .constant, true, true⟩ : Convolution (d1 2)).direct (n := d1 2))
      (Convolution.adjoint (w := d1 2) ⟨fun j => if (j 0 : ℕ) = 0 then 1 else 0, .constant, true, true⟩)) ∧
    (¬ IsAdjoint ((⟨fun j => if (j 0 : ℕ) % 4 = 0 then 1 else 0, .edge, true, false⟩ : Convolution (d1 5)).direct (n := d1 3))
      (Convolution.adjoint (w := d1 5) ⟨fun j => if (j 0 : ℕ) % 4 = 0 then 1 else 0, .edge, true, false⟩)) ∧
    (¬ IsAdjoint ((⟨fun j => if (j 0 : ℕ) = 0 then 1 else 0, .edge, true, false⟩ : Convolution (d1 3)).direct (n := d1 2))
      (Convolution.adjoint (w := d1 3) ⟨fun j => if (j 0 : ℕ) = 0 then 1 else 0, .edge, true, false⟩)) := by
  refine ⟨?_, ?_, ?_, ?_⟩
  · intro h
    have h2 := h (fun _ => 1) (fun _ => 1)
    simp only [dot, sum_d1, Convolution.direct, Convolution.adjoint, convolveSame, padGet, shiftIdx, d1, Fin.sum_univ_one] at h2
    norm_num [Option.elim] at h2
  · intro h
    have h2 := h (fun p => if (p 0 : ℕ) = 0 then 1 else 0) (fun p => if (p 0 : ℕ) = 0 then 1 else 0)
    simp only [dot, sum_d1, Convolution.direct, Convolution.adjoint, convolveSame, padGet, shiftIdx, d1, Fin.sum_univ_two, flipKernel] at h2
    norm_num [Option.elim] at h2
    simp only [convolveSame, sum_d1, d1, Fin.sum_univ_two, padGet, shiftIdx, flipKernel] at h2
    norm_num [Option.elim] at h2
  · intro h
    have h2 := h (fun p => if (p 0 : ℕ) = 0 then 1 else 0) (fun p => if (p 0 : ℕ) = 1 then 1 else 0)
    simp only [dot, sum_d1, Convolution.direct, Convolution.adjoint, convolveSame, padGet, clampIdx, d1, Fin.sum_univ_three,
      Fin.sum_univ_five] at h2
    norm_num at h2
    simp only [convolveSame, sum_d1, d1, Fin.sum_univ_five, padGet, clampIdx] at h2
    norm_num at h2
    exact absurd h2 (by decide)
  · intro h
    have h2 := h (fun p => if (p 0 : ℕ) = 0 then 1 else 0) (fun p => if (p 0 : ℕ) = 1 then 1 else 0)
    simp only [dot, sum_d1, Convolution.direct, Convolution.adjoint, convolveSame, padGet, clampIdx, d1, Fin.sum_univ_three,
      Fin.sum_univ_two] at h2
    norm_num at h2
    simp only [convolveSame, sum_d1, d1, Fin.sum_univ_three, padGet, clampIdx] at h2
    norm_num at h2

/-- The kernel is symmetric under reflection of each axis separately (as a Gaussian PSF is). -/
def ReflectionSymmetric {w : κ → ℕ} (ker : Arr (Idx w)) : Prop :=
  ∀ (S : Set κ) [DecidablePred (· ∈ S)] (j : Idx w), ker (fun k => if k ∈ S then (j k).rev else j k) = ker j

/-- What holds with the default options (edge padding, no flip): kernels of lengths 1 and 3 that are symmetric under
reflection of each axis. -/
theorem C67_default_partial {w : κ → ℕ} (hw : ∀ k, w k = 1 ∨ w k = 3) (c : Convolution w) (hm : c.padMode = .edge)
    (hs : c.isSymm = true) (hf : c.flipAdjoint = false) (hk : ReflectionSymmetric c.kernel) :
    IsAdjoint (c.direct (n := n)) c.adjoint := by
  classical
  intro x y
  have hodd : ∀ k, w k % 2 = 1 := fun k => by rcases hw k with h | h <;> omega
  have conv : ∀ (z : Arr (Idx n)) p, convolveSame .edge c.kernel z p =
      ∑ j : Idx w, c.kernel j * z (clampIdx p fun k => ((w k - 1) / 2 : ℕ) - (j k : ℤ)) := by
    intro z p
    unfold convolveSame
    refine sum_congr rfl fun j _ => ?_
    dsimp only
    rw [if_pos]
    · rfl
    · intro k
      have := (p k).isLt
      have := (j k).isLt
      have := hodd k
      omega
  let o : Idx w → κ → ℤ := fun j k => ((w k - 1) / 2 : ℕ) - (j k : ℤ)
  -- the involution: move to the neighbour read, and reverse the offset on the axes along which one moved
  let inR : Idx n × Idx w → Set κ := fun q => {k | 0 ≤ (q.1 k : ℤ) + o q.2 k ∧ (q.1 k : ℤ) + o q.2 k < n k}
  let F : Idx n × Idx w → Idx n × Idx w := fun q =>
    (clampIdx q.1 (o q.2), fun k => if k ∈ inR q then (q.2 k).rev else q.2 k)
  have hF : ∀ q, F (F q) = q := by
    intro q
    have hk : ∀ k, ((F (F q)).1 k : ℕ) = q.1 k ∧ ((F (F q)).2 k : ℕ) = q.2 k := by
      intro k
      have hp := (q.1 k).isLt
      have hj := (q.2 k).isLt
      by_cases h : k ∈ inR q
      · have h' : 0 ≤ (q.1 k : ℤ) + o q.2 k ∧ (q.1 k : ℤ) + o q.2 k < n k := h
        have e1 : (((F q).1 k : ℕ) : ℤ) = (q.1 k : ℤ) + o q.2 k := by
          simp only [F, clampIdx]; omega
        have e2 : o (F q).2 k = -o q.2 k := by
          simp only [F, o, if_pos h, Fin.val_rev]
          rcases hw k with h1 | h1 <;> omega
        have h3 : k ∈ inR (F q) := by
          show 0 ≤ (((F q).1 k : ℕ) : ℤ) + o (F q).2 k ∧ (((F q).1 k : ℕ) : ℤ) + o (F q).2 k < n k
          rw [e1, e2]; omega
        constructor
        · show (clampIdx (F q).1 (o (F q).2) k : ℕ) = _
          simp only [clampIdx]
          rw [e1, e2]; omega
        · show ((if k ∈ inR (F q) then ((F q).2 k).rev else (F q).2 k : Fin (w k)) : ℕ) = _
          rw [if_pos h3]
          simp only [F, if_pos h, Fin.rev_rev]
      · have h' : ¬ (0 ≤ (q.1 k : ℤ) + o q.2 k ∧ (q.1 k : ℤ) + o q.2 k < n k) := h
        have ho : -1 ≤ o q.2 k ∧ o q.2 k ≤ 1 := by
          simp only [o]
          rcases hw k with h1 | h1 <;> omega
        have e1 : ((F q).1 k : ℕ) = q.1 k := by
          simp only [F, clampIdx]; omega
        have e2 : (F q).2 k = q.2 k := by
          simp only [F, if_neg h]
        have e3 : o (F q).2 k = o q.2 k := by
          show ((w k - 1) / 2 : ℕ) - (((F q).2 k : ℕ) : ℤ) = _
          rw [e2]
        have h3 : k ∉ inR (F q) := by
          intro h3
          have h4 : 0 ≤ (((F q).1 k : ℕ) : ℤ) + o (F q).2 k ∧ (((F q).1 k : ℕ) : ℤ) + o (F q).2 k < n k := h3
          rw [e1, e3] at h4
          exact h' h4
        constructor
        · show (clampIdx (F q).1 (o (F q).2) k : ℕ) = _
          simp only [clampIdx]
          rw [e1, e3]; omega
        · show ((if k ∈ inR (F q) then ((F q).2 k).rev else (F q).2 k : Fin (w k)) : ℕ) = _
          rw [if_neg h3, e2]
    apply Prod.ext
    · funext k; exact Fin.ext (hk k).1
    · funext k; exact Fin.ext (hk k).2
  let e : Idx n × Idx w ≃ Idx n × Idx w := ⟨F, F, hF, hF⟩
  have hd : c.direct (n := n) = convolveSame .edge c.kernel := by
    funext z; unfold Convolution.direct; rw [hm]
  have ha : c.adjoint (n := n) = convolveSame .edge c.kernel := by
    funext z; unfold Convolution.adjoint; rw [if_pos hs, hf, hm]; simp
  rw [hd, ha]
  unfold dot
  simp only [conv, sum_mul, mul_sum]
  rw [← Fintype.sum_prod_type' (f := fun p j => c.kernel j * x (clampIdx p (o j)) * y p),
    ← Fintype.sum_prod_type' (f := fun p j => x p * (c.kernel j * y (clampIdx p (o j)))), ← Equiv.sum_comp e]
  refine sum_congr rfl fun q _ => ?_
  have h1 : clampIdx (F q).1 (o (F q).2) = q.1 := congrArg Prod.fst (hF q)
  have h2 : c.kernel (F q).2 = c.kernel q.2 := hk (inR q) q.2
  show c.kernel (F q).2 * x (clampIdx (F q).1 (o (F q).2)) * y (F q).1 = x q.1 * (c.kernel q.2 * y (F q).1)
  rw [h1, h2]
  ring

example : IsAdjoint ((⟨fun _ => 1 / 9, .edge, true, false⟩ : Convolution (fun _ : Fin 2 => 3)).direct (n := ![4, 2]))
    (Convolution.adjoint (w := fun _ : Fin 2 => 3) ⟨fun _ => 1 / 9, .edge, true, false⟩) :=
  C67_default_partial (fun _ => Or.inr rfl) _ rfl rfl rfl fun _ _ _ => rfl

/-! ## C69: absolute values of operators -/

/-- `absolute()` of a matrix projector is the operator with the absolute matrix entries; its row and column sums are what
the preconditioner needs. -/
theorem C69_matrix_absolute_partial {α β : Type} [Fintype α] [Fintype β] (A : MatProj α β) (x : Arr α) (y : Arr β) :
    (∀ i, A.absolute.fp x i = ∑ j, |A.entry i j| * x j) ∧ ∀ j, A.absolute.bp y j = ∑ i, |A.entry i j| * y i :=
  ⟨fun _ => rfl, fun _ => rfl⟩

/-- With edge padding, `absolute()` of a convolution dominates the entries of the convolution, and it is the convolution
itself for kernels without negative values and default options. -/
theorem C69_convolution_absolute_partial {w : κ → ℕ} (c : Convolution w) (hm : c.padMode = .edge) :
    (∀ (x : Arr (Idx n)) p, |c.direct x p| ≤ c.absolute.direct (fun q => |x q|) p) ∧
    (∀ i j, |explicitMatrix (c.direct (n := n)) i j| ≤ explicitMatrix (c.absolute.direct (n := n)) i j) ∧
    ((∀ j, 0 ≤ c.kernel j) → c.absolute.direct (n := n) = c.direct) := by
  have key : ∀ (x : Arr (Idx n)) p, |c.direct x p| ≤ c.absolute.direct (fun q => |x q|) p := by
    intro x p
    unfold Convolution.direct convolveSame Convolution.absolute
    rw [hm]
    refine (abs_sum_le_sum_abs _ _).trans (sum_le_sum fun j _ => ?_)
    dsimp only
    split_ifs
    · rw [abs_mul]
      simp [padGet]
    · simp
  refine ⟨key, ?_, ?_⟩
  · intro i j
    refine (key _ i).trans (le_of_eq ?_)
    unfold explicitMatrix
    congr 1
    funext q
    split_ifs <;> simp
  · intro h0
    funext x p
    unfold Convolution.direct Convolution.absolute
    rw [hm]
    have : (fun j => |c.kernel j|) = c.kernel := funext fun j => abs_of_nonneg (h0 j)
    rw [this]

/-- But the absolute value of other operators is not: the gradient's `absolute()` is the gradient itself
(src/corrct/operators.py:130-138), with an entry `-1`; and the absolute value of a zero-padded convolution with a
non-negative kernel is a different, edge-padded, convolution (src/corrct/operators.py:471). -/
theorem C69_absolute_violated :
    (explicitMatrix (gradient (n := d1 2) .edge (fun _ : Fin 1 => 0)) (0, fun _ => (0 : Fin 2)) (fun _ => (0 : Fin 2)) = -1) ∧
    (∃ c : Convolution (d1 3), (∀ j, 0 ≤ c.kernel j) ∧
      explicitMatrix (c.direct (n := d1 1)) (fun _ => (0 : Fin 1)) (fun _ => (0 : Fin 1)) = 1 ∧
      explicitMatrix (c.absolute.direct (n := d1 1)) (fun _ => (0 : Fin 1)) (fun _ => (0 : Fin 1)) = 3) := by
  constructor
  · have h1 : clampIdx (n := d1 2) (fun _ => (0 : Fin 2)) (unitAx 0) = fun _ => (1 : Fin 2) := by
      funext k
      apply Fin.ext
      have : k = 0 := Subsingleton.elim _ _
      subst this
      simp [clampIdx, unitAx]
    have h2 : (fun _ : Fin 1 => (1 : Fin 2)) ≠ fun _ => 0 := fun h => by
      have := congrFun h 0
      simp at this
    show (if clampIdx (n := d1 2) (fun _ => (0 : Fin 2)) (unitAx 0) = fun _ => (0 : Fin 2) then (1 : ℝ) else 0) -
      (if (fun _ : Fin 1 => (0 : Fin 2)) = fun _ => 0 then 1 else 0) = -1
    rw [h1, if_neg h2, if_pos rfl]
    norm_num
  · have h : ∀ q r : Idx (fun _ : Fin 1 => 1), q = r := fun q r => funext fun k => Subsingleton.elim _ _
    refine ⟨⟨fun _ => 1, .constant, true, false⟩, fun j => by norm_num, ?_, ?_⟩
    · simp only [explicitMatrix, Convolution.direct, convolveSame, sum_d1, d1, Fin.sum_univ_three, padGet, shiftIdx]
      norm_num [Option.elim]
    · simp only [explicitMatrix, Convolution.direct, Convolution.absolute, convolveSame, sum_d1, d1, Fin.sum_univ_three, padGet]
      norm_num
      rw [if_pos (h _ _), if_pos (h _ _), if_pos (h _ _)]
      norm_num

end Verif
