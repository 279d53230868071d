import Verif.Lemmas.ProxGrad
import Verif.Props.SolversFixed
import Verif.Props.SolversConv

/-! # C143: SART -/

namespace Verif
open Classical DataTerm Finset

variable {ν ι Q : Type} [Fintype ν] [Fintype ι]

/-- The operator of a stack of projections given as one matrix per angle. -/
noncomputable def angleOp {na nu : ℕ} (M : Fin na → Fin nu → ν → ℝ) : AngleOp ν na nu where
  fwd := fun k x u => ∑ j, M k u j * x j
  adj := fun k y j => ∑ u, M k u j * y u

private theorem sum_one {nu : ℕ} (f : Fin 1 × Fin nu → ℝ) : ∑ p, f p = ∑ u, f (0, u) := by
  rw [Fintype.sum_prod_type, Fin.sum_univ_one]

private theorem npMax_one {α : Type} (f : Arr (Fin 1 × α)) : npMax f = npMax fun x => f (0, x) := by
  unfold npMax
  refine (Equiv.iSup_congr (Equiv.uniqueProd α (Fin 1)).symm fun x => rfl).symm

private theorem fixSmall_one {α : Type} (f : Arr (Fin 1 × α)) (x : α) : fixSmall f (0, x) = fixSmall (fun x => f (0, x)) x := by
  unfold fixSmall
  rw [npMax_one]

/-- C143, one projection: SART with a single angle is SIRT with the same relaxation (non-negative matrix and masks, l2 term
without background, no regularizer, no tolerance): both fail, or both return the same volume. -/
theorem C143_sart_single_angle {nu : ℕ} (M : Fin nu → ν → ℝ) (hM : ∀ u j, 0 ≤ M u j) {S : Solver ν (Fin 1 × Fin nu) Q}
    (hr : S.regs = []) (hk : S.term.kind = .l2) (hbg : S.term.background = none) (hT : S.tolerance = none)
    (b : Fin 1 × Fin nu → ℝ) (a : Args ν (Fin 1 × Fin nu)) (ht : a.bTestMask = none) :
    (sart S (angleOp fun _ => M) b a [0]).toOption.map (·.1) = (sirt S (matrixOp fun p => M p.2) b a).toOption.map (·.1) := by
  have hmask : initBMasks a.bMask a.bTestMask = (a.bMask, none) := by rw [ht]; rfl
  have habs : ∀ u j, |M u j| = M u j := fun u j => abs_of_nonneg (hM u j)
  set tau0 : Arr ν := fun j => |∑ u, M u j * applyMask a.bMask (fun _ => 1) (0, u)| with htau0
  set sig0 : Arr (Fin nu) := fun u => |∑ j, M u j * applyMask a.xMask (fun _ => 1) j| with hsig0
  have hs1 : sart (Q := Q) S (angleOp fun _ => M) b a [0] =
      if npMax tau0 = 0 ∨ npMax sig0 = 0 then .error .nonFinite else
      let r := forRange (sartStep (angleOp fun _ => M) b a (fun p => 1 / fixSmall sig0 p.2)
          (fun p => S.relaxation / fixSmall tau0 p.2) [0] none) a.iterations
        ⟨a.x0.getD fun _ => 0, Info.new a.iterations none⟩
      .ok (r.x, r.info) := by
    unfold sart sartScaling
    have e1 : (fun p : Fin 1 × ν => |(angleOp fun _ => M).adj p.1 (fun u => applyMask a.bMask (fun _ => 1) (p.1, u)) p.2|) =
        fun p => tau0 p.2 := by
      funext ⟨k, j⟩
      have : k = 0 := Subsingleton.elim _ _
      subst this
      rfl
    have e2 : (fun p : Fin 1 × Fin nu => |(angleOp fun _ => M).fwd p.1 (applyMask a.xMask fun _ => 1) p.2|) =
        fun p => sig0 p.2 := rfl
    have f1 : ∀ p, fixSmall (fun p : Fin 1 × ν => tau0 p.2) p = fixSmall tau0 p.2 := by
      rintro ⟨k, j⟩
      have : k = 0 := Subsingleton.elim _ _
      subst this
      rw [fixSmall_one]
    have f2 : ∀ p, fixSmall (fun p : Fin 1 × Fin nu => sig0 p.2) p = fixSmall sig0 p.2 := by
      rintro ⟨k, j⟩
      have : k = 0 := Subsingleton.elim _ _
      subst this
      rw [fixSmall_one]
    simp only [e1, e2, f1, f2, npMax_one]
    by_cases h : npMax tau0 = 0 ∨ npMax sig0 = 0
    · rw [if_pos h, if_pos h]; rfl
    · rw [if_neg h, if_neg h]
      simp only [bind, Except.bind, hT]
      simp
  have hs2 : sirt (Q := Q) S (matrixOp fun p => M p.2) b a =
      if npMax tau0 = 0 then .error .nonFinite else if npMax sig0 = 0 then .error .nonFinite else
      let term := S.term.assignData (some (.array b)) (.array fun p => 1 / fixSmall sig0 p.2)
      let r := forRange (sirtStep (Q := Q) (matrixOp fun p => M p.2) a [] term S.termTest a.bMask none
          (fun p => 1 / fixSmall sig0 p.2) (fun j => S.relaxation / fixSmall tau0 j) none) a.iterations
        ⟨a.x0.getD fun _ => 0, initialResiduals term S.termTest a.bMask none none
          ((matrixOp fun p : Fin 1 × Fin nu => M p.2).fwd (a.x0.getD fun _ => 0)) (Info.new a.iterations none)⟩
      .ok (r.x, r.info, { S with term := term, termTest := S.termTest }) := by
    unfold sirt
    rw [hmask]
    have e1 : (fun j : ν => |∑ p : Fin 1 × Fin nu, |M p.2 j| * applyMask a.bMask (fun _ => 1) p|) = tau0 := by
      funext j
      rw [sum_one]
      simp only [habs, htau0]
    have e2 : (fun p : Fin 1 × Fin nu => |∑ j, |M p.2 j| * applyMask a.xMask (fun _ => 1) j|) = fun p => sig0 p.2 := by
      funext p
      simp only [habs, hsig0]
    have f2 : (fun p => 1 / fixSmall (fun p : Fin 1 × Fin nu => sig0 p.2) p) = fun p => 1 / fixSmall sig0 p.2 := by
      funext ⟨k, j⟩
      have : k = 0 := Subsingleton.elim _ _
      subst this
      rw [fixSmall_one]
    simp only [absOrSelf, matrixOp, diagonalScaling, hr, List.foldl_nil, e1, e2, npMax_one, f2, hT]
    by_cases h1 : npMax tau0 = 0
    · rw [if_pos h1, if_pos h1]; rfl
    by_cases h2 : npMax sig0 = 0
    · rw [if_neg h1, if_neg h1, if_pos h2, if_pos h2]; rfl
    rw [if_neg h1, if_neg h1, if_neg h2, if_neg h2]
    simp only [bind, Except.bind, testTerm, Option.isSome_none, Bool.false_eq_true, if_false]
  rw [hs1, hs2]
  by_cases h1 : npMax tau0 = 0
  · simp [h1, Except.toOption]
  by_cases h2 : npMax sig0 = 0
  · simp [h2, Except.toOption]
  simp only [h1, h2, or_self, if_false, Except.toOption, Option.map_some, Option.some.injEq]
  refine (forRange_rel (R := fun (s : XState ν) (s' : XState ν) => s.x = s'.x) rfl ?_)
  rintro k ⟨x, i⟩ ⟨x', i'⟩ (rfl : x = x')
  set term := S.term.assignData (some (.array b)) (.array fun p => 1 / fixSmall sig0 p.2) with hterm
  have hKd : term.kind = .l2 := hk
  have hD : term.data = some (.array b) := rfl
  have hB : term.background = none := hbg
  have hrec := recordResiduals_none (term := term) (termTest := S.termTest) (bm := a.bMask) (ii := k)
    (Ax := (matrixOp fun p : Fin 1 × Fin nu => M p.2).fwd x) (info := { i' with iterations := i'.iterations + 1 })
  simp only [sartStep, sirtStep, hrec, List.foldl_cons, List.foldl_nil, and_true]
  unfold sartRow
  refine congrArg (clipMask a) (funext fun j => ?_)
  rw [sub_eq_add_neg, ← neg_mul]
  congr 2
  simp only [angleOp, matrixOp, sum_one, ← sum_neg_distrib]
  refine sum_congr rfl fun u _ => ?_
  unfold DataTerm.residual addBackground
  simp only [hKd, hD, hB, applyMask, Attr.get]
  cases a.bMask <;> simp only <;> ring

/-- C143, consistent data: a start volume that satisfies limits and solution mask and reproduces the data on every
pixel that the mask does not exclude is returned unchanged, for every operator, number of angles and order of the angles. -/
theorem C143_sart_fixed {na nu : ℕ} {S : Solver ν (Fin na × Fin nu) Q} {A : AngleOp ν na nu} {b : Fin na × Fin nu → ℝ}
    {a : Args ν (Fin na × Fin nu)} {rows : List (Fin na)} {x info}
    (hA : ∀ k, A.adj k (fun _ => 0) = fun _ => 0) (hx : Admissible a (a.x0.getD fun _ => 0))
    (hb : ∀ k u, (∀ m, a.bMask = some m → m (k, u) ≠ 0) → A.fwd k (a.x0.getD fun _ => 0) u = b (k, u))
    (h : sart S A b a rows = .ok (x, info)) : x = a.x0.getD fun _ => 0 := by
  set x0 : Arr ν := a.x0.getD fun _ => 0 with hx0
  have hclip : clipMask a x0 = x0 := by
    funext j
    unfold clipMask applyMask
    have h1 : clip1 (a.lower.map (·.get j)) (a.upper.map (·.get j)) (x0 j) = x0 j := by
      unfold clip1
      have hl := hx.1.1
      have hu := hx.1.2
      cases hlo : a.lower <;> cases hup : a.upper <;> simp only [Option.map_none, Option.map_some]
      · exact min_eq_left (hu _ hup j)
      · exact max_eq_left (hl _ hlo j)
      · rw [max_eq_left (hl _ hlo j)]; exact min_eq_left (hu _ hup j)
    cases hm : a.xMask with
    | none => simp only [h1]
    | some m => simp only [h1]; exact hx.2 m hm j
  have hrow : ∀ sigma tau k, sartRow A b a sigma tau x0 k = x0 := by
    intro sigma tau k
    unfold sartRow
    have e : (fun u => (match a.bMask with
        | some m => (A.fwd k x0 u - b (k, u)) * m (k, u)
        | none => A.fwd k x0 u - b (k, u)) * sigma (k, u)) = fun _ => 0 := by
      funext u
      cases hm : a.bMask with
      | none => simp [hb k u (by simp [hm])]
      | some m =>
        by_cases h0 : m (k, u) = 0
        · simp [h0]
        · simp [hb k u (by rw [hm]; rintro m' ⟨⟩; exact h0)]
    refine Eq.trans ?_ hclip
    refine congrArg (clipMask a) (funext fun j => ?_)
    have e' := congrFun (congrArg (A.adj k) e) j
    rw [hA] at e'
    have h0 : ∀ v : ℝ, v = 0 → x0 j - v * tau (k, j) = x0 j := fun v hv => by rw [hv, zero_mul, sub_zero]
    exact h0 _ e'
  have hfold : ∀ sigma tau (l : List (Fin na)), l.foldl (sartRow A b a sigma tau) x0 = x0 := by
    intro sigma tau l
    induction l with
    | nil => rfl
    | cons k l ih => rw [List.foldl_cons, hrow, ih]
  unfold sart at h
  simp only [bind, Except.bind] at h
  split at h
  · cases h
  · split_ifs at h
    · injection h with h
      refine (congrArg Prod.fst h).symm.trans ?_
      refine forRange_inv (fun s : XState ν => s.x = x0) rfl fun k s hs => ?_
      unfold sartStep
      rw [hs, hfold]
      cases S.tolerance <;> rfl
    · injection h with h
      refine (congrArg Prod.fst h).symm.trans ?_
      refine forRange_inv (fun s : XState ν => s.x = x0) rfl fun k s hs => ?_
      unfold sartStep
      rw [hs, hfold]
      cases S.tolerance <;> rfl

/-- Non-vacuity: a run of SART with two angles and one voxel. -/
example : ∃ r, sart (Q := Unit) (ν := Fin 1) ⟨1, none, [], .new .l2 none, .new .l2 none, none⟩ (angleOp fun (_ : Fin 2) (_ : Fin 1) _ => 1)
    (fun _ => 3) { iterations := 4, x0 := some fun _ => 3 } [1, 0] = .ok r ∧ r.1 = fun _ => 3 := by
  have h : ∃ r, sart (Q := Unit) (ν := Fin 1) ⟨1, none, [], .new .l2 none, .new .l2 none, none⟩
      (angleOp fun (_ : Fin 2) (_ : Fin 1) _ => 1) (fun _ => 3) { iterations := 4, x0 := some fun _ => 3 } [1, 0] = .ok r := by
    unfold sart sartScaling
    simp only [bind, Except.bind]
    rw [if_neg]
    · simp
    · push Not
      constructor
      · refine ne_of_gt (lt_of_lt_of_le ?_ (le_npMax _ (0, 0)))
        simp [angleOp, applyMask]
      · refine ne_of_gt (lt_of_lt_of_le ?_ (le_npMax _ (0, 0)))
        simp [angleOp, applyMask]
  obtain ⟨r, hr⟩ := h
  refine ⟨r, hr, ?_⟩
  exact C143_sart_fixed (x := r.1) (info := r.2) (fun k => by funext j; simp [angleOp])
    ⟨⟨by simp, by simp⟩, by simp⟩ (by intro k u _; simp [angleOp]) hr

end Verif
