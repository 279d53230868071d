import Verif.Model.Projectors
import Verif.Spec.Operators

/-! # C31, C32, C33 and C75–C78: projectors, thread pools, attenuation maps -/

namespace Verif
open Classical Finset

section proj
variable {V U : Type} [Fintype V] [Fintype U] {nA nD : ℕ}

/-- Assumption on the ray-tracing backend: at every angle the back-projection is the adjoint of the forward projection. -/
def Backend.Adjoint (b : Backend nA V U) : Prop := ∀ a, IsAdjoint (fun vol => b.fp vol a) (fun prj => b.bp prj a)

private theorem scale_adj (p : Uncorrected nA V U) (a : Fin nA) : IsAdjoint (p.scale a) (p.scale a) := by
  intro x y
  unfold Uncorrected.scale
  cases p.intensities with
  | none => rfl
  | some i => simp only [dot]; exact sum_congr rfl fun u _ => by ring

private theorem unc_angle_adj (p : Uncorrected nA V U) (hb : p.backend.Adjoint) (hpsf : p.psf = none) (a : Fin nA) :
    IsAdjoint (fun vol => p.fpAngle vol a) (fun prj => p.bpAngle prj a) := by
  intro x y
  simp only [Uncorrected.fpAngle, Uncorrected.bpAngle, hpsf]
  rw [scale_adj p a]
  exact hb a _ _

/-- C31 (uncorrected projector): without a point spread function, the back-projection is the adjoint of the forward
projection, for every number of angles and every set of projection intensities. -/
theorem C31_uncorrected (p : Uncorrected nA V U) (hb : p.backend.Adjoint) (hpsf : p.psf = none) : IsAdjoint p.fp p.bp := by
  intro x y
  have h : ∀ a, dot (p.fpAngle x a) (fun u => y (a, u)) = dot x (p.bpAngle (fun u => y (a, u)) a) := fun a =>
    unc_angle_adj p hb hpsf a x _
  simp only [dot, Uncorrected.fp, Uncorrected.bp, Backend.bpAll, Backend.fpAll, hpsf] at h ⊢
  rw [Fintype.sum_prod_type]
  simp only [Uncorrected.fpAngle, Uncorrected.bpAngle, hpsf] at h
  calc _ = ∑ a, ∑ j, x j * p.backend.bp (p.scale a fun u => y (a, u)) a j := sum_congr rfl fun a _ => h a
    _ = _ := by rw [sum_comm]; exact sum_congr rfl fun j _ => by rw [mul_sum]

/-- C31 (single angle of the attenuated projector). -/
theorem C31_xrf_angle (p : Xrf nA nD V U) (hb : p.backend.Adjoint) (hpsf : p.psf = none) (hs : p.isSymmetric = true)
    (a : Fin nA) : IsAdjoint (fun vol => p.fpAngle vol a) (fun line => p.bpAngle line a) := by
  intro x y
  have h : ∀ d, ∑ u, p.toUncorrected.fpAngle (fun j => x j * p.attVolAngles a d j) a u * y (d, u) =
      ∑ j, x j * p.attVolAngles a d j * p.toUncorrected.bpAngle (fun u => y (d, u)) a j := fun d =>
    unc_angle_adj p.toUncorrected hb hpsf a _ _
  simp only [dot, Xrf.fpAngle, Xrf.bpAngle, hs, if_true]
  rw [Fintype.sum_prod_type]
  calc _ = ∑ d, p.weightsDet d * p.weightsAngles a d *
        ∑ u, p.toUncorrected.fpAngle (fun j => x j * p.attVolAngles a d j) a u * y (d, u) := by
          refine sum_congr rfl fun d _ => ?_
          rw [mul_sum]; exact sum_congr rfl fun u _ => by ring
    _ = ∑ d, ∑ j, x j * (p.weightsDet d * p.weightsAngles a d * p.toUncorrected.bpAngle (fun u => y (d, u)) a j *
          p.attVolAngles a d j) := by
          refine sum_congr rfl fun d _ => ?_
          rw [h, mul_sum]; exact sum_congr rfl fun u _ => by ring
    _ = _ := by rw [sum_comm]; exact sum_congr rfl fun j _ => by rw [mul_sum]

/-- C31: the symmetric attenuated projector. -/
theorem C31_xrf (p : Xrf nA nD V U) (hb : p.backend.Adjoint) (hpsf : p.psf = none) (hs : p.isSymmetric = true) :
    IsAdjoint p.fp p.bp := by
  intro x y
  have h := fun a => C31_xrf_angle p hb hpsf hs a x fun q => y (q.1, a, q.2)
  simp only [dot, Xrf.fp, Xrf.bp, Xrf.stack, hs, if_true] at h ⊢
  calc _ = ∑ a, ∑ q : Fin nD × U, p.fpAngle x a q * y (q.1, a, q.2) := by
          rw [Fintype.sum_prod_type]
          simp only [Fintype.sum_prod_type]
          exact sum_comm
    _ = ∑ a, ∑ j, x j * p.bpAngle (fun q => y (q.1, a, q.2)) a j := sum_congr rfl fun a _ => h a
    _ = _ := by rw [sum_comm]; exact sum_congr rfl fun j _ => by rw [mul_sum]

/-- Two angles, two detectors, a 2-voxel volume, with attenuation and weights: C31 applies. -/
example : ∃ p : Xrf 2 2 (Fin 2) (Fin 2), p.backend.Adjoint ∧ p.psf = none ∧ p.isSymmetric = true ∧
    p.attVolAngles 0 0 1 = 1 / 2 ∧ p.weightsDet 1 = 3 ∧ p.fp (fun _ => 1) (1, 0, 1) ≠ 0 := by
  refine ⟨{ backend := ⟨fun v a u => if a = 0 then v u else v (1 - u), fun s a j => if a = 0 then s j else s (1 - j)⟩
            intensities := some fun _ => 2
            psf := none
            attVolAngles := fun _ _ j => if j = 1 then 1 / 2 else 1
            weightsDet := fun d => if d = 1 then 3 else 1
            weightsAngles := fun _ _ => 1
            isSymmetric := true }, ?_, rfl, rfl, ?_, ?_, ?_⟩
  · intro a x y
    fin_cases a <;> simp [dot, Fin.sum_univ_two] ; ring
  · simp
  · simp
  · simp [Xrf.fp, Xrf.stack, Xrf.fpAngle, Uncorrected.fpAngle, Uncorrected.scale]

/-- C75: the projection of all angles is made of the single-angle projections, and the back-projection is their sum
(uncorrected projector, and symmetric attenuated projector). -/
theorem C75_uncorrected (p : Uncorrected nA V U) (vol : Arr V) (prj : Arr (Fin nA × U)) :
    (∀ a u, p.fp vol (a, u) = p.fpAngle vol a u) ∧ (∀ j, p.bp prj j = ∑ a, p.bpAngle (fun u => prj (a, u)) a j) := by
  constructor
  · intro a u
    simp only [Uncorrected.fp, Uncorrected.fpAngle, Backend.fpAll]
    cases p.psf <;> rfl
  · intro j; rfl

/-- C75 for the attenuated projector. -/
theorem C75_xrf (p : Xrf nA nD V U) (hs : p.isSymmetric = true) (vol : Arr V) (sino : Arr (Fin nD × Fin nA × U)) :
    (∀ d a u, p.fp vol (d, a, u) = p.fpAngle vol a (d, u)) ∧
    (∀ j, p.bp sino j = ∑ a, p.bpAngle (fun q => sino (q.1, a, q.2)) a j) := by
  refine ⟨fun _ _ _ => rfl, fun j => ?_⟩
  simp only [Xrf.bp, hs, if_true]

/-- C76 is violated: without `is_symmetric`, the detector weights enter the single-angle back-projection but not the one of
all angles. -/
theorem C76_bp_weights_violated : ∃ (p : Xrf 1 1 (Fin 1) (Fin 1)) (sino : Arr (Fin 1 × Fin 1 × Fin 1)),
    p.isSymmetric = false ∧ p.bp sino 0 ≠ ∑ a, p.bpAngle (fun q => sino (q.1, a, q.2)) a 0 := by
  refine ⟨{ backend := ⟨fun v _ => v, fun s _ => s⟩, intensities := none, psf := none, attVolAngles := fun _ _ _ => 1,
            weightsDet := fun _ => 2, weightsAngles := fun _ _ => 1, isSymmetric := false }, fun _ => 1, rfl, ?_⟩
  simp [Xrf.bp, Xrf.bpAngle, Uncorrected.bp, Uncorrected.bpAngle, Uncorrected.scale, Backend.bpAll]

/-- C76, what holds: with all weights 1 the two agree. Missing: other weights. -/
theorem C76_bp_weights_partial (p : Xrf nA nD V U) (hs : p.isSymmetric = false)
    (hw : ∀ a d, p.weightsDet d * p.weightsAngles a d = 1) (sino : Arr (Fin nD × Fin nA × U)) (j : V) :
    p.bp sino j = ∑ a, p.bpAngle (fun q => sino (q.1, a, q.2)) a j := by
  simp only [Xrf.bp, Xrf.bpAngle, hs, hw, Uncorrected.bp, Uncorrected.bpAngle, Backend.bpAll]
  simp only [Bool.false_eq_true, if_false, one_mul, mul_one]
  exact sum_comm

/-- C77 is violated: with a point spread function the back-projection is not the adjoint of the forward projection. -/
theorem C77_psf_violated : ∃ p : Uncorrected 1 (Fin 1) (Fin 1), p.backend.Adjoint ∧
    (∀ f, p.psf = some f → IsAdjoint f f) ∧ ¬ IsAdjoint p.fp p.bp := by
  refine ⟨{ backend := ⟨fun v _ => v, fun s _ => s⟩, intensities := none, psf := some fun s u => 2 * s u }, fun a x y => rfl,
    ?_, ?_⟩
  · rintro f ⟨⟩ x y; simp [dot]; ring
  · intro h
    have := h (fun _ => 1) (fun _ => 1)
    simp [dot, Uncorrected.fp, Uncorrected.bp, Uncorrected.scale, Backend.fpAll, Backend.bpAll] at this

/-- C77, what holds with a point spread function: the back-projection is the adjoint of the projection before blurring.
Missing: the transpose of the blur. -/
theorem C77_psf_partial (p : Uncorrected nA V U) (hb : p.backend.Adjoint) :
    IsAdjoint ({ p with psf := none } : Uncorrected nA V U).fp p.bp :=
  C31_uncorrected { p with psf := none } hb rfl

/-- C78 is violated: after `collapse_detectors` the forward projection of a 2 × 1 volume sees only its first row: two volumes
that differ in the second row give the same slice although their projections through the collapsed maps differ. -/
theorem C78_collapse_violated : ∃ (p : Xrf 1 2 (Fin 2 × Fin 1) (Fin 1)) (x y : Arr (Fin 2 × Fin 1)),
    p.collapsedSlice x 0 = p.collapsedSlice y 0 ∧ p.collapse.fp x ≠ p.collapse.fp y := by
  refine ⟨{ backend := ⟨fun v _ _ => v (0, 0) + v (1, 0), fun s _ _ => s 0⟩, intensities := none, psf := none,
            attVolAngles := fun _ _ _ => 1, weightsDet := fun _ => 1, weightsAngles := fun _ _ => 1, isSymmetric := true },
    fun _ => 1, fun p => if p.1 = 0 then 1 else 2, ?_, ?_⟩
  · funext c; simp [Xrf.collapsedSlice]
  · intro h
    have := congrFun h (0, 0, 0)
    simp [Xrf.fp, Xrf.stack, Xrf.fpAngle, Xrf.collapse, Uncorrected.fpAngle, Uncorrected.scale] at this

/-- C78, the slice that is projected after `collapse_detectors`: the first row of the volume, each pixel weighted with the mean of the detectors' attenuations
(`W` is the total weight). Missing: the other rows. -/
theorem C78_collapse_first_row_partial {r : ℕ} {C : Type} (p : Xrf nA nD (Fin (r + 1) × C) U) (vol : Arr (Fin (r + 1) × C)) (a : Fin nA) (c : C) (W : ℝ)
    (hW : W = ∑ d, p.weightsDet d) (hW0 : W ≠ 0) :
    W * p.collapsedSlice vol a c = ∑ d, p.weightsDet d * (p.attVolAngles a d (0, c) * vol (0, c)) := by
  simp only [Xrf.collapsedSlice, Xrf.collapse, ← hW]
  rw [mul_sum, mul_sum]
  refine sum_congr rfl fun d _ => ?_
  field_simp

/-- C78, what holds of the numbers it computes: if all angle weights are 1 and the backend is linear, projecting through the
collapsed maps gives the sum over the detectors of the original projections (the total detector weight is not zero).
Missing: the detector axis that the code drops. -/
theorem C78_collapse_partial (p : Xrf nA nD V U) (hlin : ∀ a, IsLinear fun vol => p.backend.fp vol a) (hpsf : p.psf = none)
    (hwa : ∀ a d, p.weightsAngles a d = 1) (hw : ∑ d, p.weightsDet d ≠ 0) (vol : Arr V) (a : Fin nA) (u : U) :
    p.collapse.fp vol (0, a, u) = ∑ d, p.fp vol (d, a, u) := by
  have hsum : ∀ (s : Finset (Fin nD)) (f : Fin nD → Arr V),
      p.backend.fp (fun j => ∑ d ∈ s, f d j) a u = ∑ d ∈ s, p.backend.fp (f d) a u := by
    intro s f
    induction s using Finset.induction_on with
    | empty =>
      have := congrFun (hlin a 0 0 (fun _ => 0) (fun _ => 0)) u
      simpa using this
    | insert d s hd ih =>
      simp only [sum_insert hd]
      have := congrFun (hlin a 1 1 (f d) (fun j => ∑ d ∈ s, f d j)) u
      simp only [one_mul] at this
      rw [this, ih]
  have hscal : ∀ (c : ℝ) (f : Arr V), p.backend.fp (fun j => c * f j) a u = c * p.backend.fp f a u := by
    intro c f
    have := congrFun (hlin a c 0 f (fun _ => 0)) u
    simpa using this
  have hone : ∑ d, (1 : ℝ) * (p.weightsDet d / ∑ d', p.weightsDet d') = 1 := by
    simp only [one_mul]; rw [← sum_div]; exact div_self hw
  set W := ∑ d', p.weightsDet d' with hW
  have key : p.backend.fp (fun j => vol j * ∑ d, p.attVolAngles a d j * (p.weightsDet d / W)) a u =
      ∑ d, (p.weightsDet d / W) * p.backend.fp (fun j => vol j * p.attVolAngles a d j) a u := by
    have e : (fun j => vol j * ∑ d, p.attVolAngles a d j * (p.weightsDet d / W)) =
        fun j => ∑ d, (p.weightsDet d / W) * (vol j * p.attVolAngles a d j) := by
      funext j; rw [mul_sum]; exact sum_congr rfl fun d _ => by ring
    rw [e, hsum univ fun d j => (p.weightsDet d / W) * (vol j * p.attVolAngles a d j)]
    exact sum_congr rfl fun d _ => hscal _ _
  have hsc : ∀ v : Arr U, p.toUncorrected.scale a v u = v u * (p.intensities.elim 1 fun i => i a) := by
    intro v; unfold Uncorrected.scale; cases p.intensities <;> simp
  have hsc' : ∀ v : Arr U, p.collapse.toUncorrected.scale a v u = v u * (p.intensities.elim 1 fun i => i a) := hsc
  have e1 : p.collapse.fp vol (0, a, u) = W * (∑ d, (1 : ℝ) * (p.weightsDet d / W)) *
      p.collapse.toUncorrected.scale a (p.backend.fp (fun j => vol j * ∑ d, p.attVolAngles a d j * (p.weightsDet d / W)) a) u := by
    simp only [Xrf.fp, Xrf.stack, Xrf.fpAngle, Uncorrected.fpAngle, Xrf.collapse, hpsf, hwa, ← hW]
  rw [e1, hone, hsc', key, mul_one]
  simp only [Xrf.fp, Xrf.stack, Xrf.fpAngle, Uncorrected.fpAngle, hpsf, hwa, hsc, mul_one]
  generalize (p.intensities.elim 1 fun i => i a) = c
  rw [mul_comm W, sum_mul, sum_mul]
  refine sum_congr rfl fun d _ => ?_
  field_simp

end proj

/-! ## Shapes -/

/-- C79 is violated: for one angle and one detector, `bp` cannot read what `fp` returned. -/
theorem C79_shapes_violated (u : ℕ) (hu : u ≠ 1) : xrfFpShape 1 1 [u] = [u] ∧ angleSliceShape (xrfFpShape 1 1 [u]) = none := by
  simp [xrfFpShape, angleSliceShape]

/-- C79, what holds: with at least two angles (2D, lines of `u` pixels), the shape is `(angles, u)` for one detector and
`(detectors, angles, u)` for several, and `bp` slices lines of shape `(u,)` or `(detectors, u)` out of it. Missing: one angle. -/
theorem C79_shapes_partial (nA nD u : ℕ) (hA : 2 ≤ nA) :
    xrfFpShape nA nD [u] = (if nD = 1 then [nA, u] else [nD, nA, u]) ∧
    angleSliceShape (xrfFpShape nA nD [u]) = some (if nD = 1 then [u] else [nD, u]) := by
  have h1 : nA ≠ 1 := by omega
  by_cases h : nD = 1 <;> simp [xrfFpShape, angleSliceShape, h, h1]

/-! ## C32: threads -/

section pool
variable {R : Type} {n : ℕ}

/-- Invariant of the pool. -/
private def PoolInv (task : Fin n → R) (p : Pool R n) : Prop := ∀ i r, p.done i = some r → r = task i

private theorem pool_inv (workers : ℕ) (task : Fin n → R) (p : Pool R n)
    (h : Relation.ReflTransGen (Pool.Step workers task) .init p) : PoolInv task p := by
  induction h with
  | refl => intro i r h; simp [Pool.init] at h
  | tail _ hs ih =>
    cases hs with
    | start _ _ => exact ih
    | finish i hi =>
      intro k r hk
      dsimp only at hk
      by_cases h : k = i
      · subst h; rw [Function.update_self] at hk; injection hk with hk; exact hk.symm
      · rw [Function.update_of_ne h] at hk; exact ih k r hk

/-- C32: whatever the number of workers and the order in which the tasks finish, when the pool has all the results they are
those of the serial computation. -/
theorem C32_pool_results (workers : ℕ) (task : Fin n → R) (p : Pool R n)
    (h : Relation.ReflTransGen (Pool.Step workers task) .init p) (res : Fin n → R) (hres : p.results = some res) :
    res = task := by
  unfold Pool.results at hres
  split at hres
  · rename_i hall
    injection hres with hres
    subst hres
    funext i
    exact pool_inv workers task p h i _ (Option.some_get (hall i)).symm
  · cases hres

private theorem pool_reach (workers : ℕ) (hw : 0 < workers) (task : Fin n → R) : ∀ m ≤ n, ∃ p : Pool R n,
    Relation.ReflTransGen (Pool.Step workers task) .init p ∧ p.next = m ∧ p.running = [] ∧
    ∀ i : Fin n, (i : ℕ) < m → (p.done i).isSome := by
  intro m
  induction m with
  | zero => intro _; exact ⟨_, .refl, rfl, rfl, fun i h => by omega⟩
  | succ m ih =>
    intro hm
    obtain ⟨p, hp, h1, h2, h3⟩ := ih (by omega)
    have s1 := Pool.Step.start (workers := workers) (task := task) p (by omega) (by rw [h2]; exact hw)
    have s2 := Pool.Step.finish (workers := workers) (task := task)
      { p with next := p.next + 1, running := ⟨p.next, by omega⟩ :: p.running } ⟨p.next, by omega⟩
      (show _ ∈ _ :: _ from List.mem_cons_self ..)
    refine ⟨_, (hp.tail s1).tail s2, by simp [h1], by simp [h2], ?_⟩
    intro i hi
    dsimp only
    by_cases h : i = ⟨p.next, by omega⟩
    · rw [h, Function.update_self]; rfl
    · rw [Function.update_of_ne h]
      exact h3 i (by have : (i : ℕ) ≠ p.next := fun e => h (Fin.ext e); omega)

/-- C32 is about executions that exist: with at least one worker, a pool can get through all its tasks. -/
theorem C32_pool_completes (workers : ℕ) (hw : 0 < workers) (task : Fin n → R) : ∃ p : Pool R n,
    Relation.ReflTransGen (Pool.Step workers task) .init p ∧ p.results = some task := by
  obtain ⟨p, hp, _, _, h⟩ := pool_reach workers hw task n le_rfl
  have hall : ∀ i, (p.done i).isSome := fun i => h i i.2
  refine ⟨p, hp, ?_⟩
  have : p.results = some fun i => (p.done i).get (hall i) := by unfold Pool.results; rw [dif_pos hall]
  rw [this, C32_pool_results workers task p hp _ this]

/-- C32: the projection through the thread pool is the serial one (any number of workers, any order). -/
theorem C32_projection {V U : Type} [Fintype V] [Fintype U] {nA nD : ℕ} (p : Xrf nA nD V U) (vol : Arr V) (workers : ℕ)
    (q : Pool (Arr (Fin nD × U)) nA) (h : Relation.ReflTransGen (Pool.Step workers (p.fpAngle vol)) .init q)
    (lines : Fin nA → Arr (Fin nD × U)) (hl : q.results = some lines) : Xrf.stack lines = p.fp vol := by
  rw [C32_pool_results workers _ q h lines hl]; rfl

/-- C32: the back-projection through the thread pool is the serial one. -/
theorem C32_backprojection {V U : Type} [Fintype V] [Fintype U] {nA nD : ℕ} (p : Xrf nA nD V U) (hs : p.isSymmetric = true)
    (sino : Arr (Fin nD × Fin nA × U)) (workers : ℕ) (q : Pool (Arr V) nA)
    (h : Relation.ReflTransGen (Pool.Step workers fun a => p.bpAngle (fun q => sino (q.1, a, q.2)) a) .init q)
    (vols : Fin nA → Arr V) (hv : q.results = some vols) : (fun j => ∑ a, vols a j) = p.bp sino := by
  rw [C32_pool_results workers _ q h vols hv]
  simp only [Xrf.bp, hs, if_true]

private theorem asCompleted_eq {K : Type} (result : Fin n → Arr K) (order : List (Fin n)) (hn : order.Nodup) :
    ∀ (maps : Fin n → Arr K) (i : Fin n), asCompleted result order maps i =
      if i ∈ order then (fun q => maps i q * result i q) else maps i := by
  induction order with
  | nil => intros; simp [asCompleted]
  | cons k order ih =>
    intro maps i
    have hk := List.nodup_cons.1 hn
    rw [asCompleted, ih hk.2]
    by_cases h : i = k
    · subst h; simp [hk.1]
    · simp [h, Function.update_of_ne h]

/-- C32: the attenuation maps do not depend on the order in which the angles complete: for every completion order containing
each angle once, every map is multiplied by the result of its angle. -/
theorem C32_maps {K : Type} (result : Fin n → Arr K) (order : List (Fin n)) (hn : order.Nodup) (hall : ∀ i, i ∈ order)
    (maps : Fin n → Arr K) : asCompleted result order maps = fun i q => maps i q * result i q := by
  funext i
  rw [asCompleted_eq result order hn, if_pos (hall i)]

end pool

/-! ## C33: attenuation maps -/

section att
variable {P : Type} {H : ℕ} {C : Type} [Fintype C]

/-- Assumption on `skimage.transform.rotate` with bilinear interpolation: every output pixel is a non-negative combination of
the input pixels. -/
def IsInterpolation {Q : Type} [Fintype Q] (rot : Arr Q → Arr Q) : Prop :=
  ∃ w : Q → Q → ℝ, (∀ q r, 0 ≤ w q r) ∧ ∀ x q, rot x q = ∑ r, w q r * x r

private theorem interp_mono {Q : Type} [Fintype Q] {rot : Arr Q → Arr Q} (h : IsInterpolation rot) {x y : Arr Q}
    (hxy : ∀ q, x q ≤ y q) : ∀ q, rot x q ≤ rot y q := by
  obtain ⟨w, hw, e⟩ := h
  intro q; rw [e, e]
  exact sum_le_sum fun r _ => mul_le_mul_of_nonneg_left (hxy r) (hw q r)

private theorem interp_add {Q : Type} [Fintype Q] {rot : Arr Q → Arr Q} (h : IsInterpolation rot) (x y : Arr Q) :
    rot (fun q => x q + y q) = fun q => rot x q + rot y q := by
  obtain ⟨w, hw, e⟩ := h
  funext q; rw [e, e, e, ← sum_add_distrib]
  exact sum_congr rfl fun r _ => by ring

private theorem interp_zero {Q : Type} [Fintype Q] {rot : Arr Q → Arr Q} (h : IsInterpolation rot) :
    rot (fun _ => 0) = fun _ => 0 := by
  obtain ⟨w, hw, e⟩ := h
  funext q; rw [e]; simp

omit [Fintype C] in
private theorem cum_mono {x y : Arr (Fin H × C)} (h : ∀ q, x q ≤ y q) : ∀ q, cumAlong x q ≤ cumAlong y q := by
  intro q
  unfold cumAlong
  refine sum_le_sum fun k _ => ?_
  split
  · have h1 := h (k, q.2)
    have h2 := h (⟨if (k : ℕ) = 0 then H - 1 else k - 1, by have := k.2; split <;> omega⟩, q.2)
    linarith
  · rfl

omit [Fintype C] in
private theorem cum_add (x y : Arr (Fin H × C)) : cumAlong (fun q => x q + y q) = fun q => cumAlong x q + cumAlong y q := by
  funext q
  unfold cumAlong
  rw [← sum_add_distrib]
  refine sum_congr rfl fun k _ => ?_
  split <;> ring

omit [Fintype C] in
private theorem cum_zero : cumAlong (fun _ : Fin H × C => 0) = fun _ => 0 := by
  funext q; simp [cumAlong]

private theorem pad_mono {Q : Type} (emb : P → Q) {x y : Arr P} (h : ∀ j, x j ≤ y j) : ∀ q, zeroPad emb x q ≤ zeroPad emb y q := by
  intro q; unfold zeroPad; split
  · exact h _
  · rfl

private theorem pad_add {Q : Type} (emb : P → Q) (x y : Arr P) :
    zeroPad emb (fun j => x j + y j) = fun q => zeroPad emb x q + zeroPad emb y q := by
  funext q; unfold zeroPad; split <;> simp

private theorem pad_zero {Q : Type} (emb : P → Q) : zeroPad emb (fun _ : P => 0) = fun _ => 0 := by
  funext q; unfold zeroPad; split <;> rfl

variable (emb : P → Fin H × C) (rot rotBack : Arr (Fin H × C) → Arr (Fin H × C))

/-- C33: the attenuation is monotone: larger coefficients attenuate more, at every pixel. -/
theorem C33_monotone (h1 : IsInterpolation rot) (h2 : IsInterpolation rotBack) (x y : Arr P) (hxy : ∀ j, x j ≤ y j) (j : P) :
    computeAttenuation (zeroPad emb) rot rotBack emb y j ≤ computeAttenuation (zeroPad emb) rot rotBack emb x j := by
  unfold computeAttenuation
  rw [Real.exp_le_exp, neg_le_neg_iff]
  exact interp_mono h2 (cum_mono (interp_mono h1 (pad_mono emb hxy))) _

/-- C33: with no attenuation the factor is 1. -/
theorem C33_vacuum (h1 : IsInterpolation rot) (h2 : IsInterpolation rotBack) (j : P) :
    computeAttenuation (zeroPad emb) rot rotBack emb (fun _ => 0) j = 1 := by
  unfold computeAttenuation
  rw [pad_zero, interp_zero h1, cum_zero, interp_zero h2]; simp

/-- C33: for non-negative coefficients the factors lie in `(0, 1]`, for every volume, angle and rotation. -/
theorem C33_range (h1 : IsInterpolation rot) (h2 : IsInterpolation rotBack) (x : Arr P) (hx : ∀ j, 0 ≤ x j) (j : P) :
    0 < computeAttenuation (zeroPad emb) rot rotBack emb x j ∧ computeAttenuation (zeroPad emb) rot rotBack emb x j ≤ 1 := by
  refine ⟨Real.exp_pos _, ?_⟩
  rw [← C33_vacuum emb rot rotBack h1 h2 j]
  exact C33_monotone emb rot rotBack h1 h2 _ _ hx j

/-- C33: the attenuation of the sum of two materials is the product of their attenuations. -/
theorem C33_product (h1 : IsInterpolation rot) (h2 : IsInterpolation rotBack) (x y : Arr P) (j : P) :
    computeAttenuation (zeroPad emb) rot rotBack emb (fun k => x k + y k) j =
      computeAttenuation (zeroPad emb) rot rotBack emb x j * computeAttenuation (zeroPad emb) rot rotBack emb y j := by
  unfold computeAttenuation
  rw [pad_add, interp_add h1, cum_add, interp_add h2, ← Real.exp_add]
  congr 1; ring

omit [Fintype C] in
private theorem cum_eq (v : Arr (Fin H × C)) (p : Fin H × C) (hlast : ∀ k : Fin H, (k : ℕ) = H - 1 → v (k, p.2) = 0) :
    cumAlong v p = (∑ k : Fin H, if k < p.1 then v (k, p.2) else 0) + v p / 2 := by
  obtain ⟨i, c⟩ := p
  have hH : 0 < H := i.pos
  obtain ⟨H, rfl⟩ := Nat.exists_eq_succ_of_ne_zero hH.ne'
  have key : ∀ m (hm : m < H + 1), (∑ k : Fin (H + 1), if (k : ℕ) ≤ m then
      (v (k, c) + v (⟨if (k : ℕ) = 0 then H + 1 - 1 else k - 1, by have := k.2; split <;> omega⟩, c)) / 2 else 0) =
      (∑ k : Fin (H + 1), if (k : ℕ) < m then v (k, c) else 0) + v (⟨m, hm⟩, c) / 2 := by
    intro m
    induction m with
    | zero =>
      intro hm
      rw [sum_eq_single (⟨0, by omega⟩ : Fin (H + 1))]
      · rw [if_pos (by simp), sum_eq_zero (fun k _ => by simp)]
        simp only [if_true]
        rw [hlast ⟨H + 1 - 1, by omega⟩ rfl]; ring
      · intro k _ hk
        have : (k : ℕ) ≠ 0 := fun h => hk (Fin.ext h)
        rw [if_neg (by omega)]
      · intro h; exact absurd (mem_univ _) h
    | succ m ih =>
      intro hm
      have split1 : ∀ f : Fin (H + 1) → ℝ, (∑ k : Fin (H + 1), if (k : ℕ) ≤ m + 1 then f k else 0) =
          (∑ k : Fin (H + 1), if (k : ℕ) ≤ m then f k else 0) + f ⟨m + 1, hm⟩ := by
        intro f
        rw [← Finset.sum_ite_eq' univ (⟨m + 1, hm⟩ : Fin (H + 1)) f |>.trans (if_pos (mem_univ _)), ← sum_add_distrib]
        refine sum_congr rfl fun k _ => ?_
        by_cases h : k = ⟨m + 1, hm⟩
        · subst h; simp
        · have : (k : ℕ) ≠ m + 1 := fun e => h (Fin.ext e)
          rw [if_neg h, add_zero]
          by_cases h2 : (k : ℕ) ≤ m
          · rw [if_pos h2, if_pos (by omega)]
          · rw [if_neg h2, if_neg (by omega)]
      have split2 : (∑ k : Fin (H + 1), if (k : ℕ) < m + 1 then v (k, c) else 0) =
          (∑ k : Fin (H + 1), if (k : ℕ) < m then v (k, c) else 0) + v (⟨m, by omega⟩, c) := by
        have e : v (⟨m, by omega⟩, c) = ∑ k : Fin (H + 1), if k = ⟨m, by omega⟩ then v (k, c) else 0 := by
          rw [Finset.sum_ite_eq' univ, if_pos (mem_univ _)]
        rw [e, ← sum_add_distrib]
        refine sum_congr rfl fun k _ => ?_
        by_cases h : k = ⟨m, by omega⟩
        · subst h; simp
        · have : (k : ℕ) ≠ m := fun e => h (Fin.ext e)
          rw [if_neg h, add_zero]
          by_cases h2 : (k : ℕ) < m
          · rw [if_pos h2, if_pos (by omega)]
          · rw [if_neg h2, if_neg (by omega)]
      rw [split1, ih (by omega), split2]
      simp only [Nat.add_eq_zero_iff, one_ne_zero, and_false, if_false, Nat.add_sub_cancel]
      ring
  have := key i i.2
  simp only [← Fin.le_def, ← Fin.lt_def] at this ⊢
  unfold cumAlong
  convert this using 2

/-- C33, Beer–Lambert along an axis (no rotation): the factor at a pixel is `exp` of minus the sum of the coefficients of
the pixels before it on its line plus half its own (the padding makes the last row of the padded slice zero). -/
theorem C33_beer_lambert (hemb : Function.Injective emb) (hpad : ∀ j, ((emb j).1 : ℕ) ≠ H - 1) [Fintype P] (x : Arr P) (j : P) :
    computeAttenuation (zeroPad emb) id id emb x j =
      Real.exp (-((∑ k : P, if (emb k).1 < (emb j).1 ∧ (emb k).2 = (emb j).2 then x k else 0) + x j / 2)) := by
  have hz : ∀ k, zeroPad emb x (emb k) = x k := by
    intro k
    have h : ∃ j, emb j = emb k := ⟨k, rfl⟩
    unfold zeroPad
    rw [dif_pos h]
    exact congrArg x (hemb h.choose_spec)
  unfold computeAttenuation
  simp only [id]
  rw [cum_eq, hz]
  · congr 3
    rw [← Finset.sum_filter, ← Finset.sum_filter]
    symm
    refine Finset.sum_bij_ne_zero (fun k _ _ => (emb k).1) ?_ ?_ ?_ ?_
    · intro k hk _; simp only [mem_filter, mem_univ, true_and] at hk ⊢; exact hk.1
    · intro k hk _ k' hk' _ h
      simp only [mem_filter, mem_univ, true_and] at hk hk'
      exact hemb (Prod.ext h (hk.2.trans hk'.2.symm))
    · intro i hi hne
      simp only [mem_filter, mem_univ, true_and] at hi
      have hex : ∃ k, emb k = (i, (emb j).2) := by
        by_contra h
        exact hne (by unfold zeroPad; rw [dif_neg h])
      obtain ⟨k, hk⟩ := hex
      refine ⟨k, ?_, ?_, by rw [hk]⟩
      · simp only [mem_filter, mem_univ, true_and, hk]; exact ⟨hi, trivial⟩
      · rw [← hz k, hk]; exact hne
    · intro k hk _
      simp only [mem_filter, mem_univ, true_and] at hk
      have : ((emb k).1, (emb j).2) = emb k := Prod.ext rfl hk.2.symm
      rw [this, hz]
  · intro k hk
    unfold zeroPad
    rw [dif_neg]
    rintro ⟨k', hk'⟩
    exact hpad k' (by rw [hk']; exact hk)

/-- C33: the maps of the angles and detectors lie in `(0, 1]`: product of the incident factor and of the mean over the
sub-angles of the emitted ones. -/
theorem C33_map_range {nSub : ℕ} (hn : 0 < nSub) (incident : Option (Arr P)) (emitted : Option (Fin nSub → Arr P))
    (hi : ∀ m, incident = some m → ∀ j, 0 < m j ∧ m j ≤ 1) (he : ∀ ms, emitted = some ms → ∀ s j, 0 < ms s j ∧ ms s j ≤ 1)
    (j : P) : 0 < attMap incident emitted j ∧ attMap incident emitted j ≤ 1 := by
  have h1 : 0 < (incident.elim 1 fun m => m j) ∧ (incident.elim 1 fun m => m j) ≤ 1 := by
    cases incident with
    | none => simp
    | some m => exact hi m rfl j
  have h2 : 0 < (emitted.elim 1 fun ms => (∑ s, ms s j) / nSub) ∧ (emitted.elim 1 fun ms => (∑ s, ms s j) / nSub) ≤ 1 := by
    cases emitted with
    | none => simp
    | some ms =>
      have hn' : (0 : ℝ) < nSub := by exact_mod_cast hn
      haveI : Nonempty (Fin nSub) := ⟨⟨0, hn⟩⟩
      refine ⟨div_pos (sum_pos (fun s _ => (he ms rfl s j).1) univ_nonempty) hn', ?_⟩
      rw [Option.elim, div_le_one hn']
      calc ∑ s, ms s j ≤ ∑ _s : Fin nSub, (1 : ℝ) := sum_le_sum fun s _ => (he ms rfl s j).2
        _ = nSub := by simp
  exact ⟨mul_pos h1.1 h2.1, mul_le_one₀ h1.2 h2.1.le h2.2⟩

end att

/-- C33: the padding is at least one pixel on every side of every non-empty slice, and cropping gives back the original
size: the maps have the shape of the volume. -/
theorem C33_shape (r c : ℕ) (hr : 0 < r) (hc : 0 < c) :
    1 ≤ attEdge r c r ∧ 1 ≤ attEdge r c c ∧ sliceSize (r + 2 * attEdge r c r) (attEdge r c r) = r ∧
      sliceSize (c + 2 * attEdge r c c) (attEdge r c c) = c := by
  have key : ∀ s t : ℕ, 0 < t → (s : ℝ) ^ 2 + (t : ℝ) ^ 2 = (r : ℝ) ^ 2 + (c : ℝ) ^ 2 →
      1 ≤ attEdge r c s ∧ sliceSize (s + 2 * attEdge r c s) (attEdge r c s) = s := by
    intro s t ht he
    have h1 : 1 ≤ attEdge r c s := by
      unfold attEdge
      rw [Int.one_le_ceil_iff, ← he]
      have : (s : ℝ) < Real.sqrt ((s : ℝ) ^ 2 + (t : ℝ) ^ 2) := by
        apply Real.lt_sqrt_of_sq_lt
        have : (0 : ℝ) < t := by exact_mod_cast ht
        nlinarith
      have := Int.le_ceil (Real.sqrt ((s : ℝ) ^ 2 + (t : ℝ) ^ 2))
      linarith
    refine ⟨h1, ?_⟩
    unfold sliceSize
    simp only
    rw [if_pos (by omega)]
    omega
  obtain ⟨a, b⟩ := key r c hc rfl
  obtain ⟨d, e⟩ := key c r hr (by ring)
  exact ⟨a, d, b, e⟩

/-- A 2 × 2 slice padded by one pixel, not rotated: the hypotheses of the C33 theorems hold and the factor behind two pixels
of coefficient 1 is `exp (-3/2)`. -/
example : computeAttenuation (H := 4) (C := Fin 4) (zeroPad fun p : Fin 2 × Fin 2 => (p.1.succ.castSucc, p.2.succ.castSucc))
    id id (fun p => (p.1.succ.castSucc, p.2.succ.castSucc)) (fun _ => 1) (1, 0) = Real.exp (-(3 / 2)) := by
  rw [C33_beer_lambert]
  · congr 2
    rw [Fintype.sum_prod_type]
    rw [Fin.sum_univ_two, Fin.sum_univ_two, Fin.sum_univ_two]
    rw [if_pos (by decide), if_neg (by decide), if_neg (by decide), if_neg (by decide)]
    norm_num
  · intro p q h
    simp only [Prod.mk.injEq, Fin.castSucc_inj, Fin.succ_inj] at h
    exact Prod.ext h.1 h.2
  · intro j; simp; omega

end Verif
