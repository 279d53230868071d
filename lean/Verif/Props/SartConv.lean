import Verif.Props.Sart
import Verif.Props.SirtConv

/-! # C252: SART on consistent data -/

namespace Verif
open Classical DataTerm Finset Filter Topology

variable {ν Q : Type} [Fintype ν] {na nu : ℕ}

/-- The volume `x` reproduces the data on every pixel that the mask does not exclude. -/
def ReproducesStack (M : Fin na → Fin nu → ν → ℝ) (b : Fin na × Fin nu → ℝ) (a : Args ν (Fin na × Fin nu)) (x : Arr ν) : Prop :=
  ∀ k u, Trains a (k, u) → ∑ j, M k u j * x j = b (k, u)

/-- What is needed of the projections: no negative weights, row sums at most 10⁵ (see `SensibleScale`), masks within [0, 1] (solution mask 0/1), and every
voxel `j` contributes the same total weight `c j` to all the projections that see it; these weights are within a factor 10⁵ of each other. -/
structure EvenWeights (M : Fin na → Fin nu → ν → ℝ) (a : Args ν (Fin na × Fin nu)) (c : Arr ν) : Prop where
  nonneg : ∀ k u j, 0 ≤ M k u j
  rows : ∀ k u, ∑ j, M k u j ≤ 100000
  bMask : ∀ m, a.bMask = some m → ∀ p, 0 ≤ m p ∧ m p ≤ 1
  noTest : a.bTestMask = none
  xMask : ∀ m, a.xMask = some m → Binary m
  pos : ∀ j, 0 < c j
  spread : ∀ i j, c i ≤ 100000 * c j
  cols : ∀ k j, ∑ u, M k u j * trainWeight a (k, u) = 0 ∨ ∑ u, M k u j * trainWeight a (k, u) = c j

namespace SartConv

variable {M : Fin na → Fin nu → ν → ℝ} {a : Args ν (Fin na × Fin nu)} {c : Arr ν} {b : Fin na × Fin nu → ℝ}

theorem zeroScale (h : EvenWeights M a c) : SensibleScale (fun (_ : Fin na × Fin nu) (_ : ν) => (0 : ℝ)) a :=
  ⟨h.bMask, by rw [h.noTest]; simp, h.xMask, by simp, by simp⟩

theorem weight_eq (h : EvenWeights M a c) (p) : trainWeight a p = (a.bMask.getD fun _ => 1) p := by
  unfold trainWeight
  rw [h.noTest]
  cases a.bMask <;> simp

theorem weight_mem (h : EvenWeights M a c) (p) : 0 ≤ trainWeight a p ∧ trainWeight a p ≤ 1 := by
  rw [weight_eq h]
  cases hm : a.bMask with
  | none => simp
  | some m => exact h.bMask m hm p

theorem trains_of_weight (h : EvenWeights M a c) {p} (hp : trainWeight a p ≠ 0) : Trains a p := by
  rw [weight_eq h] at hp
  refine ⟨fun m hm => ?_, by rw [h.noTest]; simp⟩
  rw [hm] at hp
  exact hp

theorem weight_of_trains (h : EvenWeights M a c) {p} (hp : Trains a p) : trainWeight a p ≠ 0 := by
  rw [weight_eq h]
  cases hm : a.bMask with
  | none => simp
  | some m => exact hp.1 m hm

/-- What the step sizes look like. -/
theorem scaling_even (h : EvenWeights M a c) {ω : ℝ} {sigma tau} (hsc : sartScaling (angleOp M) ω a = .ok (sigma, tau)) :
    ∃ R : Fin na → Fin nu → ℝ, (∀ k u, 0 < R k u) ∧ (∀ k u, ∑ j, M k u j * effXMask a j ≤ R k u) ∧ (∀ k u, sigma (k, u) = 1 / R k u) ∧
      ∀ k j, ∑ u, M k u j * trainWeight a (k, u) = c j → tau (k, j) = ω / c j := by
  unfold sartScaling at hsc
  dsimp only at hsc
  split at hsc
  · cases hsc
  rename_i hne
  push Not at hne
  have hsc' := Except.ok.inj hsc
  obtain ⟨e1, e2⟩ := Prod.mk.inj hsc'
  have hmx : ∀ j, applyMask a.xMask (fun _ => (1 : ℝ)) j = effXMask a j := by
    intro j
    unfold applyMask effXMask
    cases a.xMask <;> simp
  have hmb : ∀ p, applyMask a.bMask (fun _ => (1 : ℝ)) p = trainWeight a p := by
    intro p
    rw [weight_eq h]
    unfold applyMask
    cases a.bMask <;> simp
  have hx1 : ∀ j, 0 ≤ effXMask a j ∧ effXMask a j ≤ 1 := fun j => by
    rcases effXMask_binary (zeroScale h) j with e | e <;> rw [e] <;> norm_num
  have hsum0 : ∀ k u, 0 ≤ ∑ j, M k u j * effXMask a j := fun k u => sum_nonneg fun j _ => mul_nonneg (h.nonneg k u j) (hx1 j).1
  set s0 : Arr (Fin na × Fin nu) := fun p => |(angleOp M).fwd p.1 (applyMask a.xMask fun _ => 1) p.2| with hs0
  set t0 : Arr (Fin na × ν) := fun p => |(angleOp M).adj p.1 (fun u => applyMask a.bMask (fun _ => 1) (p.1, u)) p.2| with ht0
  have hs0e : ∀ k u, s0 (k, u) = ∑ j, M k u j * effXMask a j := by
    intro k u
    simp only [hs0, angleOp, hmx]
    exact abs_of_nonneg (hsum0 k u)
  have ht0e : ∀ k j, t0 (k, j) = ∑ u, M k u j * trainWeight a (k, u) := by
    intro k j
    simp only [ht0, angleOp, hmb]
    exact abs_of_nonneg (sum_nonneg fun u _ => mul_nonneg (h.nonneg k u j) (weight_mem h _).1)
  have hs0n : ∀ p, 0 ≤ s0 p := fun p => abs_nonneg _
  have ht0n : ∀ p, 0 ≤ t0 p := fun p => abs_nonneg _
  refine ⟨fun k u => fixSmall s0 (k, u), fun k u => fixSmall_pos hs0n hne.2 _, fun k u => ?_, fun k u => by rw [← e1], fun k j hj => ?_⟩
  · rw [← hs0e]
    refine le_fixSmall hs0n hne.2 (fun p => ?_) _
    obtain ⟨k', u'⟩ := p
    rw [hs0e]
    refine le_trans (sum_le_sum fun j _ => ?_) (h.rows k' u')
    exact mul_le_of_le_one_right (h.nonneg k' u' j) (hx1 j).2
  · rw [← e2]
    dsimp only
    congr 1
    unfold fixSmall
    rw [ht0e, hj]
    refine if_neg ?_
    push Not
    have hpos : 0 < npMax t0 := lt_of_le_of_ne (npMax_nonneg ht0n) (Ne.symm hne.1)
    rw [le_div_iff₀ hpos]
    have : npMax t0 ≤ 100000 * c j := by
      refine npMax_le (mul_nonneg (by norm_num) (h.pos j).le) fun p => ?_
      obtain ⟨k', j'⟩ := p
      rw [ht0e]
      rcases h.cols k' j' with e | e <;> rw [e]
      · exact mul_nonneg (by norm_num) (h.pos j).le
      · exact h.spread j' j
    linarith

/-- Misfit of the projection `k` with the weights of the method. -/
noncomputable def blockMisfit (M : Fin na → Fin nu → ν → ℝ) (b : Fin na × Fin nu → ℝ) (a : Args ν (Fin na × Fin nu)) (R : Fin na → Fin nu → ℝ) (k : Fin na)
    (x : Arr ν) : ℝ := ∑ u, trainWeight a (k, u) / R k u * (∑ j, M k u j * x j - b (k, u)) ^ 2

theorem row_eq (h : EvenWeights M a c) {ω : ℝ} {sigma tau} {R : Fin na → Fin nu → ℝ} (hs : ∀ k u, sigma (k, u) = 1 / R k u)
    (ht : ∀ k j, ∑ u, M k u j * trainWeight a (k, u) = c j → tau (k, j) = ω / c j) (x : Arr ν) (k : Fin na) :
    sartRow (angleOp M) b a sigma tau x k = clipMask a fun j => x j - ω / c j *
      ∑ u, M k u j * (trainWeight a (k, u) / R k u * (∑ j, M k u j * x j - b (k, u))) := by
  unfold sartRow
  refine congrArg (clipMask a) (funext fun j => ?_)
  dsimp only [angleOp]
  congr 1
  have e : ∀ g : ℝ, (∑ u, M k u j * (trainWeight a (k, u) / R k u * (∑ j, M k u j * x j - b (k, u)))) * tau (k, j) = g →
      (∑ u, M k u j * ((match a.bMask with
        | some m => (∑ j, M k u j * x j - b (k, u)) * m (k, u)
        | none => ∑ j, M k u j * x j - b (k, u)) * sigma (k, u))) * tau (k, j) = g := by
    rintro g rfl
    congr 1
    refine sum_congr rfl fun u _ => ?_
    rw [weight_eq h, hs]
    cases a.bMask <;> simp only [Option.getD_none, Option.getD_some] <;> ring
  refine e _ ?_
  rcases h.cols k j with e0 | e0
  · have hz : ∑ u, M k u j * (trainWeight a (k, u) / R k u * (∑ j, M k u j * x j - b (k, u))) = 0 := by
      have := (sum_eq_zero_iff_of_nonneg fun u _ => mul_nonneg (h.nonneg k u j) (weight_mem h _).1).1 e0
      refine sum_eq_zero fun u hu => ?_
      have h1 := this u hu
      calc M k u j * (trainWeight a (k, u) / R k u * (∑ j, M k u j * x j - b (k, u))) =
          M k u j * trainWeight a (k, u) * ((∑ j, M k u j * x j - b (k, u)) / R k u) := by ring
        _ = 0 := by rw [h1, zero_mul]
    rw [hz, mul_zero, zero_mul]
  · rw [ht k j e0, mul_comm]

/-- The convergence condition of one projection. -/
theorem block_pc (h : EvenWeights M a c) {R : Fin na → Fin nu → ℝ} (hR : ∀ k u, 0 < R k u) (hR2 : ∀ k u, ∑ j, M k u j * effXMask a j ≤ R k u) (k : Fin na)
    (d : Arr ν) (hd : ∀ j, effXMask a j = 0 → d j = 0) :
    ∑ u, trainWeight a (k, u) / R k u * (∑ j, M k u j * d j) ^ 2 ≤ ∑ j, c j * d j ^ 2 := by
  have h1 : ∀ u, trainWeight a (k, u) / R k u * (∑ j, M k u j * d j) ^ 2 ≤ ∑ j, M k u j * trainWeight a (k, u) * d j ^ 2 := by
    intro u
    have hxm := effXMask_binary (zeroScale h)
    have cs := sum_mul_sq_le_sq_mul_sq univ (fun j => Real.sqrt (M k u j) * effXMask a j) (fun j => Real.sqrt (M k u j) * d j)
    have e1 : ∑ j, Real.sqrt (M k u j) * effXMask a j * (Real.sqrt (M k u j) * d j) = ∑ j, M k u j * d j := by
      refine sum_congr rfl fun j _ => ?_
      have hq := Real.mul_self_sqrt (h.nonneg k u j)
      rcases hxm j with e | e
      · rw [hd j e, e]; simp
      · rw [e, mul_one, ← mul_assoc, hq]
    have e2 : ∑ j, (Real.sqrt (M k u j) * effXMask a j) ^ 2 = ∑ j, M k u j * effXMask a j := by
      refine sum_congr rfl fun j _ => ?_
      have hq := Real.sq_sqrt (h.nonneg k u j)
      rw [mul_pow, hq]
      rcases hxm j with e | e <;> rw [e] <;> norm_num
    have e3 : ∑ j, (Real.sqrt (M k u j) * d j) ^ 2 = ∑ j, M k u j * d j ^ 2 := by
      refine sum_congr rfl fun j _ => ?_
      rw [mul_pow, Real.sq_sqrt (h.nonneg k u j)]
    rw [e1, e2, e3] at cs
    have h0 : 0 ≤ ∑ j, M k u j * d j ^ 2 := sum_nonneg fun j _ => mul_nonneg (h.nonneg k u j) (sq_nonneg _)
    have h2 : (∑ j, M k u j * d j) ^ 2 ≤ R k u * ∑ j, M k u j * d j ^ 2 := cs.trans (mul_le_mul_of_nonneg_right (hR2 k u) h0)
    have h3 : ∑ j, M k u j * trainWeight a (k, u) * d j ^ 2 = trainWeight a (k, u) * ∑ j, M k u j * d j ^ 2 := by
      rw [mul_sum]
      exact sum_congr rfl fun j _ => by ring
    rw [h3, div_mul_eq_mul_div, div_le_iff₀ (hR k u), mul_assoc]
    refine mul_le_mul_of_nonneg_left ?_ (weight_mem h _).1
    linarith
  refine (sum_le_sum fun u _ => h1 u).trans ?_
  rw [sum_comm]
  refine sum_le_sum fun j _ => ?_
  rw [← sum_mul]
  refine mul_le_mul_of_nonneg_right ?_ (sq_nonneg _)
  rcases h.cols k j with e | e <;> rw [e]
  exact (h.pos j).le

/-- One projection brings the volume closer to every solution. -/
theorem row_dec (h : EvenWeights M a c) {ω : ℝ} {sigma tau} {R : Fin na → Fin nu → ℝ} (hR : ∀ k u, 0 < R k u)
    (hR2 : ∀ k u, ∑ j, M k u j * effXMask a j ≤ R k u) (hs : ∀ k u, sigma (k, u) = 1 / R k u)
    (ht : ∀ k j, ∑ u, M k u j * trainWeight a (k, u) = c j → tau (k, j) = ω / c j) {x z : Arr ν} (hx : ZeroOutsideMask a x) (hz : Admissible a z)
    (hzr : ReproducesStack M b a z) (k : Fin na) :
    dist2 c (sartRow (angleOp M) b a sigma tau x k) z ≤ dist2 c x z - ω * (2 - ω) * blockMisfit M b a R k x := by
  rw [row_eq h hs ht]
  have hf := fejer_dec (M := M k) (s := fun u => trainWeight a (k, u) / R k u) (w := c) (m := effXMask a) (e := fun j => x j - z j) (ω := ω)
    (fun u => div_nonneg (weight_mem h _).1 (hR k u).le) h.pos (effXMask_binary (zeroScale h))
    (fun j hj => by rw [zeroOutside_eff hx j hj, zeroOutside_eff (admissible_zero hz) j hj, sub_zero]) (fun d hd => block_pc h hR hR2 k d hd)
  have hdiff : ∀ u, trainWeight a (k, u) / R k u * ∑ j, M k u j * (x j - z j) =
      trainWeight a (k, u) / R k u * (∑ j, M k u j * x j - b (k, u)) := by
    intro u
    by_cases h0 : trainWeight a (k, u) = 0
    · rw [h0]; simp
    · rw [← hzr k u (trains_of_weight h h0)]
      simp only [mul_sub, sum_sub_distrib]
  have hsq : ∑ u, trainWeight a (k, u) / R k u * (∑ j, M k u j * (x j - z j)) ^ 2 = blockMisfit M b a R k x := by
    refine sum_congr rfl fun u _ => ?_
    by_cases h0 : trainWeight a (k, u) = 0
    · rw [h0]; simp
    · rw [← hzr k u (trains_of_weight h h0)]
      simp only [mul_sub, sum_sub_distrib]
  rw [hsq] at hf
  simp_rw [hdiff] at hf
  refine le_trans (sum_le_sum fun j _ => ?_) hf
  set v : Arr ν := fun j => x j - ω / c j * ∑ u, M k u j * (trainWeight a (k, u) / R k u * (∑ j, M k u j * x j - b (k, u))) with hv
  have h1 := clip_vi (zeroScale h) hz v j
  rcases effXMask_binary (zeroScale h) j with e | e
  · rw [zeroOutside_eff (admissible_zero (clipMask_admissible (zeroScale h) hz v)) j e, zeroOutside_eff (admissible_zero hz) j e, e]
    simp
  · rw [e, one_mul]
    refine mul_le_mul_of_nonneg_left ?_ (h.pos j).le
    have : x j - z j - ω / c j * ∑ u, M k u j * (trainWeight a (k, u) / R k u * (∑ j, M k u j * x j - b (k, u))) = v j - z j := by
      simp only [hv]; ring
    rw [this]
    nlinarith [sq_nonneg (v j - clipMask a v j)]

theorem clip_admissible (h : EvenWeights M a c) {x : Arr ν} (hx : Admissible a x) : clipMask a x = x := by
  funext j
  have h1 := clip_vi (zeroScale h) hx x j
  have h2 : (x j - clipMask a x j) ^ 2 ≤ 0 := by rw [sq]; exact h1
  have h3 : (x j - clipMask a x j) ^ 2 = 0 := le_antisymm h2 (sq_nonneg _)
  have := pow_eq_zero_iff (two_ne_zero) |>.1 h3
  linarith

theorem misfit_nonneg' (h : EvenWeights M a c) {R : Fin na → Fin nu → ℝ} (hR : ∀ k u, 0 < R k u) (k : Fin na) (x : Arr ν) :
    0 ≤ blockMisfit M b a R k x :=
  sum_nonneg fun u _ => mul_nonneg (div_nonneg (weight_mem h _).1 (hR k u).le) (sq_nonneg _)

theorem misfit_zero (h : EvenWeights M a c) {R : Fin na → Fin nu → ℝ} (hR : ∀ k u, 0 < R k u) {k : Fin na} {x : Arr ν}
    (h0 : blockMisfit M b a R k x = 0) (u : Fin nu) (hu : Trains a (k, u)) : ∑ j, M k u j * x j = b (k, u) := by
  have h1 := (sum_eq_zero_iff_of_nonneg fun u _ => mul_nonneg (div_nonneg (weight_mem h (k, u)).1 (hR k u).le) (sq_nonneg _)).1 h0 u (mem_univ u)
  have h2 : trainWeight a (k, u) / R k u ≠ 0 := div_ne_zero (weight_of_trains h hu) (hR k u).ne'
  have h3 := (mul_eq_zero.1 h1).resolve_left h2
  have := pow_eq_zero_iff (two_ne_zero) |>.1 h3
  linarith

/-- A sweep: closer to every solution, and strictly so unless the start reproduces the projections of the sweep. -/
theorem sweep (h : EvenWeights M a c) {ω : ℝ} (hω : 0 < ω) (hω2 : ω < 2) {sigma tau} {R : Fin na → Fin nu → ℝ} (hR : ∀ k u, 0 < R k u)
    (hR2 : ∀ k u, ∑ j, M k u j * effXMask a j ≤ R k u) (hs : ∀ k u, sigma (k, u) = 1 / R k u)
    (ht : ∀ k j, ∑ u, M k u j * trainWeight a (k, u) = c j → tau (k, j) = ω / c j) {z : Arr ν} (hz : Admissible a z)
    (hzr : ReproducesStack M b a z) : ∀ (rows : List (Fin na)) (x : Arr ν), Admissible a x →
      dist2 c (rows.foldl (sartRow (angleOp M) b a sigma tau) x) z ≤ dist2 c x z ∧
      (dist2 c (rows.foldl (sartRow (angleOp M) b a sigma tau) x) z = dist2 c x z → ∀ k ∈ rows, blockMisfit M b a R k x = 0) := by
  intro rows
  induction rows with
  | nil => intro x _; exact ⟨le_rfl, by simp⟩
  | cons k l ih =>
    intro x hx
    rw [List.foldl_cons]
    set y := sartRow (angleOp M) b a sigma tau x k with hy
    have hya : Admissible a y := by rw [hy, row_eq h hs ht]; exact clipMask_admissible (zeroScale h) hz _
    obtain ⟨i1, i2⟩ := ih y hya
    have hd : dist2 c y z ≤ dist2 c x z - ω * (2 - ω) * blockMisfit M b a R k x := row_dec h hR hR2 hs ht (admissible_zero hx) hz hzr k
    have hq := misfit_nonneg' (b := b) h hR k x
    have hω3 : 0 < ω * (2 - ω) := mul_pos hω (by linarith)
    have hp := mul_nonneg hω3.le hq
    refine ⟨by linarith, fun heq => ?_⟩
    have hq0 : blockMisfit M b a R k x = 0 := by
      by_contra hne
      have := mul_pos hω3 (lt_of_le_of_ne hq (Ne.symm hne))
      linarith
    have hyx : y = x := by
      rw [hy, row_eq h hs ht]
      have : (fun j => x j - ω / c j * ∑ u, M k u j * (trainWeight a (k, u) / R k u * (∑ j, M k u j * x j - b (k, u)))) = x := by
        funext j
        have : ∑ u, M k u j * (trainWeight a (k, u) / R k u * (∑ j, M k u j * x j - b (k, u))) = 0 := by
          refine sum_eq_zero fun u _ => ?_
          by_cases h0 : trainWeight a (k, u) = 0
          · rw [h0]; simp
          · rw [misfit_zero h hR hq0 u (trains_of_weight h h0)]; simp
        rw [this, mul_zero, sub_zero]
      rw [this]
      exact clip_admissible h hx
    intro k' hk'
    rcases List.mem_cons.1 hk' with e | e
    · rw [e]; exact hq0
    · rw [← hyx]
      refine i2 ?_ k' e
      rw [hyx] at heq ⊢
      exact heq

theorem sweep_continuous (sigma : Arr (Fin na × Fin nu)) (tau : Arr (Fin na × ν)) (rows : List (Fin na)) (j : ν) :
    Continuous fun x => rows.foldl (sartRow (angleOp M) b a sigma tau) x j := by
  have hrow : ∀ k j, Continuous fun x => sartRow (angleOp M) b a sigma tau x k j := by
    intro k j
    unfold sartRow
    refine clipMask_continuous a (fun j => (continuous_apply j).sub (Continuous.mul ?_ continuous_const)) j
    dsimp only [angleOp]
    refine continuous_finset_sum _ fun u _ => continuous_const.mul (Continuous.mul ?_ continuous_const)
    have : Continuous fun x : Arr ν => ∑ j, M k u j * x j := continuous_finset_sum _ fun j _ => continuous_const.mul (continuous_apply j)
    cases a.bMask with
    | none => exact this.sub continuous_const
    | some m => exact (this.sub continuous_const).mul continuous_const
  have hall : Continuous fun x => rows.foldl (sartRow (angleOp M) b a sigma tau) x := by
    induction rows with
    | nil => exact continuous_id
    | cons k l ih => exact ih.comp (continuous_pi fun j => hrow k j)
  exact (continuous_apply j).comp hall

theorem sweep_admissible (h : EvenWeights M a c) {z : Arr ν} (hz : Admissible a z) (sigma : Arr (Fin na × Fin nu)) (tau : Arr (Fin na × ν)) :
    ∀ (rows : List (Fin na)), rows ≠ [] → ∀ x, Admissible a (rows.foldl (sartRow (angleOp M) b a sigma tau) x) := by
  intro rows hne x
  have key : ∀ (l : List (Fin na)) y, Admissible a y → Admissible a (l.foldl (sartRow (angleOp M) b a sigma tau) y) := by
    intro l
    induction l with
    | nil => intro y hy; exact hy
    | cons k l ih => intro y _; exact ih _ (clipMask_admissible (zeroScale h) hz _)
  cases rows with
  | nil => exact absurd rfl hne
  | cons k l => exact key l _ (clipMask_admissible (zeroScale h) hz _)

/-- The volumes of a run are the iterated sweeps. -/
theorem run_eq {S : Solver ν (Fin na × Fin nu) Q} (hT : S.tolerance = none) {A : AngleOp ν na nu} {rows : List (Fin na)} {n : ℕ} {x info}
    {sigma tau} (hsc : sartScaling A S.relaxation a = .ok (sigma, tau)) (hr : sart S A b { a with iterations := n } rows = .ok (x, info)) :
    x = (fun x => rows.foldl (sartRow A b a sigma tau) x)^[n] (a.x0.getD fun _ => 0) := by
  obtain ⟨sigma', tau', hs, -, hr⟩ := sart_ok hr
  have hs' : sartScaling A S.relaxation a = .ok (sigma', tau') := hs
  rw [hsc] at hs'
  obtain ⟨e1, e2⟩ := Prod.mk.inj (Except.ok.inj hs')
  subst e1 e2
  dsimp only at hr
  rw [hT] at hr
  have := congrArg Prod.fst hr
  dsimp only at this
  rw [this]
  exact forRange_noBreak (step := sartStep A b a sigma tau rows none) XState.x _ (fun _ _ => rfl) (fun _ _ => rfl) n _

end SartConv

open SartConv

/-- C252, monotone: with even weights, from the first iteration on, every iteration of SART brings the volume at least as close (in the distance weighted by `c`) to
every admissible volume that reproduces the data. -/
theorem C252_sart_monotone_partial {M : Fin na → Fin nu → ν → ℝ} {S : Solver ν (Fin na × Fin nu) Q} {b : Fin na × Fin nu → ℝ}
    {a : Args ν (Fin na × Fin nu)} {c : Arr ν} {rows : List (Fin na)} {x : ℕ → Arr ν}
    (hrun : ∀ n, ∃ info, sart S (angleOp M) b { a with iterations := n } rows = .ok (x n, info)) (hT : S.tolerance = none) (hω : 0 < S.relaxation)
    (hω2 : S.relaxation < 2) (h : EvenWeights M a c) (hrows : rows ≠ []) {z : Arr ν} (hz : Admissible a z) (hzr : ReproducesStack M b a z) (n : ℕ) (hn : 1 ≤ n) :
    dist2 c (x (n + 1)) z ≤ dist2 c (x n) z := by
  obtain ⟨i0, h0⟩ := hrun 0
  obtain ⟨sigma, tau, hsc, -, -⟩ := sart_ok h0
  have hsc' : sartScaling (angleOp M) S.relaxation a = .ok (sigma, tau) := hsc
  obtain ⟨R, hR, hR2, hs, ht⟩ := scaling_even h hsc'
  have hx : ∀ n, x n = (fun x => rows.foldl (sartRow (angleOp M) b a sigma tau) x)^[n] (a.x0.getD fun _ => 0) := fun n => by
    obtain ⟨i, hi⟩ := hrun n
    exact run_eq hT hsc' hi
  obtain ⟨m, rfl⟩ := Nat.exists_eq_add_of_le' hn
  rw [hx (m + 1 + 1), Function.iterate_succ_apply', ← hx (m + 1)]
  refine (sweep h hω hω2 hR hR2 hs ht hz hzr rows _ ?_).1
  rw [hx (m + 1), Function.iterate_succ_apply']
  exact sweep_admissible h hz _ _ rows hrows _

/-- C252: SART on projections with even weights (see `EvenWeights`), without tolerance, relaxation between 0 and 2 (both excluded), for any start volume, data mask,
limits and solution mask, and any order of the projections in which all of them appear: if some admissible volume reproduces the (not masked) data, the volumes
returned for more and more iterations converge to such a volume.
Missing: without even weights this is false (`C252_uneven_violated`), and so it is with negative weights (`C252_signed_violated`). -/
theorem C252_sart_converges_partial {M : Fin na → Fin nu → ν → ℝ} {S : Solver ν (Fin na × Fin nu) Q} {b : Fin na × Fin nu → ℝ}
    {a : Args ν (Fin na × Fin nu)} {c : Arr ν} {rows : List (Fin na)} {x : ℕ → Arr ν}
    (hrun : ∀ n, ∃ info, sart S (angleOp M) b { a with iterations := n } rows = .ok (x n, info)) (hT : S.tolerance = none) (hω : 0 < S.relaxation)
    (hω2 : S.relaxation < 2) (h : EvenWeights M a c) (hrows : ∀ k, k ∈ rows) (hcons : ∃ z, Admissible a z ∧ ReproducesStack M b a z) :
    ∃ z, Admissible a z ∧ ReproducesStack M b a z ∧ Tendsto x atTop (𝓝 z) := by
  obtain ⟨z0, hz0, hz0r⟩ := hcons
  obtain ⟨i0, h0⟩ := hrun 0
  obtain ⟨sigma, tau, hsc, -, -⟩ := sart_ok h0
  have hsc' : sartScaling (angleOp M) S.relaxation a = .ok (sigma, tau) := hsc
  obtain ⟨R, hR, hR2, hs, ht⟩ := scaling_even h hsc'
  have hne : rows ≠ [] := by
    rintro rfl
    have hna : IsEmpty (Fin na) := ⟨fun k => by simpa using hrows k⟩
    unfold sartScaling at hsc'
    dsimp only at hsc'
    rw [if_pos] at hsc'
    · cases hsc'
    · left
      unfold npMax
      exact Real.iSup_of_isEmpty _
  set T : Arr ν → Arr ν := fun x => rows.foldl (sartRow (angleOp M) b a sigma tau) x with hTdef
  have hx : ∀ n, x n = T^[n] (a.x0.getD fun _ => 0) := fun n => by
    obtain ⟨i, hi⟩ := hrun n
    exact run_eq hT hsc' hi
  set Y : ℕ → Arr ν := fun n => x (n + 1) with hY
  have hYs : ∀ n, Y (n + 1) = T (Y n) := fun n => by simp only [hY]; rw [hx (n + 1 + 1), Function.iterate_succ_apply', ← hx (n + 1)]
  have hYa : ∀ n, Admissible a (Y n) := fun n => by
    simp only [hY]
    rw [hx (n + 1), Function.iterate_succ_apply']
    exact sweep_admissible h hz0 _ _ rows hne _
  have hcomp : ∀ x z : Arr ν, ∀ j, c j * (x j - z j) ^ 2 ≤ dist2 c x z := fun x z j =>
    single_le_sum (f := fun j => c j * (x j - z j) ^ 2) (fun j _ => mul_nonneg (h.pos j).le (sq_nonneg _)) (mem_univ j)
  have hd0 : ∀ x z, 0 ≤ dist2 c x z := fun x z => sum_nonneg fun j _ => mul_nonneg (h.pos j).le (sq_nonneg _)
  have hfej : ∀ z, Admissible a z → ReproducesStack M b a z → Antitone fun n => dist2 c (Y n) z := by
    intro z hz hzr
    refine antitone_nat_of_succ_le fun n => ?_
    rw [hYs]
    exact (sweep h hω hω2 hR hR2 hs ht hz hzr rows _ (hYa n)).1
  have hbd : ∀ n j, |Y n j - z0 j| ≤ Real.sqrt (dist2 c (Y 0) z0 / c j) := by
    intro n j
    have h1 := (hcomp (Y n) z0 j).trans (hfej z0 hz0 hz0r (Nat.zero_le n))
    refine Real.abs_le_sqrt ?_
    rw [le_div_iff₀ (h.pos j)]
    dsimp only at h1
    linarith
  have hK : IsCompact (Set.pi Set.univ fun j : ν => Set.Icc (z0 j - Real.sqrt (dist2 c (Y 0) z0 / c j)) (z0 j + Real.sqrt (dist2 c (Y 0) z0 / c j))) :=
    isCompact_univ_pi fun _ => isCompact_Icc
  obtain ⟨z, -, φ, hφ, hlim⟩ := hK.tendsto_subseq (x := Y) fun n j _ => by
    have := abs_le.1 (hbd n j)
    exact ⟨by linarith [this.1], by linarith [this.2]⟩
  have hlimj : ∀ j, Tendsto (fun n => Y (φ n) j) atTop (𝓝 (z j)) := fun j => (tendsto_pi_nhds.1 hlim) j
  have hza : Admissible a z := (admissible_iff a z).2 fun j =>
    (admissible_closed a j).mem_of_tendsto (hlimj j) (Eventually.of_forall fun n => (admissible_iff a _).1 (hYa (φ n)) j)
  have hcont : Continuous fun x => dist2 c x z0 := by
    unfold dist2
    exact continuous_finset_sum _ fun j _ => continuous_const.mul (((continuous_apply j).sub continuous_const).pow 2)
  have hTc : Continuous T := continuous_pi fun j => sweep_continuous sigma tau rows j
  have heq : dist2 c (T z) z0 = dist2 c z z0 := by
    have hl := tendsto_atTop_ciInf (hfej z0 hz0 hz0r) ⟨0, by rintro _ ⟨n, rfl⟩; exact hd0 _ _⟩
    have h1 : Tendsto (fun n => dist2 c (Y (φ n)) z0) atTop (𝓝 (dist2 c z z0)) := (hcont.tendsto z).comp hlim
    have h2 : Tendsto (fun n => dist2 c (Y (φ n + 1)) z0) atTop (𝓝 (dist2 c (T z) z0)) := by
      have := ((hcont.comp hTc).tendsto z).comp hlim
      refine this.congr fun n => ?_
      simp only [Function.comp, hYs]
    have h3 := tendsto_nhds_unique h1 (hl.comp hφ.tendsto_atTop)
    have h4 := tendsto_nhds_unique h2 (((tendsto_add_atTop_iff_nat 1).2 hl).comp hφ.tendsto_atTop)
    rw [h3, h4]
  have hzr : ReproducesStack M b a z := by
    have h1 := (sweep h hω hω2 hR hR2 hs ht hz0 hz0r rows z hza).2 heq
    exact fun k u hu => misfit_zero h hR (h1 k (hrows k)) u hu
  have hsub : Tendsto (fun n => dist2 c (Y (φ n)) z) atTop (𝓝 0) := by
    have : Tendsto (fun n => dist2 c (Y (φ n)) z) atTop (𝓝 (∑ j, c j * (z j - z j) ^ 2)) :=
      tendsto_finset_sum _ fun j _ => (((hlimj j).sub_const _).pow 2).const_mul _
    simpa using this
  have hall : Tendsto (fun n => dist2 c (Y n) z) atTop (𝓝 0) :=
    (tendsto_iff_tendsto_subseq_of_antitone (hfej z hza hzr) hφ.tendsto_atTop).2 hsub
  refine ⟨z, hza, hzr, ?_⟩
  rw [← tendsto_add_atTop_iff_nat 1]
  refine tendsto_pi_nhds.2 fun j => ?_
  have hw := h.pos j
  have hsq : Tendsto (fun n => (Y n j - z j) ^ 2) atTop (𝓝 0) := by
    have h3 : Tendsto (fun n => dist2 c (Y n) z * (c j)⁻¹) atTop (𝓝 0) := by simpa using hall.mul_const ((c j)⁻¹)
    refine squeeze_zero (fun n => sq_nonneg _) (fun n => ?_) h3
    rw [← div_eq_mul_inv, le_div_iff₀ hw]
    have := hcomp (Y n) z j
    linarith
  have h4 := hsq.sqrt
  simp only [Real.sqrt_sq_eq_abs, Real.sqrt_zero] at h4
  have h5 : Tendsto (fun n => Y n j - z j) atTop (𝓝 0) := (tendsto_zero_iff_abs_tendsto_zero _).2 h4
  have h6 : Tendsto (fun n => Y n j) atTop (𝓝 (z j)) := by simpa using h5.add_const (z j)
  exact h6

/-! ## Where it fails -/

/-- Two projections of one pixel each, of two voxels: weights (1, 2) and (2, 1). -/
def unevenM : Fin 2 → Fin 1 → Fin 2 → ℝ := fun k _ => ![![1, 2], ![2, 1]] k

private theorem ne_zero_max {α : Type} [Fintype α] {f : Arr α} (i : α) (hi : 0 < f i) : npMax f ≠ 0 :=
  ne_of_gt (lt_of_lt_of_le hi (le_npMax f i))

private theorem fixSmall_keep {α : Type} [Fintype α] {f : Arr α} {K : ℝ} (hK : ∀ i, f i ≤ K) (i : α) (hi : 0 < f i) (h2 : K ≤ 100000 * f i) :
    fixSmall f i = f i := by
  unfold fixSmall
  refine if_neg ?_
  push Not
  have h1 := le_npMax f i
  have h3 : npMax f ≤ K := npMax_le ((hi.le).trans (hK i)) hK
  rw [le_div_iff₀ (by linarith)]
  linarith

/-- C252 is false for uneven weights: the data (1, 2) of the weights (1, 2) and (2, 1) are those of the volume (1, 0) and of no other, but SART (relaxation 1)
returns (2/3, 2/3) for every positive number of iterations. -/
theorem C252_uneven_violated : (∀ z : Arr (Fin 2), ReproducesStack unevenM (fun p => ![1, 2] p.1) { iterations := 0 } z ↔ z = ![1, 0]) ∧
    ∀ n : ℕ, ∃ info, sart (Q := Unit) ⟨1, none, [], .new .l2 none, .new .l2 none, none⟩ (angleOp unevenM) (fun p => ![1, 2] p.1)
      { iterations := n + 1 } [0, 1] = .ok (fun _ => 2 / 3, info) := by
  constructor
  · intro z
    constructor
    · intro h
      have h0 := h 0 0 ⟨by simp, by simp⟩
      have h1 := h 1 0 ⟨by simp, by simp⟩
      simp [unevenM, Fin.sum_univ_two] at h0 h1
      funext j
      fin_cases j <;> simp <;> linarith
    · rintro rfl k u -
      fin_cases k <;> simp [unevenM, Fin.sum_univ_two]
  · intro n
    set a : Args (Fin 2) (Fin 2 × Fin 1) := { iterations := n + 1 } with ha
    have hsc : ∃ sigma tau, sartScaling (angleOp unevenM) 1 a = .ok (sigma, tau) ∧ (∀ p, sigma p = 1 / 3) ∧ ∀ k j, tau (k, j) = 1 / unevenM k 0 j := by
      have ht : ∀ k j, |(angleOp unevenM).adj k (fun u => applyMask a.bMask (fun _ => 1) (k, u)) j| = unevenM k 0 j := by
        intro k j
        have : (angleOp unevenM).adj k (fun u => applyMask a.bMask (fun _ => 1) (k, u)) j = unevenM k 0 j := by simp [angleOp, a, applyMask]
        rw [this]
        refine abs_of_nonneg ?_
        fin_cases k <;> fin_cases j <;> simp [unevenM]
      have hs : ∀ k u, |(angleOp unevenM).fwd k (applyMask a.xMask fun _ => 1) u| = 3 := by
        intro k u
        have : (angleOp unevenM).fwd k (applyMask a.xMask fun _ => 1) u = 3 := by
          fin_cases k <;> simp [angleOp, a, applyMask, unevenM, Fin.sum_univ_two] <;> norm_num
        rw [this]; norm_num
      have hu : ∀ k j, 1 ≤ unevenM k 0 j ∧ unevenM k 0 j ≤ 2 := by
        intro k j
        fin_cases k <;> fin_cases j <;> simp [unevenM]
      unfold sartScaling
      dsimp only
      rw [if_neg]
      · refine ⟨_, _, rfl, fun p => ?_, fun k j => ?_⟩
        · rw [fixSmall_keep (K := 3), hs]
          · intro i; rw [hs]
          · rw [hs]; norm_num
          · rw [hs]; norm_num
        · rw [fixSmall_keep (K := 2), ht]
          · intro i; rw [ht]; exact (hu _ _).2
          · rw [ht]; linarith [(hu k j).1]
          · rw [ht]; linarith [(hu k j).1]
      · push Not
        refine ⟨ne_zero_max (0, 0) ?_, ne_zero_max (0, 0) ?_⟩
        · rw [ht]; linarith [(hu 0 0).1]
        · rw [hs]; norm_num
    obtain ⟨sigma, tau, hsc, hsig, htau⟩ := hsc
    have hrow : ∀ v : ℝ, ∀ k : Fin 2, sartRow (angleOp unevenM) (fun p => ![1, 2] p.1) a sigma tau (fun _ => v) k = fun _ => v - (3 * v - ![1, 2] k) / 3 := by
      intro v k
      have hn : ∀ f : Arr (Fin 2), applyMask none f = f := fun _ => rfl
      funext j
      simp only [sartRow, clipMask, clip1, a, hn, Option.map_none, hsig, htau, angleOp]
      fin_cases k <;> fin_cases j <;> simp [unevenM, Fin.sum_univ_two] <;> ring
    have hrun : ∃ x info, sart (Q := Unit) ⟨1, none, [], .new .l2 none, .new .l2 none, none⟩ (angleOp unevenM) (fun p => ![1, 2] p.1) a [0, 1] = .ok (x, info) := by
      unfold sart
      dsimp only
      rw [hsc]
      simp only [Bind.bind, Except.bind, Option.isSome_none, Bool.false_eq_true, false_and, if_false]
      exact ⟨_, _, rfl⟩
    obtain ⟨x, info, hx⟩ := hrun
    refine ⟨info, ?_⟩
    rw [hx]
    have h1 := run_eq (S := ⟨1, none, [], .new .l2 none, .new .l2 none, none⟩) (a := a) rfl hsc hx
    have key : ∀ m : ℕ, ∃ v : ℝ, (fun x => [0, 1].foldl (sartRow (angleOp unevenM) (fun p => ![1, 2] p.1) a sigma tau) x)^[m] (fun _ => 0) = fun _ => v := by
      intro m
      induction m with
      | zero => exact ⟨0, rfl⟩
      | succ m ih =>
        obtain ⟨v, hv⟩ := ih
        rw [Function.iterate_succ_apply', hv]
        simp only [List.foldl_cons, List.foldl_nil, hrow]
        exact ⟨_, rfl⟩
    obtain ⟨v, hv⟩ := key n
    have e0 : (a.x0.getD fun _ => 0) = fun _ => (0 : ℝ) := rfl
    rw [e0, Function.iterate_succ_apply', hv] at h1
    simp only [List.foldl_cons, List.foldl_nil, hrow] at h1
    congr 2
    rw [h1]
    funext j
    simp
    ring

/-- C252 is false with negative weights, which SART sums up with their signs: one projection of one pixel with the weights 1 and -9/10, datum 1 (the datum of the volume
(1, 0)). The residual of the volume returned after `n` iterations is -(-18)^n: the volumes diverge. -/
theorem C252_signed_violated : ∀ n : ℕ, ∃ x info, sart (Q := Unit) ⟨1, none, [], .new .l2 none, .new .l2 none, none⟩
    (angleOp fun (_ : Fin 1) (_ : Fin 1) => ![1, -9 / 10]) (fun _ => 1) { iterations := n } [0] = .ok (x, info) ∧ 1 * x 0 + -9 / 10 * x 1 - 1 = -(-18) ^ n := by
  intro n
  set W : Fin 1 → Fin 1 → Fin 2 → ℝ := fun _ _ => ![1, -9 / 10] with hW
  set a : Args (Fin 2) (Fin 1 × Fin 1) := { iterations := n } with ha
  have hsc : ∃ sigma tau, sartScaling (angleOp W) 1 a = .ok (sigma, tau) ∧ (∀ p, sigma p = 10) ∧ ∀ k j, tau (k, j) = 1 / |W k 0 j| := by
    have ht : ∀ k j, |(angleOp W).adj k (fun u => applyMask a.bMask (fun _ => 1) (k, u)) j| = |W k 0 j| := by
      intro k j
      simp [angleOp, a, applyMask]
    have hs : ∀ k u, |(angleOp W).fwd k (applyMask a.xMask fun _ => 1) u| = 1 / 10 := by
      intro k u
      have : (angleOp W).fwd k (applyMask a.xMask fun _ => 1) u = 1 / 10 := by
        simp [angleOp, a, applyMask, W, Fin.sum_univ_two]; norm_num
      rw [this]; norm_num
    have hu : ∀ k j, 9 / 10 ≤ |W k 0 j| ∧ |W k 0 j| ≤ 1 := by
      intro k j
      fin_cases j <;> simp [W, abs_div] <;> norm_num
    unfold sartScaling
    dsimp only
    rw [if_neg]
    · refine ⟨_, _, rfl, fun p => ?_, fun k j => ?_⟩
      · rw [fixSmall_keep (K := 1 / 10), hs]
        · norm_num
        · intro i; rw [hs]
        · rw [hs]; norm_num
        · rw [hs]; norm_num
      · rw [fixSmall_keep (K := 1), ht]
        · intro i; rw [ht]; exact (hu i.1 i.2).2
        · rw [ht]; linarith [(hu k j).1]
        · rw [ht]; linarith [(hu k j).1]
    · push Not
      refine ⟨ne_zero_max (0, 0) ?_, ne_zero_max (0, 0) ?_⟩
      · rw [ht]; linarith [(hu 0 0).1]
      · rw [hs]; norm_num
  obtain ⟨sigma, tau, hsc, hsig, htau⟩ := hsc
  have hrow : ∀ x : Arr (Fin 2), ∀ k : Fin 1, 1 * sartRow (angleOp W) (fun _ => 1) a sigma tau x k 0 + -9 / 10 * sartRow (angleOp W) (fun _ => 1) a sigma tau x k 1 - 1 =
      -18 * (1 * x 0 + -9 / 10 * x 1 - 1) := by
    intro x k
    have hn : ∀ f : Arr (Fin 2), applyMask none f = f := fun _ => rfl
    have h9 : |(-9 / 10 : ℝ)| = 9 / 10 := by norm_num [abs_div]
    simp only [sartRow, clipMask, clip1, a, hn, Option.map_none, hsig, htau, angleOp, W, Fin.sum_univ_two, univ_unique, sum_singleton, Matrix.cons_val_zero,
      Matrix.cons_val_one, abs_one, h9]
    ring
  have hrun : ∃ x info, sart (Q := Unit) ⟨1, none, [], .new .l2 none, .new .l2 none, none⟩ (angleOp W) (fun _ => 1) a [0] = .ok (x, info) := by
    unfold sart
    dsimp only
    rw [hsc]
    simp only [Bind.bind, Except.bind, Option.isSome_none, Bool.false_eq_true, false_and, if_false]
    exact ⟨_, _, rfl⟩
  obtain ⟨x, info, hx⟩ := hrun
  refine ⟨x, info, hx, ?_⟩
  have h1 := run_eq (S := ⟨1, none, [], .new .l2 none, .new .l2 none, none⟩) (a := a) rfl hsc hx
  have e0 : (a.x0.getD fun _ => 0) = fun _ => (0 : ℝ) := rfl
  rw [h1, e0]
  have key : ∀ m : ℕ, 1 * (fun x => [0].foldl (sartRow (angleOp W) (fun _ => 1) a sigma tau) x)^[m] (fun _ => 0) 0 +
      -9 / 10 * (fun x => [0].foldl (sartRow (angleOp W) (fun _ => 1) a sigma tau) x)^[m] (fun _ => 0) 1 - 1 = -(-18) ^ m := by
    intro m
    induction m with
    | zero => simp
    | succ m ih =>
      rw [Function.iterate_succ_apply']
      simp only [List.foldl_cons, List.foldl_nil] at ih ⊢
      rw [hrow, ih, pow_succ]
      ring
  exact key n

/-- Non-vacuity: two projections of two voxels, one along the rows and one across; limits, and a volume within them that reproduces the data. -/
example : let M : Fin 2 → Fin 2 → Fin 2 → ℝ := fun k u j => if k = 0 then (if u = 0 then 1 else 0) else (if u = j then 1 else 0)
    let a : Args (Fin 2) (Fin 2 × Fin 2) := { iterations := 0, lower := some (.scalar 0) }
    let b : Fin 2 × Fin 2 → ℝ := fun p => ∑ j, M p.1 p.2 j * ![1, 3] j
    EvenWeights M a (fun _ => 1) ∧ (∃ z, Admissible a z ∧ ReproducesStack M b a z) ∧
    ∀ n, ∃ r, sart (Q := Unit) ⟨1, none, [], .new .l2 none, .new .l2 none, none⟩ (angleOp M) b { a with iterations := n } [1, 0] = .ok r := by
  intro M a b
  have hn : ∀ k u j, 0 ≤ M k u j := by
    intro k u j
    simp only [M]
    split_ifs <;> norm_num
  refine ⟨⟨hn, ?_, by simp [a], rfl, by simp [a], by simp, by norm_num, ?_⟩, ⟨![1, 3], ⟨⟨?_, by simp [a]⟩, by simp [a]⟩, fun k u _ => rfl⟩, fun n => ?_⟩
  · intro k u
    rw [Fin.sum_univ_two]
    simp only [M]
    split_ifs <;> norm_num
  · intro k j
    right
    rw [Fin.sum_univ_two]
    fin_cases k <;> fin_cases j <;> simp [M, a, trainWeight]
  · intro l hl j
    have : l = .scalar 0 := by simpa [a] using hl.symm
    rw [this]
    fin_cases j <;> simp [Attr.get]
  · unfold sart sartScaling
    simp only [Bind.bind, Except.bind]
    rw [if_neg]
    · simp
    · push Not
      constructor
      · refine ne_of_gt (lt_of_lt_of_le ?_ (le_npMax _ (0, 0)))
        simp [angleOp, applyMask, a, M]
      · refine ne_of_gt (lt_of_lt_of_le ?_ (le_npMax _ (0, 0)))
        simp [angleOp, applyMask, a, M]

end Verif
