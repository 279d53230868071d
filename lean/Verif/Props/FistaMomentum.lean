import Verif.Lemmas.ProxGrad
import Verif.Lemmas.Solvers
import Verif.Spec.Solvers
import Verif.Props.SolversConv

/-! # C11, C62: the momentum of FISTA -/

namespace Verif
open Classical DataTerm

/-- Specification: the Beck–Teboulle acceleration parameters, as the positive root of `t² - t = (previous)²`. -/
noncomputable def accel : ℕ → ℝ
  | 0 => 1
  | n + 1 => (1 + Real.sqrt (1 + 4 * accel n ^ 2)) / 2

/-- Specification: the same with a reset to 1 every `p` iterations. -/
noncomputable def accelRestart (p : ℕ) : ℕ → ℝ
  | 0 => 1
  | n + 1 => if (n + 1) % p = 0 then 1 else (1 + Real.sqrt (1 + 4 * accelRestart p n ^ 2)) / 2

/-- The extrapolated point after the volumes `x` (before) and `x'` (after) with momentum `m`. -/
def extrapolate {ν : Type} (m : ℝ) (x x' : Arr ν) : Arr ν := fun j => x' j + m * (x' j - x j)

private theorem root_sq (t : ℝ) : ((1 + Real.sqrt (1 + 4 * t ^ 2)) / 2) ^ 2 - (1 + Real.sqrt (1 + 4 * t ^ 2)) / 2 = t ^ 2 := by
  have h := Real.sq_sqrt (show 0 ≤ 1 + 4 * t ^ 2 by positivity)
  ring_nf; ring_nf at h; rw [h]; ring

private theorem root_ge (t : ℝ) (_ht : 0 ≤ t) : t + 1 / 2 ≤ (1 + Real.sqrt (1 + 4 * t ^ 2)) / 2 := by
  have h : 2 * t ≤ Real.sqrt (1 + 4 * t ^ 2) := Real.le_sqrt_of_sq_le (by ring_nf; linarith [sq_nonneg t])
  linarith

theorem accel_ge (k : ℕ) : ((k : ℝ) + 2) / 2 ≤ accel k := by
  induction k with
  | zero => simp [accel]
  | succ n ih =>
    have h0 : (0 : ℝ) ≤ accel n := le_trans (by positivity) ih
    have := root_ge _ h0
    simp only [accel]; push_cast; linarith

/-- The acceleration parameters satisfy the defining recursion, grow at least linearly, and the momentum factors
`(t_k - 1) / t_{k+1}` lie in `[0, 1)`. -/
theorem C11_acceleration_sequence (k : ℕ) :
    accel (k + 1) ^ 2 - accel (k + 1) = accel k ^ 2 ∧ ((k : ℝ) + 2) / 2 ≤ accel k ∧
      0 ≤ (accel k - 1) / accel (k + 1) ∧ (accel k - 1) / accel (k + 1) < 1 := by
  have h := accel_ge k
  have h1 := accel_ge (k + 1)
  push_cast at h1
  have hk : (0 : ℝ) ≤ k := Nat.cast_nonneg k
  have h2 := root_ge (accel k) (by linarith)
  refine ⟨root_sq _, h, div_nonneg (by linarith) (by linarith), ?_⟩
  rw [div_lt_one (by linarith)]
  simp only [accel]; linarith

variable {ν ι Q : Type} [Fintype ν] [Fintype ι]

private theorem fistaStep_proj (A : Operator ν ι) (a : Args ν ι) (regs : List (Reg ν Q)) (rp : Option ℕ)
    (term tt : DataTerm ι) (bm tm : Option (Arr ι)) (sigma : Arr ι) (tau : Arr ν) (ii : ℕ) (s : FState ν) :
    (fistaStep A a regs rp term tt bm tm sigma tau none ii s).2 = false ∧
    (fistaStep A a regs rp term tt bm tm sigma tau none ii s).1.t = fistaTNew rp ii s.t ∧
    (fistaStep A a regs rp term tt bm tm sigma tau none ii s).1.y =
      extrapolate (fistaMomentum rp ii s.t) s.x (fistaStep A a regs rp term tt bm tm sigma tau none ii s).1.x := by
  unfold fistaStep
  have := @recordResiduals_noTol ι _ term tt bm tm ii
  dsimp only
  refine ⟨?_, ?_, ?_⟩
  · exact this
  · rfl
  · rfl

/-- The new volume of a step depends only on the momentum point. -/
private theorem fistaStep_x (A : Operator ν ι) (a : Args ν ι) (regs : List (Reg ν Q)) (rp : Option ℕ)
    (term tt : DataTerm ι) (bm tm : Option (Arr ι)) (sigma : Arr ι) (tau : Arr ν) (ii ii' : ℕ) (s s' : FState ν)
    (h : s.y = s'.y) :
    (fistaStep A a regs rp term tt bm tm sigma tau none ii s).1.x =
      (fistaStep A a regs rp term tt bm tm sigma tau none ii' s').1.x := by
  unfold fistaStep
  dsimp only
  rw [h]

private theorem loopFrom_succ {S : Type} (step : ℕ → S → S × Bool) (hb : ∀ k s, (step k s).2 = false) :
    ∀ n ii s, loopFrom step (n + 1) ii s = (step (ii + n) (loopFrom step n ii s)).1
  | 0, ii, s => by
    have := hb ii s
    rw [loopFrom]
    rcases h : step ii s with ⟨t, b⟩
    rw [h] at this; dsimp at this; subst this
    simp [loopFrom, h]
  | n + 1, ii, s => by
    rw [loopFrom]
    have := hb ii s
    rcases h : step ii s with ⟨t, b⟩
    rw [h] at this; dsimp at this; subst this
    simp only
    rw [loopFrom_succ step hb n (ii + 1) t, loopFrom, h]
    simp only
    rw [show ii + 1 + n = ii + (n + 1) by omega]

/-- The parameter sequence for a restart period (or none). -/
private noncomputable def accelOf : Option ℕ → ℕ → ℝ
  | none => accel
  | some p => accelRestart p

private theorem accelOf_succ (rp : Option ℕ) (n : ℕ) : fistaTNew rp n (accelOf rp n) = accelOf rp (n + 1) := by
  cases rp <;> simp only [fistaTNew, accelOf, accel, accelRestart, pow_two, mul_assoc]

private theorem run (S : Solver ν ι Q) (A : Operator ν ι) (b : Arr ι) (a : Args ν ι) (pc : Bool) (rnd : Arr ι)
    (htol : S.tolerance = none) (hm : ∀ m, a.xMask = some m → Binary m)
    (x : ℕ → Arr ν)
    (hx : ∀ n, (fista S A b { a with iterations := n } pc rnd).map (·.1) = .ok (x n)) (n : ℕ) :
    (fista S A b { a with iterations := 1, x0 := some (extrapolate ((accelOf S.restartPeriod n - 1) / accelOf S.restartPeriod (n + 1)) (x n) (x (n + 1))) }
        pc rnd).map (·.1) = .ok (x (n + 2)) := by
  obtain ⟨y0, h0⟩ := ok_of_map (hx 0)
  obtain ⟨sigma, tau, tt, hsc, htt, -⟩ := fista_ok h0
  dsimp only at hsc htt
  set bm := (initBMasks a.bMask a.bTestMask).1 with hbm
  set tm := (initBMasks a.bMask a.bTestMask).2 with htm
  set term := S.term.assignData (some (.array b)) (.scalar 1) with hterm
  set z0 : Arr ν := applyMask a.xMask (a.x0.getD fun _ => 0) with hz0
  -- the loop of a run of `n` iterations, with the information record dropped
  let st (k : ℕ) : FState ν := forRange (fistaStep A a S.regs S.restartPeriod term tt bm tm sigma tau none) k
    ⟨z0, z0, 1, Info.new 0 none⟩
  have hb : ∀ k s, (fistaStep A a S.regs S.restartPeriod term tt bm tm sigma tau none k s).2 = false := fun k s =>
    (fistaStep_proj A a S.regs S.restartPeriod term tt bm tm sigma tau k s).1
  have hst : ∀ k, st (k + 1) = (fistaStep A a S.regs S.restartPeriod term tt bm tm sigma tau none k (st k)).1 := by
    intro k
    have := loopFrom_succ _ hb k 0 ⟨z0, z0, 1, Info.new 0 none⟩
    rw [zero_add] at this
    exact this
  have hxk : ∀ k, x k = (st k).x := by
    intro k
    obtain ⟨y, h⟩ := ok_of_map (hx k)
    obtain ⟨sigma', tau', tt', hsc', htt', hr⟩ := fista_ok h
    dsimp only at hsc' htt' hr
    have e1 : fistaScaling S A { a with iterations := k } pc rnd = fistaScaling S A { a with iterations := 0 } pc rnd := rfl
    rw [e1, hsc] at hsc'
    cases hsc'
    rw [← hbm, ← htm, ← hterm] at *
    rw [htt] at htt'
    cases htt'
    have := congrArg (fun q => q.1) hr
    dsimp only at this
    rw [this]
    have hrel := forRange_rel (R := fun (s s' : FState ν) => s.x = s'.x ∧ s.y = s'.y ∧ s.t = s'.t)
      (step := fistaStep A { a with iterations := k } S.regs S.restartPeriod term tt bm tm sigma tau S.tolerance)
      (step' := fistaStep A a S.regs S.restartPeriod term tt bm tm sigma tau none) (n := k)
      (s := ⟨z0, z0, 1, initialResiduals term tt bm tm S.tolerance (A.fwd z0) (Info.new k S.tolerance)⟩)
      (s' := ⟨z0, z0, 1, Info.new 0 none⟩) ⟨rfl, rfl, rfl⟩ (by
        rintro k s s' ⟨e1, e2, e3⟩
        rw [htol]
        refine ⟨⟨?_, ?_, ?_⟩, ?_⟩
        · exact fistaStep_x A a S.regs S.restartPeriod term tt bm tm sigma tau k k s s' e2
        · unfold fistaStep; dsimp only; rw [e1, e2, e3]; rfl
        · unfold fistaStep; dsimp only; rw [e3]
        · rw [hb]; exact (fistaStep_proj A _ S.regs S.restartPeriod term tt bm tm sigma tau k s).1)
    exact hrel.1
  have ht : ∀ k, (st k).t = accelOf S.restartPeriod k := by
    intro k
    induction k with
    | zero => show (1 : ℝ) = _; cases S.restartPeriod <;> rfl
    | succ k ih =>
      rw [hst, (fistaStep_proj A a S.regs S.restartPeriod term tt bm tm sigma tau k (st k)).2.1, ih, accelOf_succ]
  have hy : ∀ k, (st (k + 1)).y = extrapolate ((accelOf S.restartPeriod k - 1) / accelOf S.restartPeriod (k + 1))
      (x k) (x (k + 1)) := by
    intro k
    have := (fistaStep_proj A a S.regs S.restartPeriod term tt bm tm sigma tau k (st k)).2.2
    rw [← hst, ht] at this
    rw [this, hxk, hxk]
    congr 1
    rw [fistaMomentum, accelOf_succ]
  -- every volume of the run is unchanged by the solution mask
  have hmask : ∀ k, applyMask a.xMask (x k) = x k := by
    intro k
    rw [hxk]
    cases hmm : a.xMask with
    | none => rfl
    | some m =>
      have hbin := hm m hmm
      have key : ∀ v : Arr ν, applyMask (some m) (applyMask (some m) v) = applyMask (some m) v := by
        intro v; funext j
        simp only [applyMask]
        rcases hbin j with h | h <;> rw [h] <;> ring
      cases k with
      | zero => show applyMask (some m) z0 = z0; rw [hz0, hmm]; exact key _
      | succ k =>
        rw [hst]
        unfold fistaStep
        dsimp only [clipMask]
        rw [hmm]; exact key _
  have hmy : applyMask a.xMask (st (n + 1)).y = (st (n + 1)).y := by
    rw [hy]
    have h1 := hmask n
    have h2 := hmask (n + 1)
    cases hmm : a.xMask with
    | none => rfl
    | some m =>
      rw [hmm] at h1 h2
      funext j
      have h1 := congrFun h1 j
      have h2 := congrFun h2 j
      simp only [applyMask, extrapolate] at *
      set c := (accelOf S.restartPeriod n - 1) / accelOf S.restartPeriod (n + 1)
      rw [show (x (n + 1) j + c * (x (n + 1) j - x n j)) * m j =
        x (n + 1) j * m j + c * (x (n + 1) j * m j - x n j * m j) by ring, h1, h2]
  rw [← hy]
  -- the run of one iteration from the extrapolated point
  have hrun : ∃ r, fista S A b { a with iterations := 1, x0 := some (st (n + 1)).y } pc rnd = .ok r := by
    unfold fista
    have e1 : fistaScaling S A { a with iterations := 1, x0 := some (st (n + 1)).y } pc rnd
      = fistaScaling S A { a with iterations := 0 } pc rnd := rfl
    rw [e1, hsc]
    simp only [bind, Except.bind]
    rw [← htm, ← hterm, htt]
    exact ⟨_, rfl⟩
  obtain ⟨r, hr⟩ := hrun
  rw [hr]
  obtain ⟨sigma', tau', tt', hsc', htt', he⟩ := fista_ok hr
  dsimp only at hsc' htt' he
  have e1 : fistaScaling S A { a with iterations := 1, x0 := some (st (n + 1)).y } pc rnd
    = fistaScaling S A { a with iterations := 0 } pc rnd := rfl
  rw [e1, hsc] at hsc'
  cases hsc'
  rw [← hbm, ← htm, ← hterm] at *
  rw [htt] at htt'
  cases htt'
  rw [he]
  show Except.ok _ = Except.ok _
  congr 1
  dsimp only
  rw [hxk, hst (n + 1), Option.getD_some, hmy, htol]
  unfold forRange
  rw [loopFrom_succ _ (fun k s => (fistaStep_proj A _ S.regs S.restartPeriod term tt bm tm sigma tau k s).1)]
  exact fistaStep_x A a S.regs S.restartPeriod term tt bm tm sigma tau _ _ _ _ rfl

/-- Without restart (and without tolerance), FISTA is a plain proximal-gradient step (a run of one iteration) applied
to the point extrapolated from the last two volumes with the momentum of the acceleration sequence: if `x n` is the
result of the run with `n` iterations, `x (n+2)` is the result of one iteration started at
`x_{n+1} + (t_n - 1)/t_{n+1} (x_{n+1} - x_n)`. -/
theorem C11_fista_momentum (S : Solver ν ι Q) (A : Operator ν ι) (b : Arr ι) (a : Args ν ι) (pc : Bool) (rnd : Arr ι)
    (htol : S.tolerance = none) (hr : S.restartPeriod = none) (hm : ∀ m, a.xMask = some m → Binary m)
    (x : ℕ → Arr ν) (hx : ∀ n, (fista S A b { a with iterations := n } pc rnd).map (·.1) = .ok (x n)) (n : ℕ) :
    (fista S A b { a with iterations := 1, x0 := some (extrapolate ((accel n - 1) / accel (n + 1)) (x n) (x (n + 1))) }
        pc rnd).map (·.1) = .ok (x (n + 2)) := by
  have := run S A b a pc rnd htol hm x hx n
  rwa [hr] at this

/-- The same with a restart period `p`: the parameter is reset to 1 every `p` iterations. -/
theorem C11_fista_restart (S : Solver ν ι Q) (A : Operator ν ι) (b : Arr ι) (a : Args ν ι) (pc : Bool) (rnd : Arr ι)
    (p : ℕ) (_hp : 1 ≤ p) (htol : S.tolerance = none) (hr : S.restartPeriod = some p)
    (hm : ∀ m, a.xMask = some m → Binary m)
    (x : ℕ → Arr ν) (hx : ∀ n, (fista S A b { a with iterations := n } pc rnd).map (·.1) = .ok (x n)) (n : ℕ) :
    (fista S A b { a with
          iterations := 1
          x0 := some (extrapolate ((accelRestart p n - 1) / accelRestart p (n + 1)) (x n) (x (n + 1))) }
        pc rnd).map (·.1) = .ok (x (n + 2)) := by
  have := run S A b a pc rnd htol hm x hx n
  rwa [hr] at this

/-- Parameters since the last restart. -/
theorem accelRestart_eq (p : ℕ) (hp : 1 ≤ p) (n : ℕ) : accelRestart p n = accel (n % p) := by
  induction n with
  | zero => simp [accelRestart, accel]
  | succ n ih =>
    rw [accelRestart]
    split_ifs with h
    · rw [h]; rfl
    · have : (n + 1) % p = n % p + 1 := by
        have h1 := Nat.mod_lt n hp
        rw [Nat.add_mod] at h ⊢
        rcases Nat.lt_or_ge 1 p with h2 | h2
        · rw [Nat.mod_eq_of_lt h2] at h ⊢
          rcases Nat.lt_or_ge (n % p + 1) p with h3 | h3
          · exact Nat.mod_eq_of_lt h3
          · exfalso; apply h
            rw [show n % p + 1 = p by omega]; exact Nat.mod_self p
        · have : p = 1 := by omega
          subst this
          simp [Nat.mod_one] at h
      rw [this, ih]; rfl

/-- True part of the restart: after `(k+1) p` iterations the parameter is 1, so that the momentum of the *following*
iteration is 0; and in iterations that do not end in a restart the momentum is in `[0, 1)`. -/
theorem C62_restart_partial (p : ℕ) (hp : 1 ≤ p) :
    (∀ k, accelRestart p (k * p) = 1 ∧ (accelRestart p (k * p) - 1) / accelRestart p (k * p + 1) = 0) ∧
    ∀ n, (n + 1) % p ≠ 0 → 0 ≤ (accelRestart p n - 1) / accelRestart p (n + 1) ∧
      (accelRestart p n - 1) / accelRestart p (n + 1) < 1 := by
  constructor
  · intro k
    have : accelRestart p (k * p) = 1 := by
      rw [accelRestart_eq p hp, Nat.mul_mod_left]; rfl
    rw [this]; simp
  · intro n hn
    have h2 : accelRestart p (n + 1) = (1 + Real.sqrt (1 + 4 * accelRestart p n ^ 2)) / 2 := by
      rw [accelRestart, if_neg hn]
    have e : accelRestart p n = accel (n % p) := accelRestart_eq p hp n
    have := C11_acceleration_sequence (n % p)
    rw [h2, e]
    exact ⟨this.2.2.1, this.2.2.2⟩

/-- The restart itself does not drop the momentum: in the iteration that restarts, the momentum factor is `t - 1`, which
is at least `(p-1)/2`, i.e. at least 1 (the volume is extrapolated by at least its whole last change) for every restart
period `p ≥ 3`, instead of 0. -/
theorem C62_restart_violated (p : ℕ) (hp : 1 ≤ p) (n : ℕ) (hn : (n + 1) % p = 0) :
    ((p : ℝ) - 1) / 2 ≤ (accelRestart p n - 1) / accelRestart p (n + 1) ∧
    (2 ≤ p → (accelRestart p n - 1) / accelRestart p (n + 1) ≠ 0) ∧
    (3 ≤ p → 1 ≤ (accelRestart p n - 1) / accelRestart p (n + 1)) := by
  have h1 : accelRestart p (n + 1) = 1 := by rw [accelRestart, if_pos hn]
  have h2 : n % p = p - 1 := by
    have h3 := Nat.mod_lt n hp
    have h4 : (n % p + 1) % p = 0 := by rw [← hn]; simp [Nat.add_mod]
    rcases Nat.lt_or_ge (n % p + 1) p with h5 | h5
    · rw [Nat.mod_eq_of_lt h5] at h4; omega
    · omega
  have h3 := accel_ge (p - 1)
  rw [h1, accelRestart_eq p hp, h2, div_one]
  rw [Nat.cast_sub hp] at h3
  push_cast at h3
  refine ⟨by linarith, fun h => ?_, fun h => ?_⟩
  · have : (2 : ℝ) ≤ p := by exact_mod_cast h
    intro h0; linarith
  · have : (3 : ℝ) ≤ p := by exact_mod_cast h
    linarith

/-- Non-vacuity: runs of every length exist, with a restart period and with a lower limit. -/
example : let S : Solver (Fin 1) (Fin 2) Unit := ⟨1 / 2, none, [], .new .l2 none, .new .l2 none, some 3⟩
    S.tolerance = none ∧ (∀ m, demoArgs.xMask = some m → Binary m) ∧
    ∃ x : ℕ → Arr (Fin 1), ∀ n,
      (fista S (matrixOp demoM) ![3, 5] { demoArgs with iterations := n } true fun _ => 1).map (·.1) = .ok (x n) := by
  refine ⟨rfl, by simp [demoArgs], ?_⟩
  have h : ∀ n, ∃ x : Arr (Fin 1), (fista (⟨1 / 2, none, [], .new .l2 none, .new .l2 none, some 3⟩ :
      Solver (Fin 1) (Fin 2) Unit) (matrixOp demoM) ![3, 5]
      { demoArgs with iterations := n } true fun _ => 1).map (·.1) = .ok x := by
    intro n
    obtain ⟨p, hp⟩ := matrix_scaling_ok (Q := Unit) (M := demoM) 1 (1 / 2) ⟨0, 0, by simp [demoM]⟩
    obtain ⟨r, hr⟩ := fista_runs (S := (⟨1 / 2, none, [], .new .l2 none, .new .l2 none, some 3⟩ :
      Solver (Fin 1) (Fin 2) Unit)) (A := matrixOp demoM) (b := ![3, 5]) (a := { demoArgs with iterations := n })
      (pc := true) (rnd := fun _ => 1) (p := p) (by simpa [fistaScaling, matrixOp, demoArgs, initBMasks] using hp) rfl
    rw [hr]; exact ⟨_, rfl⟩
  choose x hx using h
  exact ⟨x, hx⟩

end Verif
