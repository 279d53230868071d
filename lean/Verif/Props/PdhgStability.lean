import Verif.Props.PdhgConv
import Verif.Props.PdhgL2

/-! # C280: PDHG is stable with respect to the start -/

namespace Verif
open Classical DataTerm Finset Filter Topology Verif.Spec

namespace PDProblem
variable {ν κ : Type} [Fintype ν] [Fintype κ] (S : PDProblem ν κ)

theorem lower (d : Arr ν) (e : Arr κ) (h : ∑ k, S.σ k * S.K d k ^ 2 ≤ S.ω * ∑ j, d j ^ 2 / S.τ j) :
    (1 - S.ω) * ∑ j, d j ^ 2 / S.τ j ≤ pdForm S.K S.σ S.τ d e := by
  have h1 : 2 * ∑ k, S.K d k * e k ≤ ∑ k, S.σ k * S.K d k ^ 2 + ∑ k, e k ^ 2 / S.σ k := by
    rw [mul_sum, ← sum_add_distrib]
    refine sum_le_sum fun k _ => ?_
    have hk := S.σpos k
    have e1 : S.σ k * S.K d k ^ 2 + e k ^ 2 / S.σ k - 2 * (S.K d k * e k) = (S.σ k * S.K d k - e k) ^ 2 / S.σ k := by
      field_simp
      ring
    have : 0 ≤ (S.σ k * S.K d k - e k) ^ 2 / S.σ k := by positivity
    linarith
  unfold pdForm
  linarith

theorem nonexp (hC : Convex ℝ S.C) {R' : Arr κ → Arr κ} {c : ℝ}
    (hcross : ∀ u v, -c ≤ ∑ k, (S.R u k - R' v k) * ((u k - S.R u k) / S.σ k - (v k - R' v k) / S.σ k)) {x y : Arr ν} (hx : x ∈ S.C) (hy : y ∈ S.C) (p q : Arr κ) :
    let w := pdStep S.K S.Kt S.σ S.τ S.P S.R (x, p)
    let v := pdStep S.K S.Kt S.σ S.τ S.P R' (y, q)
    pdForm S.K S.σ S.τ (fun j => w.1 j - v.1 j) (fun k => w.2 k - v.2 k) ≤ pdForm S.K S.σ S.τ (fun j => x j - y j) (fun k => p k - q k) + 2 * c := by
  set x' := S.P fun j => x j - S.τ j * S.Kt p j with hx'
  set y' := S.P fun j => y j - S.τ j * S.Kt q j with hy'
  set p' := S.R fun k => p k + S.σ k * S.K (fun j => 2 * x' j - x j) k with hp'
  set q' := R' fun k => q k + S.σ k * S.K (fun j => 2 * y' j - y j) k with hq'
  show pdForm S.K S.σ S.τ (fun j => x' j - y' j) (fun k => p' k - q' k) ≤ _
  have hk : ∀ u v : Arr ν, S.K (fun j => 2 * u j - v j) = fun k => 2 * S.K u k - S.K v k := fun u v => by
    have := S.lin 2 (-1) u v
    simpa [sub_eq_add_neg] using this
  have I1 := S.vi (fun j => x j - S.τ j * S.Kt p j) y' (S.memC _)
  have I2 := S.vi (fun j => y j - S.τ j * S.Kt q j) x' (S.memC _)
  have I3 := hcross (fun k => p k + S.σ k * S.K (fun j => 2 * x' j - x j) k) fun k => q k + S.σ k * S.K (fun j => 2 * y' j - y j) k
  rw [← hx'] at I1
  rw [← hy'] at I2
  rw [← hp', ← hq'] at I3
  have e1 : ∑ j, (y' j - x' j) * ((x j - S.τ j * S.Kt p j - x' j) / S.τ j) = ∑ j, (y' j - x' j) * (x j - x' j) / S.τ j - ∑ k, (S.K y' k - S.K x' k) * p k := by
    have := S.adj (fun j => y' j - x' j) p
    rw [S.K_sub'] at this
    rw [this, ← sum_sub_distrib]
    refine sum_congr rfl fun j _ => ?_
    have := (S.τpos j).ne'
    field_simp
    ring
  have e2 : ∑ j, (x' j - y' j) * ((y j - S.τ j * S.Kt q j - y' j) / S.τ j) = ∑ j, (x' j - y' j) * (y j - y' j) / S.τ j - ∑ k, (S.K x' k - S.K y' k) * q k := by
    have := S.adj (fun j => x' j - y' j) q
    rw [S.K_sub'] at this
    rw [this, ← sum_sub_distrib]
    refine sum_congr rfl fun j _ => ?_
    have := (S.τpos j).ne'
    field_simp
    ring
  have e3 : ∑ k, (p' k - q' k) * ((p k + S.σ k * S.K (fun j => 2 * x' j - x j) k - p' k) / S.σ k - (q k + S.σ k * S.K (fun j => 2 * y' j - y j) k - q' k) / S.σ k) =
      ∑ k, (p' k - q' k) * (((p k - q k) - (p' k - q' k)) / S.σ k + 2 * (S.K x' k - S.K y' k) - (S.K x k - S.K y k)) := by
    refine sum_congr rfl fun k _ => ?_
    have := (S.σpos k).ne'
    rw [hk, hk]
    field_simp
    ring
  rw [e1] at I1
  rw [e2] at I2
  rw [e3] at I3
  -- the increments of the difference
  have hpsd : 0 ≤ pdForm S.K S.σ S.τ (fun j => (x j - y j) - (x' j - y' j)) fun k => (p k - q k) - (p' k - q' k) := by
    have hu : (fun j => 1 / 2 * x j + 1 / 2 * y' j) ∈ S.C := hC hx (S.memC _) (by norm_num) (by norm_num) (by norm_num)
    have hv : (fun j => 1 / 2 * y j + 1 / 2 * x' j) ∈ S.C := hC hy (S.memC _) (by norm_num) (by norm_num) (by norm_num)
    have hE := S.energy _ hu _ hv
    have hK : S.K (fun j => (x j - y j) - (x' j - y' j)) = fun k => (S.K x k - S.K y k) - (S.K x' k - S.K y' k) := by
      rw [S.K_sub' (fun j => x j - y j) fun j => x' j - y' j, S.K_sub', S.K_sub']
    rw [S.lin, S.lin] at hE
    refine le_trans ?_ (S.lower _ _ ?_)
    · exact mul_nonneg (by linarith [S.ωlt]) (sum_nonneg fun j _ => div_nonneg (sq_nonneg _) (S.τpos j).le)
    · rw [hK]
      have a1 : ∑ k, S.σ k * ((S.K x k - S.K y k) - (S.K x' k - S.K y' k)) ^ 2 =
          4 * ∑ k, S.σ k * (1 / 2 * S.K x k + 1 / 2 * S.K y' k - (1 / 2 * S.K y k + 1 / 2 * S.K x' k)) ^ 2 := by
        rw [mul_sum]; exact sum_congr rfl fun k _ => by ring
      have a2 : ∑ j, ((x j - y j) - (x' j - y' j)) ^ 2 / S.τ j = 4 * ∑ j, (1 / 2 * x j + 1 / 2 * y' j - (1 / 2 * y j + 1 / 2 * x' j)) ^ 2 / S.τ j := by
        rw [mul_sum]; exact sum_congr rfl fun k _ => by ring
      rw [a1, a2]
      linarith
  unfold pdForm at hpsd ⊢
  have hK : S.K (fun j => (x j - y j) - (x' j - y' j)) = fun k => (S.K x k - S.K y k) - (S.K x' k - S.K y' k) := by
    rw [S.K_sub' (fun j => x j - y j) fun j => x' j - y' j, S.K_sub', S.K_sub']
  rw [hK] at hpsd
  rw [S.K_sub', S.K_sub']
  have h1 : ∑ j, (x j - y j) ^ 2 / S.τ j - ∑ j, (x' j - y' j) ^ 2 / S.τ j - ∑ j, ((x j - y j) - (x' j - y' j)) ^ 2 / S.τ j =
      -2 * (∑ j, (y' j - x' j) * (x j - x' j) / S.τ j + ∑ j, (x' j - y' j) * (y j - y' j) / S.τ j) := by
    rw [← sum_sub_distrib, ← sum_sub_distrib, ← sum_add_distrib, mul_sum]
    exact sum_congr rfl fun j _ => by ring
  have h2 : (-2 * ∑ k, (S.K x k - S.K y k) * (p k - q k) + ∑ k, (p k - q k) ^ 2 / S.σ k) -
      (-2 * ∑ k, (S.K x' k - S.K y' k) * (p' k - q' k) + ∑ k, (p' k - q' k) ^ 2 / S.σ k) -
      (-2 * ∑ k, ((S.K x k - S.K y k) - (S.K x' k - S.K y' k)) * ((p k - q k) - (p' k - q' k)) + ∑ k, ((p k - q k) - (p' k - q' k)) ^ 2 / S.σ k) =
      2 * (∑ k, (S.K y' k - S.K x' k) * p k + ∑ k, (S.K x' k - S.K y' k) * q k +
        ∑ k, (p' k - q' k) * (((p k - q k) - (p' k - q' k)) / S.σ k + 2 * (S.K x' k - S.K y' k) - (S.K x k - S.K y k))) := by
    simp only [mul_sum, ← sum_sub_distrib, ← sum_add_distrib]
    refine sum_congr rfl fun k _ => ?_
    have := (S.σpos k).ne'
    field_simp
    ring
  linarith

/-- The metric at the start: the first dual step does not increase the distance of the starts. -/
private theorem start {R' : Arr κ → Arr κ} {c : ℝ} (hcross : ∀ u v, -c ≤ ∑ k, (S.R u k - R' v k) * ((u k - S.R u k) / S.σ k - (v k - R' v k) / S.σ k))
    (x y : Arr ν) (e0 : Arr κ) :
    pdForm S.K S.σ S.τ (fun j => x j - y j) (fun k => S.R (fun k => e0 k + S.σ k * S.K x k) k - R' (fun k => e0 k + S.σ k * S.K y k) k) ≤ ∑ j, (x j - y j) ^ 2 / S.τ j + 2 * c := by
  set p := S.R fun k => e0 k + S.σ k * S.K x k with hp
  set q := R' fun k => e0 k + S.σ k * S.K y k with hq
  have I := hcross (fun k => e0 k + S.σ k * S.K x k) fun k => e0 k + S.σ k * S.K y k
  rw [← hp, ← hq] at I
  have e : ∑ k, (p k - q k) * ((e0 k + S.σ k * S.K x k - p k) / S.σ k - (e0 k + S.σ k * S.K y k - q k) / S.σ k) =
      ∑ k, (S.K x k - S.K y k) * (p k - q k) - ∑ k, (p k - q k) ^ 2 / S.σ k := by
    rw [← sum_sub_distrib]
    refine sum_congr rfl fun k _ => ?_
    have := (S.σpos k).ne'
    field_simp
    ring
  rw [e] at I
  have h0 : 0 ≤ ∑ k, (p k - q k) ^ 2 / S.σ k := sum_nonneg fun k _ => div_nonneg (sq_nonneg _) (S.σpos k).le
  unfold pdForm
  rw [S.K_sub']
  linarith

theorem two_runs (hC : Convex ℝ S.C) {R' : Arr κ → Arr κ} {c : ℝ}
    (hcross : ∀ u v, -c ≤ ∑ k, (S.R u k - R' v k) * ((u k - S.R u k) / S.σ k - (v k - R' v k) / S.σ k)) (e0 : Arr κ) (w v : ℕ → Arr ν × Arr κ) (hw : ∀ n, w (n + 1) = pdStep S.K S.Kt S.σ S.τ S.P S.R (w n))
    (hv : ∀ n, v (n + 1) = pdStep S.K S.Kt S.σ S.τ S.P R' (v n)) (hw0 : (w 0).2 = S.R fun k => e0 k + S.σ k * S.K (w 0).1 k)
    (hv0 : (v 0).2 = R' fun k => e0 k + S.σ k * S.K (v 0).1 k) (hwC : (w 0).1 ∈ S.C) (hvC : (v 0).1 ∈ S.C) (n : ℕ) :
    (1 - S.ω) * ∑ j, ((w n).1 j - (v n).1 j) ^ 2 / S.τ j ≤ ∑ j, ((w 0).1 j - (v 0).1 j) ^ 2 / S.τ j + (n + 1) * (2 * c) := by
  have hC' : ∀ n, (w n).1 ∈ S.C ∧ (v n).1 ∈ S.C := by
    intro n
    cases n with
    | zero => exact ⟨hwC, hvC⟩
    | succ n => rw [hw, hv]; exact ⟨S.memC _, S.memC _⟩
  have hdec : ∀ n, pdForm S.K S.σ S.τ (fun j => (w n).1 j - (v n).1 j) (fun k => (w n).2 k - (v n).2 k) ≤ ∑ j, ((w 0).1 j - (v 0).1 j) ^ 2 / S.τ j + (n + 1) * (2 * c) := by
    intro n
    induction n with
    | zero => rw [hw0, hv0]; refine (S.start hcross _ _ e0).trans (le_of_eq ?_); push_cast; ring
    | succ n ih =>
      rw [hw, hv]
      refine (S.nonexp hC hcross (hC' n).1 (hC' n).2 _ _).trans ?_
      push_cast
      linarith
  refine le_trans (S.lower _ (fun k => (w n).2 k - (v n).2 k) ?_) (hdec n)
  rw [S.K_sub']
  exact S.energy _ (hC' n).1 _ (hC' n).2

end PDProblem

variable {ν ι δ : Type} [Fintype ν] [Fintype ι] [Fintype δ]

omit [Fintype δ] in
private theorem pdhg_again {S : Solver ν ι (Arr δ)} {A : Operator ν ι} {b : Arr ι} {a : Args ν ι} {o : Option (Arr ν)} {pc rnd n r}
    (h : pdhg S A b { a with iterations := n, x0 := o } pc rnd = .ok r) (N : ℕ) : ∃ r', pdhg S A b { a with iterations := N, x0 := o } pc rnd = .ok r' := by
  obtain ⟨sigma, tau, tt, h1, h2, -⟩ := pdhg_ok h
  dsimp only at h2
  have h1' : pdhgScaling S A { a with iterations := N, x0 := o } pc rnd = .ok (sigma, tau) := h1
  unfold pdhg
  rcases hm : initBMasks a.bMask a.bTestMask with ⟨bm, tm⟩
  rw [hm] at h2
  simp only [Bind.bind, Except.bind, h1', h2]
  exact ⟨_, rfl⟩

/-- Two PDHG runs of one problem, for two data sets and two admissible starts, given what the dual steps for the two data do. -/
private theorem runs {M : ι → ν → ℝ} {S : Solver ν ι (Arr δ)} {b b' : Arr ι} {a : Args ν ι} {rnd : Arr ι}
    {gs : List (PReg ν δ)} (hregs : S.regs = gs.map (·.reg)) (hg : ∀ g ∈ gs, g.Ok)
    (hk : ConvexKind S.term.kind) (hT : S.tolerance = none) (hω : 0 < S.relaxation) (hω1 : S.relaxation < 1)
    (hs : SensibleScale M a) (htw : ∀ i, trainWeight a i = 0 ∨ trainWeight a i = 1)
    (hcols : ∀ j, (∑ i, |M i j|) + (gs.map fun g => g.c j).sum ≤ 100000)
    {sigma : Arr ι} {tau : Arr ν} (hsc : pdhgScaling S (matrixOp M) a true rnd = .ok (sigma, tau))
    {c : Arr ι} (hc : ∀ i, 0 ≤ c i) (hb : b = b' ∨ S.term.kind = .l2 ∧ c = (fun _ => 1) ∨ S.term.kind = .wl2 (.array c))
    {x0 y0 : Arr ν} (hx0 : Admissible a x0) (hy0 : Admissible a y0) {n : ℕ} {x y : Arr ν} {info info' S1 S2}
    (hx : pdhg S (matrixOp M) b { a with iterations := n, x0 := some x0 } true rnd = .ok (x, info, S1))
    (hy : pdhg S (matrixOp M) b' { a with iterations := n, x0 := some y0 } true rnd = .ok (y, info', S2)) :
    (1 - S.relaxation) * ∑ j, (x j - y j) ^ 2 / tau j ≤
      ∑ j, (x0 j - y0 j) ^ 2 / tau j + (n + 1) * (1 / 2 * ∑ i, trainWeight a i * (c i * (b i - b' i) ^ 2)) := by
  obtain ⟨Pb, e0, Rf, hRf, hC, hω', hτ, hCc, -, -, -, hw, hcr⟩ := pdhg_problem hregs hg hk hT hω hω1 hs htw hcols ⟨x0, hx0⟩ hsc (b := b)
  have hxN : ∀ N, ∃ x' info S', pdhg S (matrixOp M) b { a with iterations := N, x0 := some x0 } true rnd = .ok (x', info, S') := fun N => by
    obtain ⟨⟨x', i', S'⟩, h⟩ := pdhg_again hx N; exact ⟨x', i', S', h⟩
  have hyN : ∀ N, ∃ x' info S', pdhg S (matrixOp M) b' { a with iterations := N, x0 := some y0 } true rnd = .ok (x', info, S') := fun N => by
    obtain ⟨⟨x', i', S'⟩, h⟩ := pdhg_again hy N; exact ⟨x', i', S', h⟩
  choose xs hxs using hxN
  choose ys hys using hyN
  obtain ⟨w, hw1, hw2, hw3⟩ := hw b (some x0) xs hxs
  obtain ⟨v, hv1, hv2, hv3⟩ := hw b' (some y0) ys hys
  have ex : xs n = x := by
    obtain ⟨i', S', h⟩ := hxs n
    rw [hx] at h
    exact (congrArg Prod.fst (Except.ok.inj h)).symm
  have ey : ys n = y := by
    obtain ⟨i', S', h⟩ := hys n
    rw [hy] at h
    exact (congrArg Prod.fst (Except.ok.inj h)).symm
  have ex0 : xs 0 = x0 := by
    obtain ⟨i', S', h⟩ := hxs 0
    obtain ⟨_, _, _, _, _, h3⟩ := pdhg_ok h
    exact congrArg Prod.fst h3
  have ey0 : ys 0 = y0 := by
    obtain ⟨i', S', h⟩ := hys 0
    obtain ⟨_, _, _, _, _, h3⟩ := pdhg_ok h
    exact congrArg Prod.fst h3
  rw [hRf] at hw1 hw3
  have hcross : ∀ u v, -(1 / 4 * ∑ i, trainWeight a i * (c i * (b i - b' i) ^ 2)) ≤
      ∑ k, (Pb.R u k - Rf b' v k) * ((u k - Pb.R u k) / Pb.σ k - (v k - Rf b' v k) / Pb.σ k) := by
    intro u v
    rcases hb with rfl | hb
    · simp only [sub_self, ne_eq, OfNat.ofNat_ne_zero, not_false_eq_true, zero_pow, mul_zero, sum_const_zero, neg_zero]
      rw [hRf]
      exact (Pb.cert u).mono (Pb.cert v)
    · rw [← hRf]
      exact hcr b' c hc hb u v
  have h := Pb.two_runs hCc hcross e0 w v hw1 hv1 hw3 hv3 (by rw [hw2, ex0, hC]; exact hx0) (by rw [hv2, ey0, hC]; exact hy0) n
  rw [hω', hτ] at h
  simp only [hw2, hv2, ex, ey, ex0, ey0] at h
  refine h.trans (le_of_eq ?_)
  ring

/-- C280. Two PDHG runs of the same problem (any matrix, data, background, data term with a convex functional, 0/1 masks, limits, list of regularizers that stand for convex
penalties, relaxation ρ in (0, 1), preconditioned step sizes) that differ only in their admissible start volumes stay close for ever: after every number of iterations the squared
distance of the two volumes, weighted by the inverse of the primal step sizes, is at most `1 / (1 - ρ)` times that of the start volumes. Neither needs to converge. -/
theorem C280_start {M : ι → ν → ℝ} {S : Solver ν ι (Arr δ)} {b : Arr ι} {a : Args ν ι} {rnd : Arr ι}
    {gs : List (PReg ν δ)} (hregs : S.regs = gs.map (·.reg)) (hg : ∀ g ∈ gs, g.Ok)
    (hk : ConvexKind S.term.kind) (hT : S.tolerance = none) (hω : 0 < S.relaxation) (hω1 : S.relaxation < 1)
    (hs : SensibleScale M a) (htw : ∀ i, trainWeight a i = 0 ∨ trainWeight a i = 1)
    (hcols : ∀ j, (∑ i, |M i j|) + (gs.map fun g => g.c j).sum ≤ 100000)
    {sigma : Arr ι} {tau : Arr ν} (hsc : pdhgScaling S (matrixOp M) a true rnd = .ok (sigma, tau))
    {x0 y0 : Arr ν} (hx0 : Admissible a x0) (hy0 : Admissible a y0) {n : ℕ} {x y : Arr ν} {info info' S1 S2}
    (hx : pdhg S (matrixOp M) b { a with iterations := n, x0 := some x0 } true rnd = .ok (x, info, S1))
    (hy : pdhg S (matrixOp M) b { a with iterations := n, x0 := some y0 } true rnd = .ok (y, info', S2)) :
    (1 - S.relaxation) * ∑ j, (x j - y j) ^ 2 / tau j ≤ ∑ j, (x0 j - y0 j) ^ 2 / tau j := by
  have h := runs hregs hg hk hT hω hω1 hs htw hcols hsc (c := fun _ => 1) (fun _ => zero_le_one) (Or.inl rfl) hx0 hy0 hx hy
  simpa using h

/-- C280. The same for two data sets, for least-squares terms (weights `c`, all 1 for the unweighted one): the effect of noise on the data grows at most like the square root of the
number of iterations, with every list of convex penalties; held-out pixels do not count. -/
theorem C280_noise {M : ι → ν → ℝ} {S : Solver ν ι (Arr δ)} {b b' : Arr ι} {a : Args ν ι} {rnd : Arr ι}
    {gs : List (PReg ν δ)} (hregs : S.regs = gs.map (·.reg)) (hg : ∀ g ∈ gs, g.Ok)
    {c : Arr ι} (hc : ∀ i, 0 ≤ c i) (hk : S.term.kind = .l2 ∧ c = (fun _ => 1) ∨ S.term.kind = .wl2 (.array c))
    (hT : S.tolerance = none) (hω : 0 < S.relaxation) (hω1 : S.relaxation < 1)
    (hs : SensibleScale M a) (htw : ∀ i, trainWeight a i = 0 ∨ trainWeight a i = 1)
    (hcols : ∀ j, (∑ i, |M i j|) + (gs.map fun g => g.c j).sum ≤ 100000)
    {sigma : Arr ι} {tau : Arr ν} (hsc : pdhgScaling S (matrixOp M) a true rnd = .ok (sigma, tau))
    {x0 y0 : Arr ν} (hx0 : Admissible a x0) (hy0 : Admissible a y0) {n : ℕ} {x y : Arr ν} {info info' S1 S2}
    (hx : pdhg S (matrixOp M) b { a with iterations := n, x0 := some x0 } true rnd = .ok (x, info, S1))
    (hy : pdhg S (matrixOp M) b' { a with iterations := n, x0 := some y0 } true rnd = .ok (y, info', S2)) :
    (1 - S.relaxation) * ∑ j, (x j - y j) ^ 2 / tau j ≤
      ∑ j, (x0 j - y0 j) ^ 2 / tau j + (n + 1) / 2 * ∑ i, trainWeight a i * (c i * (b i - b' i) ^ 2) := by
  have hck : ConvexKind S.term.kind := by
    rcases hk with ⟨h, -⟩ | h <;> rw [h]
    · trivial
    · exact hc
  have h := runs hregs hg hck hT hω hω1 hs htw hcols hsc hc (Or.inr hk) hx0 hy0 hx hy
  refine h.trans (le_of_eq ?_)
  ring

/-- Non-vacuity: one projection of two voxels at least 1, started at (1, 1) and at (2, 5). -/
example : let S : Solver (Fin 2) (Fin 1) (Arr Unit) := ⟨1 / 2, none, [], .new .l2 none, .new .l2 none, none⟩
    let a : Args (Fin 2) (Fin 1) := { iterations := 0, lower := some (.scalar 1) }
    let M : Fin 1 → Fin 2 → ℝ := fun _ _ => 1
    ∃ (tau : Arr (Fin 2)) (xs ys : ℕ → Arr (Fin 2)), ∀ n,
      (∃ info S', pdhg S (matrixOp M) (fun _ => 3) { a with iterations := n, x0 := some fun _ => 1 } true (fun _ => 1) = .ok (xs n, info, S')) ∧
      (∃ info S', pdhg S (matrixOp M) (fun _ => 3) { a with iterations := n, x0 := some ![2, 5] } true (fun _ => 1) = .ok (ys n, info, S')) ∧
      (1 - 1 / 2) * ∑ j, (xs n j - ys n j) ^ 2 / tau j ≤ ∑ j, (1 - ![2, 5] j) ^ 2 / tau j := by
  intro S a M
  obtain ⟨⟨sigma, tau⟩, hp⟩ := scaling_regs_ok (δ := Unit) (M := M) ⟨0, 0, by simp [M]⟩ S a ⟨rfl, rfl, rfl⟩ (by simp [S]) fun _ => 1
  have hr : ∀ (x0 : Arr (Fin 2)) n, ∃ x info S', pdhg S (matrixOp M) (fun _ => 3) { a with iterations := n, x0 := some x0 } true (fun _ => 1) = .ok (x, info, S') := fun x0 n => by
    obtain ⟨⟨x, info, S'⟩, h⟩ := pdhg_runs (S := S) (A := matrixOp M) (b := fun _ => 3) (a := { a with iterations := n, x0 := some x0 }) (pc := true) (rnd := fun _ => 1) hp rfl
    exact ⟨x, info, S', h⟩
  choose xs hxs using hr
  refine ⟨tau, xs fun _ => 1, xs ![2, 5], fun n => ⟨hxs _ n, hxs _ n, ?_⟩⟩
  obtain ⟨i1, S1, h1⟩ := hxs (fun _ => 1) n
  obtain ⟨i2, S2, h2⟩ := hxs ![2, 5] n
  refine C280_start (gs := []) (S := S) (a := a) (M := M) rfl (by simp) trivial rfl (by norm_num [S]) (by norm_num [S])
    ⟨by simp [a], by simp [a], by simp [a], by simp [M]; norm_num, by simp [M]⟩ (fun i => Or.inr (by simp [trainWeight, a])) (by simp [M]) hp
    ⟨⟨?_, by simp [a]⟩, by simp [a]⟩ ⟨⟨?_, by simp [a]⟩, by simp [a]⟩ h1 h2
  · rintro l hl j
    have : l = .scalar 1 := by simpa [a] using hl.symm
    rw [this]
    exact le_rfl
  · rintro l hl j
    have : l = .scalar 1 := by simpa [a] using hl.symm
    rw [this]
    fin_cases j <;> norm_num [Attr.get]

/-- Non-vacuity: the same problem for the data 3 and 4. -/
example : let S : Solver (Fin 2) (Fin 1) (Arr Unit) := ⟨1 / 2, none, [], .new .l2 none, .new .l2 none, none⟩
    let a : Args (Fin 2) (Fin 1) := { iterations := 0 }
    let M : Fin 1 → Fin 2 → ℝ := fun _ _ => 1
    ∃ (tau : Arr (Fin 2)) (xs ys : ℕ → Arr (Fin 2)), ∀ n,
      (∃ info S', pdhg S (matrixOp M) (fun _ => 3) { a with iterations := n, x0 := some fun _ => 0 } true (fun _ => 1) = .ok (xs n, info, S')) ∧
      (∃ info S', pdhg S (matrixOp M) (fun _ => 4) { a with iterations := n, x0 := some fun _ => 0 } true (fun _ => 1) = .ok (ys n, info, S')) ∧
      (1 - 1 / 2) * ∑ j, (xs n j - ys n j) ^ 2 / tau j ≤ (n + 1) / 2 := by
  intro S a M
  obtain ⟨⟨sigma, tau⟩, hp⟩ := scaling_regs_ok (δ := Unit) (M := M) ⟨0, 0, by simp [M]⟩ S a ⟨rfl, rfl, rfl⟩ (by simp [S]) fun _ => 1
  have hr : ∀ (b : Arr (Fin 1)) n, ∃ x info S', pdhg S (matrixOp M) b { a with iterations := n, x0 := some fun _ => 0 } true (fun _ => 1) = .ok (x, info, S') := fun b n => by
    obtain ⟨⟨x, info, S'⟩, h⟩ := pdhg_runs (S := S) (A := matrixOp M) (b := b) (a := { a with iterations := n, x0 := some fun _ => 0 }) (pc := true) (rnd := fun _ => 1) hp rfl
    exact ⟨x, info, S', h⟩
  choose xs hxs using hr
  refine ⟨tau, xs fun _ => 3, xs fun _ => 4, fun n => ⟨hxs _ n, hxs _ n, ?_⟩⟩
  obtain ⟨i1, S1, h1⟩ := hxs (fun _ => 3) n
  obtain ⟨i2, S2, h2⟩ := hxs (fun _ => 4) n
  have h := C280_noise (gs := []) (S := S) (a := a) (M := M) (c := fun _ => 1) rfl (by simp) (fun _ => zero_le_one) (Or.inl ⟨rfl, rfl⟩) rfl (by norm_num [S]) (by norm_num [S])
    ⟨by simp [a], by simp [a], by simp [a], by simp [M]; norm_num, by simp [M]⟩ (fun i => Or.inr (by simp [trainWeight, a])) (by simp [M]) hp
    ⟨⟨by simp [a], by simp [a]⟩, by simp [a]⟩ ⟨⟨by simp [a], by simp [a]⟩, by simp [a]⟩ h1 h2
  refine h.trans (le_of_eq ?_)
  simp [trainWeight, a]
  norm_num

end Verif
