import Verif.Props.PdhgDefault
import Verif.Props.Nuclear

/-! # C237: PDHG with total nuclear variation solves the problem with that penalty -/

namespace Verif
open Classical DataTerm Finset Filter Topology Verif.Spec

/-! ## Specification -/

variable {κ : Type} [Fintype κ] [DecidableEq κ] {n : κ → ℕ}

/-- Specification: the derivatives of every channel. -/
noncomputable def channelGradient (mode : PadMode) {m r : ℕ} (axes : Fin m → κ) (x : Arr (Fin r × Idx n)) :
    Arr (Fin m × Fin r × Idx n) := fun y => gradient mode axes (fun p => x (y.2.1, p)) (y.1, y.2.2)

/-- Specification: its adjoint. -/
noncomputable def channelGradientAdjoint (mode : PadMode) {m r : ℕ} (axes : Fin m → κ) (y : Arr (Fin m × Fin r × Idx n)) :
    Arr (Fin r × Idx n) := fun j => gradientAdjoint mode axes (fun x => y (x.1, j.1, x.2)) j.2

/-- Specification: total nuclear variation, the weight times the sum over the pixels of the nuclear norm of the matrix of the derivatives of
all channels; `nuc` is the nuclear norm. -/
noncomputable def tnvPenalty (mode : PadMode) {m r : ℕ} (axes : Fin m → κ) (w : ℝ) (nuc : (Fin r → Fin m → ℝ) → ℝ) :
    Penalty (Fin r × Idx n) (Fin m × Fin r × Idx n) :=
  ⟨channelGradient mode axes, channelGradientAdjoint mode axes, fun y => w * ∑ p, nuc fun c d => y (d, c, p)⟩

/-! ## The certificate -/

private theorem ball_segment {r k : ℕ} {R Y : Fin r → Fin k → ℝ} (hR : SpectralBall R) (hY : SpectralBall Y) {t : ℝ} (h0 : 0 ≤ t)
    (h1 : t ≤ 1) : SpectralBall fun i j => R i j + t * (Y i j - R i j) := by
  intro x
  have e : ∀ i, ∑ j, (R i j + t * (Y i j - R i j)) * x j = (1 - t) * (∑ j, R i j * x j) + t * ∑ j, Y i j * x j := by
    intro i
    rw [mul_sum, mul_sum, ← sum_add_distrib]
    exact sum_congr rfl fun j _ => by ring
  simp only [e]
  have hc : ∀ a b : ℝ, ((1 - t) * a + t * b) ^ 2 ≤ (1 - t) * a ^ 2 + t * b ^ 2 := fun a b => by
    nlinarith [mul_nonneg (mul_nonneg h0 (sub_nonneg.2 h1)) (sq_nonneg (a - b))]
  calc ∑ i, ((1 - t) * (∑ j, R i j * x j) + t * ∑ j, Y i j * x j) ^ 2
      ≤ ∑ i, ((1 - t) * (∑ j, R i j * x j) ^ 2 + t * (∑ j, Y i j * x j) ^ 2) := sum_le_sum fun i _ => hc _ _
    _ = (1 - t) * ∑ i, (∑ j, R i j * x j) ^ 2 + t * ∑ i, (∑ j, Y i j * x j) ^ 2 := by rw [sum_add_distrib, mul_sum, mul_sum]
    _ ≤ (1 - t) * ∑ j, x j ^ 2 + t * ∑ j, x j ^ 2 :=
        add_le_add (mul_le_mul_of_nonneg_left (hR x) (sub_nonneg.2 h1)) (mul_le_mul_of_nonneg_left (hY x) h0)
    _ = ∑ j, x j ^ 2 := by ring

theorem nearest_angle {r k : ℕ} {M R : Fin r → Fin k → ℝ} (h : NearestInBall M R) {Y : Fin r → Fin k → ℝ} (hY : SpectralBall Y) :
    ∑ i, ∑ j, Y i j * (M i j - R i j) ≤ ∑ i, ∑ j, R i j * (M i j - R i j) := by
  by_contra hcon
  push Not at hcon
  set a := ∑ i, ∑ j, (Y i j - R i j) * (M i j - R i j) with ha
  set b := ∑ i, ∑ j, (Y i j - R i j) ^ 2 with hb
  have ha0 : 0 < a := by
    have : a = ∑ i, ∑ j, Y i j * (M i j - R i j) - ∑ i, ∑ j, R i j * (M i j - R i j) := by
      rw [ha, ← sum_sub_distrib]
      refine sum_congr rfl fun i _ => ?_
      rw [← sum_sub_distrib]
      exact sum_congr rfl fun j _ => by ring
    linarith
  have hb0 : 0 ≤ b := sum_nonneg fun _ _ => sum_nonneg fun _ _ => sq_nonneg _
  have hex : ∀ t : ℝ, frobSq M (fun i j => R i j + t * (Y i j - R i j)) = frobSq M R - 2 * t * a + t ^ 2 * b := by
    intro t
    simp only [frobSq, ha, hb, mul_sum, ← sum_add_distrib, ← sum_sub_distrib]
    exact sum_congr rfl fun i _ => sum_congr rfl fun j _ => by ring
  have hd : 0 < a + b := by linarith
  have ht0 : 0 ≤ a / (a + b) := div_nonneg ha0.le hd.le
  have ht1 : a / (a + b) ≤ 1 := by rw [div_le_one hd]; linarith
  have h1 := (h.2 _ (ball_segment h.1 hY ht0 ht1)).1
  rw [hex] at h1
  have e : a / (a + b) * (a + b) = a := div_mul_cancel₀ _ hd.ne'
  have htp : 0 < a / (a + b) := div_pos ha0 hd
  set t := a / (a + b) with ht
  have h2 : 2 * a ≤ t * b := by
    have h3 : t * (2 * a) ≤ t * (t * b) := by nlinarith
    exact le_of_mul_le_mul_left h3 htp
  nlinarith

theorem nuc_convex {r k : ℕ} {nuc : (Fin r → Fin k → ℝ) → ℝ} (hN : ∀ M, IsNuclearNorm M (nuc M)) (M N : Fin r → Fin k → ℝ)
    {a b : ℝ} (ha : 0 ≤ a) (hb : 0 ≤ b) : nuc (fun i j => a * M i j + b * N i j) ≤ a * nuc M + b * nuc N := by
  obtain ⟨Y, hY, h⟩ := (hN fun i j => a * M i j + b * N i j).1
  rw [h]
  have h1 := mul_le_mul_of_nonneg_left ((hN M).2 ⟨Y, hY, rfl⟩) ha
  have h2 := mul_le_mul_of_nonneg_left ((hN N).2 ⟨Y, hY, rfl⟩) hb
  refine Eq.trans_le ?_ (add_le_add h1 h2)
  rw [mul_sum, mul_sum, ← sum_add_distrib]
  refine sum_congr rfl fun i _ => ?_
  rw [mul_sum, mul_sum, ← sum_add_distrib]
  exact sum_congr rfl fun j _ => by ring

theorem nuc_cert {r k : ℕ} {nuc : (Fin r → Fin k → ℝ) → ℝ} (hN : ∀ M, IsNuclearNorm M (nuc M)) {M R : Fin r → Fin k → ℝ}
    (h : NearestInBall M R) (z : Fin r → Fin k → ℝ) :
    nuc (fun i j => (M i j - R i j) / (1 / 2)) + ∑ i, ∑ j, R i j * (z i j - (M i j - R i j) / (1 / 2)) ≤ nuc z := by
  obtain ⟨Y, hY, e⟩ := (hN fun i j => (M i j - R i j) / (1 / 2)).1
  have h1 := nearest_angle h hY
  have h2 : ∑ i, ∑ j, R i j * z i j ≤ nuc z := (hN z).2 ⟨R, h.1, rfl⟩
  have e1 : ∑ i, ∑ j, Y i j * ((M i j - R i j) / (1 / 2)) = 2 * ∑ i, ∑ j, Y i j * (M i j - R i j) := by
    simp only [mul_sum]; exact sum_congr rfl fun i _ => sum_congr rfl fun j _ => by ring
  have e2 : ∑ i, ∑ j, R i j * (z i j - (M i j - R i j) / (1 / 2)) = ∑ i, ∑ j, R i j * z i j - 2 * ∑ i, ∑ j, R i j * (M i j - R i j) := by
    simp only [mul_sum, ← sum_sub_distrib]; exact sum_congr rfl fun i _ => sum_congr rfl fun j _ => by ring
  rw [e, e1, e2]
  linarith

theorem sum_pix {m r : ℕ} (f : Fin m × Fin r × Idx n → ℝ) : ∑ k, f k = ∑ p, ∑ c, ∑ d, f (d, c, p) := by
  rw [Fintype.sum_prod_type]
  simp only [Fintype.sum_prod_type]
  rw [sum_comm]
  simp only [sum_comm (s := univ (α := Fin m)) (t := univ (α := Idx n))]
  rw [sum_comm]

theorem channel_adjoint {mode : PadMode} (hm : mode ≠ .edge) {m r : ℕ} (axes : Fin m → κ) :
    IsAdjoint (channelGradient (n := n) (r := r) mode axes) (channelGradientAdjoint mode axes) := by
  intro x y
  unfold dot
  have h : ∀ c : Fin r, ∑ k : Fin m × Idx n, gradient mode axes (fun p => x (c, p)) k * y (k.1, c, k.2) =
      ∑ p, x (c, p) * gradientAdjoint mode axes (fun k => y (k.1, c, k.2)) p := fun c =>
    C27_gradient hm axes (fun p => x (c, p)) fun k => y (k.1, c, k.2)
  rw [Fintype.sum_prod_type (f := fun j : Fin r × Idx n => x j * channelGradientAdjoint mode axes y j)]
  have e : ∀ c : Fin r, ∑ p : Idx n, x (c, p) * channelGradientAdjoint mode axes y (c, p) =
      ∑ p, ∑ d : Fin m, gradient mode axes (fun p => x (c, p)) (d, p) * y (d, c, p) := by
    intro c
    rw [sum_comm]
    have := h c
    rw [Fintype.sum_prod_type] at this
    rw [this]; rfl
  simp only [e]
  rw [sum_pix]
  simp only [channelGradient]
  rw [sum_comm]

/-! ## C237 -/

/-- The regularizer with its penalty and published step sizes. -/
noncomputable def tnvPreg (mode : PadMode) {m r q : ℕ} (axes : Fin m → κ) (w : ℝ) (svd : (Fin r → Fin m → ℝ) → Svd r m q)
    (spectral : DataTerm (Idx n × Fin q)) (xRef : Option (Arr (Idx n))) (nuc : (Fin r → Fin m → ℝ) → ℝ) :
    PReg (Fin r × Idx n) (Fin m × Fin r × Idx n) where
  reg := tnvReg mode axes (.scalar w) none svd spectral xRef
  pen := tnvPenalty mode axes w nuc
  scale := fun _ => w
  σ := w * (1 / 2)
  c := fun _ => 2 * m * w

private theorem tnv_ok (mode : PadMode) (hm : mode ≠ .edge) {m r q : ℕ} (axes : Fin m → κ) (w : ℝ) (hw : 0 < w)
    (svd : (Fin r → Fin m → ℝ) → Svd r m q) (hS : ∀ M, (svd M).Valid M) (spectral : DataTerm (Idx n × Fin q))
    (hk : spectral.kind = .l1) (hd : spectral.data = none) (xRef : Option (Arr (Idx n))) {nuc : (Fin r → Fin m → ℝ) → ℝ}
    (hN : ∀ M, IsNuclearNorm M (nuc M)) : (tnvPreg mode axes w svd spectral xRef nuc).Ok where
  scalepos := fun _ => hw
  σpos := by simp only [tnvPreg]; positivity
  lin := by
    intro a b x y
    funext k
    exact congrFun (gradient_lin mode axes a b (fun p => x (k.2.1, p)) fun p => y (k.2.1, p)) (k.1, k.2.2)
  adj := channel_adjoint hm axes
  convex := by
    refine ⟨convex_univ, fun x _ y _ a b ha hb hab => ?_⟩
    simp only [tnvPreg, tnvPenalty, smul_eq_mul]
    have h : ∑ p : Idx n, nuc (fun c d => (a • x + b • y) (d, c, p)) ≤
        ∑ p : Idx n, (a * nuc (fun c d => x (d, c, p)) + b * nuc fun c d => y (d, c, p)) :=
      sum_le_sum fun p _ => nuc_convex hN (fun c d => x (d, c, p)) (fun c d => y (d, c, p)) ha hb
    rw [sum_add_distrib, ← mul_sum, ← mul_sum] at h
    have h2 := mul_le_mul_of_nonneg_left h hw.le
    linarith
  primal := fun y => by
    simp only [tnvPreg, tnvReg, tnvPenalty, applyMask, Attr.get, Prod.mk.injEq, and_true]
    funext j
    unfold channelGradientAdjoint gradientAdjoint divergence
    have e : ∀ (z : Arr (Idx n)) (p : Idx n) (s : κ → ℤ), padGet mode (fun i => w * z i) p s = w * padGet mode z p s := by
      intro z p s
      have := padGet_lin mode w 0 z z p s
      simpa using this
    simp only [e, ← mul_sub, ← mul_sum]
    ring
  dual := by
    refine ⟨fun u d => w * lnProxDual svd spectral (fun k => u k / w) d, fun y x d => ?_, fun u z => ?_⟩
    · simp only [tnvPreg, tnvReg, tnvPenalty]
      congr 2
      funext k
      simp only [channelGradient]
      field_simp
    · simp only [tnvPreg, tnvPenalty]
      have e : ∀ k, (u k - w * lnProxDual svd spectral (fun k => u k / w) k) / (w * (1 / 2)) =
          (u k / w - lnProxDual svd spectral (fun k => u k / w) k) / (1 / 2) := fun k => by field_simp
      simp only [e, mul_assoc]
      rw [← mul_sum, ← mul_add]
      refine mul_le_mul_of_nonneg_left ?_ hw.le
      rw [sum_pix, ← sum_add_distrib]
      refine sum_le_sum fun p _ => ?_
      exact nuc_cert hN (C149_nuclear_projection svd spectral hk hd (fun k => u k / w) p (hS _)) fun c d => z (d, c, p)
  step := by
    refine ⟨fun _ => ?_, fun _ => ?_, fun x => ?_⟩
    · funext j; simp [tnvPreg, tnvReg, applyMask, Attr.get]
    · simp only [tnvPreg]; positivity
    · simp only [tnvPreg, tnvPenalty]
      have h : ∀ c : Fin r, _ := fun c => grad_energy mode axes (fun p => x (c, p))
      have h2 := mul_le_mul_of_nonneg_left (sum_le_sum fun c (_ : c ∈ univ) => h c) hw.le
      rw [sum_pix, Fintype.sum_prod_type]
      refine (Eq.le ?_).trans (h2.trans (Eq.le ?_))
      · rw [sum_comm, mul_sum]
        refine sum_congr rfl fun c _ => ?_
        rw [Fintype.sum_prod_type, sum_comm, mul_sum]
        refine sum_congr rfl fun p _ => ?_
        rw [mul_sum]
        exact sum_congr rfl fun d _ => by simp only [channelGradient]; ring
      · rw [mul_sum]
        refine sum_congr rfl fun c _ => ?_
        rw [mul_sum]
        exact sum_congr rfl fun p _ => by ring

variable {ι : Type} [Fintype ι]

/-- C237. PDHG with total nuclear variation with zero or periodic padding, for every matrix, volume shape, number of channels, weight,
reference volume and correct singular value decomposition: the iterates converge to a solution of the problem "data term plus weight
times the sum of the nuclear norms of the pixels' derivative matrices". -/
theorem C237_tnv_converges_partial (mode : PadMode) (hm : mode ≠ .edge) {m r q : ℕ} (axes : Fin m → κ) (w : ℝ) (hw : 0 < w)
    (svd : (Fin r → Fin m → ℝ) → Svd r m q) (hS : ∀ M, (svd M).Valid M) (spectral : DataTerm (Idx n × Fin q))
    (hk : spectral.kind = .l1) (hd : spectral.data = none) (xRef : Option (Arr (Idx n))) {nuc : (Fin r → Fin m → ℝ) → ℝ}
    (hN : ∀ M, IsNuclearNorm M (nuc M))
    {M : ι → Fin r × Idx n → ℝ} {S : Solver (Fin r × Idx n) ι (Arr (Fin m × Fin r × Idx n))} {b : Arr ι}
    {a : Args (Fin r × Idx n) ι} {rnd : Arr ι} (hregs : S.regs = [tnvReg mode axes (.scalar w) none svd spectral xRef])
    (hkind : ConvexKind S.term.kind) (hT : S.tolerance = none) (hω : 0 < S.relaxation) (hω1 : S.relaxation < 1)
    (hs : SensibleScale M a) (htw : ∀ i, trainWeight a i = 0 ∨ trainWeight a i = 1)
    (hcols : ∀ j, (∑ i, |M i j|) + 2 * m * w ≤ 100000)
    (hsol : ∃ x, IsSolution S M a b [tnvPenalty mode axes w nuc] x)
    (hint : ∃ x, Admissible a x ∧ ∀ i, trainWeight a i ≠ 0 →
      S.term.addBackground (fun i => ∑ j, M i j * x j) i ∈ interior (pixelFunctional S.term.kind (b i) i).dom)
    {xs : ℕ → Arr (Fin r × Idx n)}
    (hrun : ∀ N, ∃ info S', pdhg S (matrixOp M) b { a with iterations := N } true rnd = .ok (xs N, info, S')) :
    ∃ x, IsSolution S M a b [tnvPenalty mode axes w nuc] x ∧ Tendsto xs atTop (𝓝 x) := by
  have h := C141_pdhg_converges (gs := [tnvPreg mode axes w svd spectral xRef nuc]) (M := M) (S := S) (b := b) (a := a) (rnd := rnd)
    (by rw [hregs]; rfl) (by
      intro g hg
      rw [List.mem_singleton] at hg
      rw [hg]
      exact tnv_ok mode hm axes w hw svd hS spectral hk hd xRef hN) hkind hT hω hω1 hs htw
    (by simpa [tnvPreg] using hcols) hsol hint hrun
  exact h

/-- C237, both limits given and a data term that is finite everywhere: a solution exists, so that no hypothesis about it is needed. -/
theorem C237_tnv_converges_limits_partial (mode : PadMode) (hm : mode ≠ .edge) {m r q : ℕ} (axes : Fin m → κ) (w : ℝ) (hw : 0 < w)
    (svd : (Fin r → Fin m → ℝ) → Svd r m q) (hS : ∀ M, (svd M).Valid M) (spectral : DataTerm (Idx n × Fin q))
    (hk : spectral.kind = .l1) (hd : spectral.data = none) (xRef : Option (Arr (Idx n))) {nuc : (Fin r → Fin m → ℝ) → ℝ}
    (hN : ∀ M, IsNuclearNorm M (nuc M))
    {M : ι → Fin r × Idx n → ℝ} {S : Solver (Fin r × Idx n) ι (Arr (Fin m × Fin r × Idx n))} {b : Arr ι}
    {a : Args (Fin r × Idx n) ι} {rnd : Arr ι} (hregs : S.regs = [tnvReg mode axes (.scalar w) none svd spectral xRef])
    (hkind : ConvexKind S.term.kind) (hkl : S.term.kind ≠ .kl) (hT : S.tolerance = none) (hω : 0 < S.relaxation)
    (hω1 : S.relaxation < 1) (hs : SensibleScale M a) (htw : ∀ i, trainWeight a i = 0 ∨ trainWeight a i = 1)
    (hcols : ∀ j, (∑ i, |M i j|) + 2 * m * w ≤ 100000) (hlo : a.lower.isSome) (hup : a.upper.isSome) (hlim : SensibleLimits a)
    {xs : ℕ → Arr (Fin r × Idx n)}
    (hrun : ∀ N, ∃ info S', pdhg S (matrixOp M) b { a with iterations := N } true rnd = .ok (xs N, info, S')) :
    ∃ x, IsSolution S M a b [tnvPenalty mode axes w nuc] x ∧ Tendsto xs atTop (𝓝 x) := by
  have h := C141_pdhg_converges_limits (gs := [tnvPreg mode axes w svd spectral xRef nuc]) (M := M) (S := S) (b := b) (a := a)
    (rnd := rnd) (by rw [hregs]; rfl) (by
      intro g hg
      rw [List.mem_singleton] at hg
      rw [hg]
      exact tnv_ok mode hm axes w hw svd hS spectral hk hd xRef hN) hkind hkl hT hω hω1 hs htw
    (by simpa [tnvPreg] using hcols) hlo hup hlim hrun
  exact h

/-! ## One channel of two pixels -/

/-- A decomposition of the matrices with one entry. -/
private noncomputable def sv1 : (Fin 1 → Fin 1 → ℝ) → Svd 1 1 1 := fun M =>
  ⟨fun _ _ => if M 0 0 < 0 then -1 else 1, fun _ => |M 0 0|, fun _ _ => 1⟩

private theorem sv1_valid (M : Fin 1 → Fin 1 → ℝ) : (sv1 M).Valid M := by
  refine ⟨?_, ?_, ?_, ?_⟩
  · intro a b
    simp only [sv1, univ_unique, sum_singleton, Subsingleton.elim a b, if_true]
    split_ifs <;> norm_num
  · intro a b
    simp [sv1, Subsingleton.elim a b]
  · intro a; simp [sv1]
  · intro i j
    simp only [sv1, univ_unique, sum_singleton, Subsingleton.elim i 0, Subsingleton.elim j 0]
    split_ifs with hneg
    · rw [abs_of_neg hneg]; ring
    · rw [abs_of_nonneg (not_lt.1 hneg)]; ring

private noncomputable def nuc1 : (Fin 1 → Fin 1 → ℝ) → ℝ := fun M => |M 0 0|

private theorem nuc1_ok (M : Fin 1 → Fin 1 → ℝ) : IsNuclearNorm M (nuc1 M) := by
  have h := sum_sing_nuclear (sv1_valid M)
  simpa [sv1, nuc1] using h

/-- Volumes with one channel of two pixels. -/
abbrev Vol := Fin 1 × Two

noncomputable def volM : Vol → Vol → ℝ := fun i j => if i = j then 1 else 0

private noncomputable def volS (mode : PadMode) : Solver Vol Vol (Arr (Fin 1 × Fin 1 × Two)) :=
  ⟨95 / 100, none, [tnvReg mode (fun _ : Fin 1 => 0) (.scalar 1) none sv1 (.new .l1 none) none], .new .l2 none, .new .l2 none, none⟩

noncomputable def volB : Arr Vol := fun p => if (p.2 0 : ℕ) = 0 then 0 else 10

private theorem vol_runs (mode : PadMode) (a : Args Vol Vol) (ha : a.xMask = none ∧ a.bMask = none ∧ a.bTestMask = none) :
    ∃ xs : ℕ → Arr Vol, ∀ N, ∃ info S',
      pdhg (volS mode) (matrixOp volM) volB { a with iterations := N } true (fun _ => 1) = .ok (xs N, info, S') := by
  obtain ⟨p, hp⟩ := scaling_regs_ok (M := volM) ⟨(0, fun _ => 0), (0, fun _ => 0), by simp [volM]⟩ (volS mode) a ha (by
    intro r hr t j
    simp only [volS, List.mem_singleton] at hr
    subst hr
    simp [tnvReg, applyMask, Attr.get]) fun _ => 1
  have h : ∀ N, ∃ r, pdhg (volS mode) (matrixOp volM) volB { a with iterations := N } true (fun _ => 1) = .ok r := fun N =>
    pdhg_runs (p := p) hp ha.2.2
  choose r hr using h
  exact ⟨fun N => (r N).1, fun N => ⟨(r N).2.1, (r N).2.2, hr N⟩⟩

/-- Non-vacuity of C237: one channel of two pixels between 0 and 20, periodic padding. -/
example : ∃ xs : ℕ → Arr Vol, (∀ N, ∃ info S', pdhg (volS .wrap) (matrixOp volM) volB
      { iterations := N, lower := some (.scalar 0), upper := some (.scalar 20) } true (fun _ => 1) = .ok (xs N, info, S')) ∧
    ∃ x, IsSolution (volS .wrap) volM { iterations := 0, lower := some (.scalar 0), upper := some (.scalar 20) } volB
      [tnvPenalty .wrap (fun _ : Fin 1 => 0) 1 nuc1] x ∧ Tendsto xs atTop (𝓝 x) := by
  obtain ⟨xs, hxs⟩ := vol_runs .wrap { iterations := 0, lower := some (.scalar 0), upper := some (.scalar 20) } ⟨rfl, rfl, rfl⟩
  refine ⟨xs, hxs, ?_⟩
  refine C237_tnv_converges_limits_partial .wrap (by decide) (fun _ : Fin 1 => (0 : Fin 1)) 1 one_pos sv1 sv1_valid (.new .l1 none) rfl rfl
    none nuc1_ok (S := volS .wrap) rfl trivial (by simp [volS, DataTerm.new]) rfl (by norm_num [volS]) (by norm_num [volS])
    ⟨by simp, by simp, by simp, fun i => by simp [volM, abs_ite], fun i => by simp [volM, abs_ite]⟩ (fun i => Or.inr (by simp [trainWeight])) ?_ rfl rfl
    ⟨by rintro l u ⟨⟩ ⟨⟩ j; simp [Attr.get], by simp, by simp, by simp⟩ hxs
  intro j
  have : ∑ i, |volM i j| = 1 := by simp [volM, abs_ite]
  rw [this]
  norm_num

theorem edge_first_zero (y : Arr (Fin 1 × Two)) : gradientAdjoint .edge (fun _ : Fin 1 => 0) y (fun _ => 0) = 0 := by
  simp only [gradientAdjoint, divergence, padGet, Fin.sum_univ_one]
  have : clampIdx (n := fun _ : Fin 1 => 2) (fun _ => 0) (fun k => -unitAx 0 k) = fun _ => 0 := by
    funext k
    have : k = 0 := Subsingleton.elim _ _
    subst this
    rfl
  rw [this]; ring

/-- With the default padding the first pixel never receives anything from the regularizer. -/
private theorem vol_first_pixel {a : Args Vol Vol} (ha : a = { iterations := a.iterations }) {rnd x info S'}
    (h : pdhg (volS .edge) (matrixOp volM) volB a true rnd = .ok (x, info, S')) : x (0, fun _ => 0) = 0 := by
  obtain ⟨sigma, tau, tt, -, -, h3⟩ := pdhg_ok h
  have hx := congrArg Prod.fst h3
  dsimp only at hx
  rw [hx]
  refine (forRange_inv (fun s : PDState Vol Vol (Arr (Fin 1 × Fin 1 × Two)) =>
    s.x (0, fun _ => 0) = 0 ∧ s.xRelax (0, fun _ => 0) = 0 ∧ s.p (0, fun _ => 0) = 0) ?_ ?_).1
  · rw [ha]
    exact ⟨rfl, rfl, rfl⟩
  · rintro k s ⟨h1, h2, h4⟩
    have hM : ∀ y : Arr Vol, ∑ j, volM (0, fun _ => 0) j * y j = y (0, fun _ => 0) := fun y => by simp [volM]
    have hM' : ∀ y : Arr Vol, ∑ i, volM i (0, fun _ => 0) * y i = y (0, fun _ => 0) := fun y => by simp [volM]
    have hp : ((volS .edge).term.assignData (some (.array volB)) (.array sigma)).proxDual
        (((volS .edge).term.assignData (some (.array volB)) (.array sigma)).updateDual s.p ((matrixOp volM).fwd s.xRelax))
        (.scalar 1) (0, fun _ => 0) = 0 := by
      simp only [volS, DataTerm.new, assignData, proxDual, updateDual, subSigmaData, computeSigmaData, Attr.map₂, Attr.get,
        matrixOp, hM, h2, h4, volB]
      simp
    have hu : ∀ q p, p (0, fun _ => 0) = 0 → (addRegUpdates (volS .edge).regs q ((matrixOp volM).adj p)).1 (0, fun _ => 0) = 0 := by
      intro q p hp0
      cases q with
      | nil => simp [volS, addRegUpdates, matrixOp, hM', hp0]
      | cons q qs =>
        cases qs <;>
        · simp only [volS, addRegUpdates, matrixOp, hM', hp0, tnvReg, applyMask, Attr.get]
          rw [edge_first_zero]; norm_num
    have hb : (initBMasks a.bMask a.bTestMask).1 = none := by rw [ha]; rfl
    have hc : ∀ v : Arr Vol, clipMask a v = v := fun v => by rw [ha]; funext j; simp [clipMask, applyMask, clip1]
    have hm : ∀ p : Arr Vol, applyMask none p = p := fun _ => rfl
    have hx' := hu (updateRegDuals (volS .edge).regs s.q s.xRelax) _ hp
    simp only [pdhgStep, hb, hm, hc]
    refine ⟨?_, ?_, hp⟩
    · rw [hx', h1]; ring
    · rw [hx', h1]; ring

theorem sum_vol (f : Two → ℝ) : ∑ p, f p = f (fun _ => 0) + f fun _ => 1 := by
  let e : Two ≃ Fin 2 := Equiv.funUnique (Fin 1) (Fin 2)
  rw [← Equiv.sum_comp e.symm, Fin.sum_univ_two]
  rfl

/-- C237 is violated with the default padding ("edge"): one channel of two pixels, the identity as operator, l2 data term and all
defaults; the problem has a solution, but the returned volumes do not converge to one. -/
theorem C237_default_tnv_violated :
    ¬ ∀ (S : Solver (Fin 1 × Two) (Fin 1 × Two) (Arr (Fin 1 × Fin 1 × Two))) (M : Fin 1 × Two → Fin 1 × Two → ℝ)
      (b : Arr (Fin 1 × Two)) (a : Args (Fin 1 × Two) (Fin 1 × Two)) (rnd : Arr (Fin 1 × Two)) (svd : (Fin 1 → Fin 1 → ℝ) → Svd 1 1 1)
      (nuc : (Fin 1 → Fin 1 → ℝ) → ℝ) (w : ℝ) (xs : ℕ → Arr (Fin 1 × Two)),
      S.regs = [tnvReg .edge (fun _ : Fin 1 => 0) (.scalar w) none svd (.new .l1 none) none] → 0 < w → (∀ M, (svd M).Valid M) →
      (∀ M, IsNuclearNorm M (nuc M)) → S.term = .new .l2 none → S.tolerance = none → S.relaxation = 95 / 100 →
      a = { iterations := 0 } → (∃ x, IsSolution S M a b [tnvPenalty .edge (fun _ : Fin 1 => 0) w nuc] x) →
      (∀ N, ∃ info S', pdhg S (matrixOp M) b { a with iterations := N } true rnd = .ok (xs N, info, S')) →
      ∃ x, IsSolution S M a b [tnvPenalty .edge (fun _ : Fin 1 => 0) w nuc] x ∧ Tendsto xs atTop (𝓝 x) := by
  intro H
  obtain ⟨xs, hxs⟩ := vol_runs .edge { iterations := 0 } ⟨rfl, rfl, rfl⟩
  have hobj : ∀ x : Arr Vol, objective (volS .edge) volM { iterations := 0 } volB [tnvPenalty .edge (fun _ : Fin 1 => 0) 1 nuc1] x =
      x (0, fun _ => 0) ^ 2 / 2 + (x (0, fun _ => 1) - 10) ^ 2 / 2 + |x (0, fun _ => 1) - x (0, fun _ => 0)| := by
    intro x
    have hM : ∀ i, ∑ j, volM i j * x j = x i := fun i => by simp [volM]
    unfold objective
    have g0 : ∀ (i : Fin 1) (y : Arr Two), gradient .edge (fun _ : Fin 1 => (0 : Fin 1)) y (i, fun _ => 0) = y (fun _ => 1) - y fun _ => 0 := by
      intro i y
      simp only [gradient, padGet]
      have : clampIdx (n := fun _ : Fin 1 => 2) (fun _ => 0) (unitAx 0) = fun _ => 1 := by
        funext k
        have : k = 0 := Subsingleton.elim _ _
        subst this
        rfl
      rw [this]
    have g1 : ∀ (i : Fin 1) (y : Arr Two), gradient .edge (fun _ : Fin 1 => (0 : Fin 1)) y (i, fun _ => 1) = 0 := by
      intro i y
      simp only [gradient, padGet]
      have : clampIdx (n := fun _ : Fin 1 => 2) (fun _ => 1) (unitAx 0) = fun _ => 1 := by
        funext k
        have : k = 0 := Subsingleton.elim _ _
        subst this
        rfl
      rw [this, sub_self]
    simp only [volS, DataTerm.new, addBackground, pixelFunctional, fL2, trainWeight, hM, Fintype.sum_prod_type, Fin.sum_univ_one, sum_vol,
      tnvPenalty, channelGradient, nuc1, List.map_cons, List.map_nil, List.sum_cons, List.sum_nil, g0, g1, volB]
    simp
  have hfeas : ∀ x : Arr Vol, Feasible (volS .edge) volM { iterations := 0 } volB x := fun x =>
    ⟨⟨⟨by simp, by simp⟩, by simp⟩, fun i _ => trivial⟩
  have hsol : IsSolution (volS .edge) volM { iterations := 0 } volB [tnvPenalty .edge (fun _ : Fin 1 => 0) 1 nuc1]
      (fun p => if (p.2 0 : ℕ) = 0 then 1 else 9) := by
    refine ⟨hfeas _, fun z _ => ?_⟩
    rw [hobj, hobj]
    have h1 := le_abs_self (z (0, fun _ => 1) - z (0, fun _ => 0))
    norm_num
    nlinarith [sq_nonneg (z (0, fun _ => 0) - 1), sq_nonneg (z (0, fun _ => 1) - 9)]
  obtain ⟨x, hx, hlim⟩ := H (volS .edge) volM volB { iterations := 0 } (fun _ => 1) sv1 nuc1 1 xs rfl one_pos sv1_valid nuc1_ok rfl rfl rfl
    rfl ⟨_, hsol⟩ hxs
  have hx0 : x (0, fun _ => 0) = 0 := by
    have h1 : Tendsto (fun N => xs N (0, fun _ => 0)) atTop (𝓝 (x (0, fun _ => 0))) :=
      (continuous_apply _).continuousAt.tendsto.comp hlim
    have h2 : (fun N => xs N (0, fun _ => 0)) = fun _ => 0 := by
      funext N
      obtain ⟨info, S', h⟩ := hxs N
      exact vol_first_pixel rfl h
    rw [h2] at h1
    exact tendsto_nhds_unique h1 tendsto_const_nhds
  have h1 := hx.2 _ (hfeas fun p => if (p.2 0 : ℕ) = 0 then 1 else 9)
  rw [hobj, hobj, hx0] at h1
  norm_num at h1
  have h2 := le_abs_self (x (0, fun _ => 1))
  nlinarith [sq_nonneg (x (0, fun _ => 1) - 9)]

end Verif
