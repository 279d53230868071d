import Verif.Model.Nuclear

/-! # C149–C152: singular values, the nuclear norm, total nuclear variation -/

namespace Verif
open Finset DataTerm

/-! ## Specification -/

/-- Specification: the matrix does not lengthen any vector (spectral norm at most one). -/
def SpectralBall {r k : ℕ} (Y : Fin r → Fin k → ℝ) : Prop :=
  ∀ x : Fin k → ℝ, ∑ i, (∑ j, Y i j * x j) ^ 2 ≤ ∑ j, x j ^ 2

/-- Specification: the squared Frobenius distance. -/
def frobSq {r k : ℕ} (M Y : Fin r → Fin k → ℝ) : ℝ := ∑ i, ∑ j, (M i j - Y i j) ^ 2

/-- Specification: `R` is the one nearest matrix of the spectral ball. -/
def NearestInBall {r k : ℕ} (M R : Fin r → Fin k → ℝ) : Prop :=
  SpectralBall R ∧ ∀ Y, SpectralBall Y → frobSq M R ≤ frobSq M Y ∧ (frobSq M Y = frobSq M R → Y = R)

/-- Specification: `v` is the nuclear norm of `M`, the dual norm of the spectral norm. -/
def IsNuclearNorm {r k : ℕ} (M : Fin r → Fin k → ℝ) (v : ℝ) : Prop :=
  IsGreatest {t | ∃ Y : Fin r → Fin k → ℝ, SpectralBall Y ∧ t = ∑ i, ∑ j, Y i j * M i j} v

/-! ## Orthonormal families -/

private theorem ortho_dot {q m : ℕ} {w : Fin q → Fin m → ℝ} (h : ∀ a b, ∑ j, w a j * w b j = if a = b then 1 else 0)
    (c d : Fin q → ℝ) : ∑ j, (∑ a, c a * w a j) * (∑ b, d b * w b j) = ∑ a, c a * d a := by
  have h1 : ∀ j, (∑ a, c a * w a j) * (∑ b, d b * w b j) = ∑ a, ∑ b, c a * d b * (w a j * w b j) := by
    intro j
    rw [sum_mul_sum]
    exact sum_congr rfl fun a _ => sum_congr rfl fun b _ => by ring
  simp only [h1]
  rw [sum_comm]
  refine sum_congr rfl fun a _ => ?_
  rw [sum_comm]
  simp only [← mul_sum, h]
  simp

private theorem bessel {q m : ℕ} {w : Fin q → Fin m → ℝ} (h : ∀ a b, ∑ j, w a j * w b j = if a = b then 1 else 0)
    (x : Fin m → ℝ) : ∑ a, (∑ j, w a j * x j) ^ 2 ≤ ∑ j, x j ^ 2 := by
  set c : Fin q → ℝ := fun a => ∑ j, w a j * x j with hc
  have h1 : ∑ j, (∑ a, c a * w a j) * (∑ b, c b * w b j) = ∑ a, c a * c a := ortho_dot h c c
  have h2 : ∑ j, (∑ a, c a * w a j) * x j = ∑ a, c a * c a := by
    simp only [sum_mul]
    rw [sum_comm]
    refine sum_congr rfl fun a _ => ?_
    conv_rhs => rw [hc]
    simp only
    rw [mul_sum]
    exact sum_congr rfl fun j _ => by ring
  have h3 : 0 ≤ ∑ j, (x j - ∑ a, c a * w a j) ^ 2 := sum_nonneg fun _ _ => sq_nonneg _
  have h4 : ∑ j, (x j - ∑ a, c a * w a j) ^ 2
      = ∑ j, x j ^ 2 - 2 * ∑ j, (∑ a, c a * w a j) * x j + ∑ j, (∑ a, c a * w a j) * (∑ b, c b * w b j) := by
    rw [mul_sum, ← sum_sub_distrib, ← sum_add_distrib]
    exact sum_congr rfl fun j _ => by ring
  rw [h4, h1, h2] at h3
  have h5 : ∑ a, c a ^ 2 = ∑ a, c a * c a := sum_congr rfl fun a _ => by ring
  rw [h5]; linarith

private theorem ball_entry {r k q : ℕ} {S : Svd r k q} {M : Fin r → Fin k → ℝ} (hS : S.Valid M) {Y : Fin r → Fin k → ℝ}
    (hY : SpectralBall Y) (a : Fin q) : |∑ i, S.U i a * ∑ j, Y i j * S.Vt a j| ≤ 1 := by
  have hu : ∑ i, S.U i a ^ 2 = 1 := by
    have := hS.1 a a
    simp only [if_true] at this
    rw [← this]; exact sum_congr rfl fun i _ => by ring
  have hv : ∑ j, S.Vt a j ^ 2 = 1 := by
    have := hS.2.1 a a
    simp only [if_true] at this
    rw [← this]; exact sum_congr rfl fun i _ => by ring
  have h1 := sum_mul_sq_le_sq_mul_sq univ (fun i => S.U i a) (fun i => ∑ j, Y i j * S.Vt a j)
  have h2 := hY fun j => S.Vt a j
  rw [hu, one_mul] at h1
  rw [hv] at h2
  exact (sq_le_one_iff_abs_le_one _).1 (h1.trans h2)

private theorem pair_inverse {r k q : ℕ} (U : Fin r → Fin q → ℝ) (e : Fin q → ℝ) (Vt : Fin q → Fin k → ℝ) (Y : Fin r → Fin k → ℝ) :
    ∑ i, ∑ j, inverseSvd U e Vt i j * Y i j = ∑ a, e a * ∑ i, U i a * ∑ j, Y i j * Vt a j := by
  simp only [inverseSvd, sum_mul, mul_sum]
  have h1 : ∀ i, ∑ j, ∑ a, U i a * (e a * Vt a j) * Y i j = ∑ a, ∑ j, U i a * (e a * Vt a j) * Y i j := fun i => sum_comm
  simp only [h1]
  rw [sum_comm]
  exact sum_congr rfl fun a _ => sum_congr rfl fun i _ => sum_congr rfl fun j _ => by ring

private theorem pair_two {r k q : ℕ} {S : Svd r k q} {M : Fin r → Fin k → ℝ} (hS : S.Valid M) (e t : Fin q → ℝ) :
    ∑ i, ∑ j, inverseSvd S.U e S.Vt i j * inverseSvd S.U t S.Vt i j = ∑ a, e a * t a := by
  rw [pair_inverse]
  refine sum_congr rfl fun a _ => ?_
  congr 1
  have h1 : ∀ i, ∑ j, inverseSvd S.U t S.Vt i j * S.Vt a j = S.U i a * t a := by
    intro i
    have h := ortho_dot hS.2.1 (fun b => S.U i b * t b) (fun b => if b = a then 1 else 0)
    simp only [ite_mul, one_mul, zero_mul, sum_ite_eq', mem_univ, if_true, mul_ite, mul_one, mul_zero] at h
    rw [← h]
    refine sum_congr rfl fun j _ => ?_
    congr 1
    exact sum_congr rfl fun b _ => by ring
  simp only [h1]
  have h2 := hS.1 a a
  simp only [if_true] at h2
  have h3 : ∑ i, S.U i a * (S.U i a * t a) = (∑ i, S.U i a * S.U i a) * t a := by
    rw [sum_mul]; exact sum_congr rfl fun i _ => by ring
  rw [h3, h2, one_mul]

private theorem ball_inverse {r k q : ℕ} {S : Svd r k q} {M : Fin r → Fin k → ℝ} (hS : S.Valid M) {t : Fin q → ℝ}
    (ht : ∀ a, |t a| ≤ 1) : SpectralBall (inverseSvd S.U t S.Vt) := by
  intro x
  set c : Fin q → ℝ := fun a => ∑ j, S.Vt a j * x j with hc
  have h1 : ∀ i, ∑ j, inverseSvd S.U t S.Vt i j * x j = ∑ a, (t a * c a) * S.U i a := by
    intro i
    simp only [inverseSvd, sum_mul]
    rw [sum_comm]
    refine sum_congr rfl fun a _ => ?_
    rw [hc]; simp only
    rw [mul_sum, sum_mul]
    exact sum_congr rfl fun j _ => by ring
  simp only [h1, pow_two]
  have hU : ∀ a b, ∑ i, (fun a i => S.U i a) a i * (fun a i => S.U i a) b i = if a = b then (1 : ℝ) else 0 := hS.1
  rw [ortho_dot (w := fun a i => S.U i a) hU]
  have h2 := bessel hS.2.1 x
  calc ∑ a, t a * c a * (t a * c a) ≤ ∑ a, c a ^ 2 := by
        refine sum_le_sum fun a _ => ?_
        have h3 : t a ^ 2 ≤ 1 := (sq_le_one_iff_abs_le_one _).2 (ht a)
        nlinarith [sq_nonneg (c a)]
    _ ≤ ∑ j, x j ^ 2 := h2
    _ = ∑ j, x j * x j := sum_congr rfl fun j _ => by ring

private theorem valid_eq {r k q : ℕ} {S : Svd r k q} {M : Fin r → Fin k → ℝ} (hS : S.Valid M) : M = inverseSvd S.U S.s S.Vt := by
  funext i j; exact hS.2.2.2 i j

/-- Clipping the singular values is the projection. -/
private theorem clip_nearest {r k q : ℕ} {S : Svd r k q} {M : Fin r → Fin k → ℝ} (hS : S.Valid M) :
    NearestInBall M (inverseSvd S.U (fun a => min (S.s a) 1) S.Vt) := by
  set t : Fin q → ℝ := fun a => min (S.s a) 1 with ht
  set R := inverseSvd S.U t S.Vt with hR
  have ht0 : ∀ a, 0 ≤ t a := fun a => le_min (hS.2.2.1 a) zero_le_one
  have ht1 : ∀ a, t a ≤ 1 := fun a => min_le_right _ _
  have hball : SpectralBall R := ball_inverse hS fun a => by rw [abs_of_nonneg (ht0 a)]; exact ht1 a
  have key : ∀ Y, SpectralBall Y → frobSq M R + frobSq R Y ≤ frobSq M Y := by
    intro Y hY
    have hM : ∀ i j, M i j - R i j = inverseSvd S.U (fun a => S.s a - t a) S.Vt i j := by
      intro i j
      rw [hS.2.2.2 i j, hR]
      simp only [inverseSvd]
      rw [← sum_sub_distrib]
      exact sum_congr rfl fun a _ => by ring
    have hdot : ∑ i, ∑ j, (M i j - R i j) * (Y i j - R i j) ≤ 0 := by
      have e1 : ∑ i, ∑ j, (M i j - R i j) * (Y i j - R i j)
          = ∑ i, ∑ j, inverseSvd S.U (fun a => S.s a - t a) S.Vt i j * Y i j
            - ∑ i, ∑ j, inverseSvd S.U (fun a => S.s a - t a) S.Vt i j * R i j := by
        simp only [hM, mul_sub, sum_sub_distrib]
      rw [e1, hR, pair_two hS, pair_inverse]
      rw [sub_nonpos]
      refine sum_le_sum fun a _ => ?_
      have h1 := (abs_le.1 (ball_entry hS hY a)).2
      have h2 : 0 ≤ S.s a - t a := sub_nonneg.2 (min_le_left _ _)
      have h3 : (S.s a - t a) * t a = S.s a - t a := by
        rcases le_total (S.s a) 1 with h | h
        · simp [ht, min_eq_left h]
        · simp [ht, min_eq_right h]
      calc (S.s a - t a) * ∑ i, S.U i a * ∑ j, Y i j * S.Vt a j ≤ (S.s a - t a) * 1 := mul_le_mul_of_nonneg_left h1 h2
        _ = (S.s a - t a) * t a := by rw [h3, mul_one]
    have e2 : frobSq M Y = frobSq M R + frobSq R Y - 2 * ∑ i, ∑ j, (M i j - R i j) * (Y i j - R i j) := by
      simp only [frobSq, mul_sum, ← sum_add_distrib, ← sum_sub_distrib]
      exact sum_congr rfl fun i _ => sum_congr rfl fun j _ => by ring
    rw [e2]; linarith
  refine ⟨hball, fun Y hY => ?_⟩
  have h0 : 0 ≤ frobSq R Y := sum_nonneg fun _ _ => sum_nonneg fun _ _ => sq_nonneg _
  have h1 := key Y hY
  refine ⟨by linarith, fun he => ?_⟩
  have h2 : frobSq R Y = 0 := by linarith
  funext i j
  have h3 := (sum_eq_zero_iff_of_nonneg fun i _ => sum_nonneg fun _ _ => sq_nonneg _).1 h2 i (mem_univ i)
  have h4 := (sum_eq_zero_iff_of_nonneg fun j _ => sq_nonneg _).1 h3 j (mem_univ j)
  have h5 := pow_eq_zero_iff (two_ne_zero) |>.1 h4
  linarith

private theorem nearest_unique {r k : ℕ} {M R R' : Fin r → Fin k → ℝ} (h : NearestInBall M R) (h' : NearestInBall M R') : R = R' :=
  ((h'.2 R h.1).2 (le_antisymm (h.2 R' h'.1).1 (h'.2 R h.1).1))

/-! ## C149: the dual step of the nuclear norm -/

variable {P : Type} [Fintype P]

private theorem l1_unit_clip {ι : Type} [Fintype ι] (t : DataTerm ι) (hk : t.kind = .l1) (hd : t.data = none) (s : Arr ι) (i : ι)
    (hs : 0 ≤ s i) : t.proxDual s (.scalar 1) i = min (s i) 1 := by
  unfold DataTerm.proxDual
  rw [hk]
  simp only [DataTerm.applyThreshold, DataTerm.innerNorm, DataTerm.subSigmaData, hk, hd, Attr.get, mul_one]
  rw [abs_of_nonneg hs]
  rcases le_total (s i) 1 with h | h
  · rw [max_eq_right h, min_eq_left h, div_one]
  · rw [max_eq_left h, min_eq_right h, div_self (by linarith)]

/-- C149. For every array of channel-by-derivative matrices and every singular value decomposition of them, the dual step of the
nuclear norm replaces each pixel's matrix by the nearest matrix of spectral norm at most one. -/
theorem C149_nuclear_projection {r k q : ℕ} (svd : (Fin r → Fin k → ℝ) → Svd r k q) (spectral : DataTerm (P × Fin q))
    (hk : spectral.kind = .l1) (hd : spectral.data = none) (dual : Arr (Fin k × Fin r × P)) (p : P)
    (hS : (svd fun c d => dual (d, c, p)).Valid fun c d => dual (d, c, p)) :
    NearestInBall (fun c d => dual (d, c, p)) (fun c d => lnProxDual svd spectral dual (d, c, p)) := by
  have h := clip_nearest hS
  have e : (fun c d => lnProxDual svd spectral dual (d, c, p))
      = inverseSvd (svd fun c d => dual (d, c, p)).U (fun a => min ((svd fun c d => dual (d, c, p)).s a) 1)
          (svd fun c d => dual (d, c, p)).Vt := by
    funext c d
    simp only [lnProxDual, svdDirect, Bool.false_eq_true, if_false]
    congr 1
    funext a
    exact l1_unit_clip spectral hk hd (fun x => (svd fun c d => dual (d, c, x.1)).s x.2) (p, a) (hS.2.2.1 a)
  rw [e]; exact h

/-- C149. The result does not depend on which decomposition the linear algebra library returns. -/
theorem C149_independent_of_svd {r k q : ℕ} (svd svd' : (Fin r → Fin k → ℝ) → Svd r k q) (spectral : DataTerm (P × Fin q))
    (hk : spectral.kind = .l1) (hd : spectral.data = none) (dual : Arr (Fin k × Fin r × P))
    (hS : ∀ p, (svd fun c d => dual (d, c, p)).Valid fun c d => dual (d, c, p))
    (hS' : ∀ p, (svd' fun c d => dual (d, c, p)).Valid fun c d => dual (d, c, p)) :
    lnProxDual svd spectral dual = lnProxDual svd' spectral dual := by
  funext x
  obtain ⟨d, c, p⟩ := x
  exact congrFun (congrFun (nearest_unique (C149_nuclear_projection svd spectral hk hd dual p (hS p))
    (C149_nuclear_projection svd' spectral hk hd dual p (hS' p))) c) d

/-- A decomposition of a matrix with singular values 3 and 1/2. -/
private noncomputable def exSvd : Svd 2 2 2 :=
  ⟨fun i a => if i = a then 1 else 0, fun a => if a = 0 then 3 else 1 / 2, fun a j => if a = j then 1 else 0⟩

private noncomputable def exMat : Fin 2 → Fin 2 → ℝ := fun i j => if i = j then (if i = 0 then 3 else 1 / 2) else 0

private theorem exSvd_valid : exSvd.Valid exMat := by
  refine ⟨?_, ?_, ?_, ?_⟩
  · intro a b; fin_cases a <;> fin_cases b <;> simp [exSvd, Fin.sum_univ_two]
  · intro a b; fin_cases a <;> fin_cases b <;> simp [exSvd, Fin.sum_univ_two]
  · intro a; fin_cases a <;> simp [exSvd]
  · intro i j; fin_cases i <;> fin_cases j <;> simp [exSvd, exMat, Fin.sum_univ_two]

/-- Non-vacuity: a pixel with the matrix `diag(3, 1/2)` becomes `diag(1, 1/2)`. -/
example : (fun c d => lnProxDual (P := Fin 1) (fun _ => exSvd) (DataTerm.new .l1 none) (fun x => exMat x.2.1 x.1) (d, c, 0))
    = fun (c d : Fin 2) => if c = d then (if c = 0 then (1 : ℝ) else 1 / 2) else 0 := by
  have h := C149_nuclear_projection (P := Fin 1) (fun _ => exSvd) (DataTerm.new .l1 none) rfl rfl (fun x => exMat x.2.1 x.1) 0
    exSvd_valid
  refine nearest_unique h ?_
  have h2 := clip_nearest exSvd_valid
  have e : inverseSvd exSvd.U (fun a => min (exSvd.s a) 1) exSvd.Vt = fun (c d : Fin 2) => if c = d then (if c = 0 then (1 : ℝ) else 1 / 2) else 0 := by
    funext c d
    fin_cases c <;> fin_cases d <;> simp [inverseSvd, exSvd, Fin.sum_univ_two] <;> norm_num
  rw [← e]; exact h2

/-! ## C150: bias rows -/

/-- Specification: the dual with the bias rows appended to the channels. -/
def withBias {r b k : ℕ} (dual : Arr (Fin k × Fin r × P)) (bias : Arr (Fin k × Fin b × P)) : Arr (Fin k × Fin (r + b) × P) :=
  fun x => Fin.addCases (fun c => dual (x.1, c, x.2.2)) (fun c => bias (x.1, c, x.2.2)) x.2.1

/-- C150, for one bias row per pixel: the result is the nearest-matrix projection of the matrix with the bias row appended, without
that row. -/
theorem C150_bias_row_partial {r k q : ℕ} (svd : (Fin (r + 1) → Fin k → ℝ) → Svd (r + 1) k q) (spectral : DataTerm (P × Fin q))
    (hk : spectral.kind = .l1) (hd : spectral.data = none) (bias : Arr (Fin k × Fin 1 × P)) (dual : Arr (Fin k × Fin r × P))
    (hS : ∀ p, (svd fun c d => withBias dual bias (d, c, p)).Valid fun c d => withBias dual bias (d, c, p)) :
    ∃ (res : Arr (Fin k × Fin r × P)) (R : P → Fin (r + 1) → Fin k → ℝ),
      lnProxDualData svd spectral bias dual = some res ∧ (∀ d c p, res (d, c, p) = R p (Fin.castAdd 1 c) d) ∧
      ∀ p, NearestInBall (fun c d => withBias dual bias (d, c, p)) (R p) := by
  have e : lnProxDualData svd spectral bias dual
      = some fun x => lnProxDual svd spectral (withBias dual bias) (x.1, Fin.castAdd 1 x.2.1, x.2.2) := by
    unfold lnProxDualData withBias
    rw [if_pos (by omega)]
  refine ⟨_, fun p c d => lnProxDual svd spectral (withBias dual bias) (d, c, p), e, fun d c p => rfl, fun p => ?_⟩
  exact C149_nuclear_projection svd spectral hk hd (withBias dual bias) p (hS p)

/-- Non-vacuity: a matrix with one channel and the bias row `(0, 1/2)`. -/
example : ∃ res, lnProxDualData (P := Fin 1) (r := 1) (b := 1) (fun _ => exSvd) (DataTerm.new .l1 none)
    (fun x => if x.1 = 1 then 1 / 2 else 0) (fun x => if x.1 = 0 then 3 else 0) = some res := by
  have h := C150_bias_row_partial (P := Fin 1) (r := 1) (fun _ => exSvd) (DataTerm.new .l1 none) rfl rfl
    (fun x => if x.1 = 1 then 1 / 2 else 0) (fun x => if x.1 = 0 then 3 else 0) (fun p => by
      have e : (fun (c : Fin (1 + 1)) (d : Fin 2) => withBias (P := Fin 1) (r := 1) (b := 1) (fun x => if x.1 = 0 then 3 else 0)
          (fun x => if x.1 = 1 then 1 / 2 else 0) (d, c, p)) = exMat := by
        funext c d
        fin_cases c <;> fin_cases d <;> simp [withBias, exMat, Fin.addCases]
      exact e ▸ exSvd_valid)
  obtain ⟨res, _, h1, _⟩ := h
  exact ⟨res, h1⟩

/-- C150 is violated for two or more bias rows: the call fails whatever the decomposition. -/
theorem C150_bias_rows_violated : ¬ ∀ (r b k q : ℕ) (svd : (Fin (r + b) → Fin k → ℝ) → Svd (r + b) k q)
    (spectral : DataTerm (Unit × Fin q)) (sigmaData : Arr (Fin k × Fin b × Unit)) (dual : Arr (Fin k × Fin r × Unit)),
    0 < b → (lnProxDualData svd spectral sigmaData dual).isSome := by
  intro h
  have := h 1 2 1 1 (fun _ => ⟨fun _ _ => 0, fun _ => 0, fun _ _ => 0⟩) (DataTerm.new .l1 none) (fun _ => 0) (fun _ => 0) (by norm_num)
  simp [lnProxDualData] at this

/-! ## C151: reference volumes -/

/-- C151 is violated by total nuclear variation: whatever the reference volume is, the regularizer is the same. -/
theorem C151_tnv_reference_violated : ¬ ∀ (n : Fin 1 → ℕ) (r q : ℕ) (svd : (Fin r → Fin 1 → ℝ) → Svd r 1 q)
    (spectral : DataTerm (Idx n × Fin q)) (xRef : Arr (Idx n)), 0 < n 0 → 0 < r →
    gradient .edge (fun _ : Fin 1 => (0 : Fin 1)) xRef ≠ 0 → (∀ M, (svd M).Valid M) → spectral = DataTerm.new .l1 none →
    ∃ dual, (tnvReg .edge (fun _ : Fin 1 => (0 : Fin 1)) (.scalar 1) none svd spectral (some xRef)).proxDual dual
      ≠ (tnvReg .edge (fun _ : Fin 1 => (0 : Fin 1)) (.scalar 1) none svd spectral none).proxDual dual := by
  intro h
  set sv : (Fin 1 → Fin 1 → ℝ) → Svd 1 1 1 := fun M =>
    ⟨fun _ _ => if M 0 0 < 0 then -1 else 1, fun _ => |M 0 0|, fun _ _ => 1⟩ with hsv
  have hval : ∀ M, (sv M).Valid M := by
    intro M
    refine ⟨?_, ?_, ?_, ?_⟩
    · intro a b
      simp only [hsv, univ_unique, sum_singleton, Subsingleton.elim a b, if_true]
      split_ifs <;> norm_num
    · intro a b
      simp [hsv, Subsingleton.elim a b]
    · intro a; simp [hsv]
    · intro i j
      simp only [hsv, univ_unique, sum_singleton, Subsingleton.elim i 0, Subsingleton.elim j 0]
      split_ifs with hneg
      · rw [abs_of_neg hneg]; ring
      · rw [abs_of_nonneg (not_lt.1 hneg)]; ring
  obtain ⟨dual, hd⟩ := h (fun _ => 2) 1 1 sv (DataTerm.new .l1 none) (fun p => (p 0 : ℕ)) (by norm_num) (by norm_num) (by
    intro h0
    have h1 := congrFun h0 (0, fun _ => 0)
    simp [gradient, padGet, clampIdx, unitAx] at h1) hval rfl
  exact hd rfl

/-- C151, vectorial total variation, part 1: a reference without edges is no reference, for every pair of exponents. -/
theorem C151_vtv_flat_reference_partial {D C P : Type} [Fintype D] [Fintype C] (der chan : PNorm) (weight : Arr P)
    (dual : Arr (D × C × P)) (q : Arr (D × P)) (x : D × C × P) (hq : ∀ d, q (d, x.2.2) = 0) :
    vtvProxDualRef der chan weight (some q) dual x = vtvProxDualRef der chan weight none dual x := by
  obtain ⟨d, c, p⟩ := x
  simp only at hq
  cases der <;> cases chan <;>
    simp [vtvProxDualRef, vtvProxDual, hq, Fintype.sum_option]

/-- C151, vectorial total variation, part 2: adding a reference never makes a component of the result larger. -/
theorem C151_vtv_reference_shrinks_partial {D C P : Type} [Fintype D] [Fintype C] (der chan : PNorm) (weight : Arr P)
    (dual : Arr (D × C × P)) (q : Arr (D × P)) (x : D × C × P) (hw : 0 < weight x.2.2) :
    |vtvProxDualRef der chan weight (some q) dual x| ≤ |vtvProxDualRef der chan weight none dual x| := by
  obtain ⟨d, c, p⟩ := x
  simp only at hw
  have key : ∀ N N' y : ℝ, N ≤ N' → |y / max N' (weight p) * weight p| ≤ |y / max N (weight p) * weight p| := by
    intro N N' y hN
    have hm : 0 < max N (weight p) := lt_of_lt_of_le hw (le_max_right _ _)
    have hm' : 0 < max N' (weight p) := lt_of_lt_of_le hw (le_max_right _ _)
    rw [abs_mul, abs_mul, abs_div, abs_div, abs_of_pos hm, abs_of_pos hm']
    refine mul_le_mul_of_nonneg_right ?_ (abs_nonneg _)
    exact div_le_div_of_nonneg_left (abs_nonneg _) hm (max_le_max_right _ hN)
  have hs : ∀ a b : ℝ, 0 ≤ a → b ≤ a + b := fun a b h => by linarith
  cases der <;> cases chan <;>
    simp only [vtvProxDualRef, vtvProxDual, Fintype.sum_option] <;> apply key <;>
    first
      | exact le_refl _
      | exact Real.sqrt_le_sqrt (hs _ _ (sq_nonneg _))
      | exact hs _ _ (abs_nonneg _)
      | exact hs _ _ (Real.sqrt_nonneg _)
      | exact hs _ _ (sum_nonneg fun _ _ => abs_nonneg _)

/-- C151, vectorial total variation, part 3: the first step with a reference is the step for the volume with the reference as one more
channel (`X none` is the reference), for every pair of exponents. -/
theorem C151_vtv_reference_channel_partial {κ : Type} [Fintype κ] [DecidableEq κ] {n : κ → ℕ} {m : ℕ} {C : Type} [Fintype C]
    (der chan : PNorm) (mode : PadMode) (axes : Fin m → κ) (weight : Arr (Idx n)) (X : Option C → Arr (Idx n)) (d : Fin m) (c : C)
    (p : Idx n) :
    vtvProxDualRef der chan weight (some (vtvRef mode axes (X none)))
        (fun x => 0 + 1 / 2 * gradient mode axes (X (some x.2.1)) (x.1, x.2.2)) (d, c, p)
      = vtvProxDual der chan weight (fun x => 0 + 1 / 2 * gradient mode axes (X x.2.1) (x.1, x.2.2)) (d, some c, p) := by
  unfold vtvProxDualRef vtvRef
  simp only
  congr 1
  funext y
  obtain ⟨d', c', p'⟩ := y
  cases c' <;> rfl

/-- Non-vacuity: with a reference edge of 3 the shared budget of 1 leaves 1/4 for a channel that would have got 1. -/
example : vtvProxDualRef (D := Fin 1) (C := Fin 1) (P := Fin 1) .two .inf (fun _ => 1) (some fun _ => 3) (fun _ => 1) (0, 0, 0) = 1 / 4 ∧
    vtvProxDualRef (D := Fin 1) (C := Fin 1) (P := Fin 1) .two .inf (fun _ => 1) none (fun _ => 1) (0, 0, 0) = 1 := by
  have h3 : Real.sqrt (3 ^ 2) = 3 := Real.sqrt_sq (by norm_num)
  constructor
  · simp [vtvProxDualRef, vtvProxDual, Fintype.sum_option, h3]
    norm_num
  · simp [vtvProxDualRef, vtvProxDual]

/-! ## C152: the reported nuclear norm -/

theorem sum_sing_nuclear {r k q : ℕ} {S : Svd r k q} {M : Fin r → Fin k → ℝ} (hS : S.Valid M) :
    IsNuclearNorm M (∑ a, S.s a) := by
  constructor
  · refine ⟨inverseSvd S.U (fun _ => 1) S.Vt, ball_inverse hS (by simp), ?_⟩
    have h := pair_two hS (fun _ => 1) S.s
    simp only [one_mul] at h
    rw [← h]
    conv_rhs => rw [valid_eq hS]
  · rintro t ⟨Y, hY, rfl⟩
    have h1 : ∑ i, ∑ j, Y i j * M i j = ∑ i, ∑ j, inverseSvd S.U S.s S.Vt i j * Y i j := by
      conv_lhs => rw [valid_eq hS]
      exact sum_congr rfl fun i _ => sum_congr rfl fun j _ => mul_comm _ _
    rw [h1, pair_inverse]
    refine sum_le_sum fun a _ => ?_
    have h2 := (abs_le.1 (ball_entry hS hY a)).2
    calc S.s a * ∑ i, S.U i a * ∑ j, Y i j * S.Vt a j ≤ S.s a * 1 := mul_le_mul_of_nonneg_left h2 (hS.2.2.1 a)
      _ = S.s a := mul_one _

/-- C152 for a single matrix (no pixel axis): the reported norm is the nuclear norm. -/
theorem C152_single_matrix_partial {r k q : ℕ} (svd : (Fin r → Fin k → ℝ) → Svd r k q) (dual : Arr (Fin k × Fin r × Unit))
    (hS : (svd fun c d => dual (d, c, ())).Valid fun c d => dual (d, c, ())) :
    ∃ v, lnResidualNorm 0 svd dual = some v ∧ IsNuclearNorm (fun c d => dual (d, c, ())) v := by
  refine ⟨_, rfl, ?_⟩
  have h := sum_sing_nuclear hS
  have e : ∑ p : Unit, ∑ a, |(svdDirect false (svd fun c d => dual (d, c, p))).s a|
      = ∑ a, (svd fun c d => dual (d, c, ())).s a := by
    simp only [svdDirect, Bool.false_eq_true, if_false, univ_unique, sum_singleton]
    exact sum_congr rfl fun a _ => abs_of_nonneg (hS.2.2.1 a)
  rw [e]; exact h

/-- C152 for a line of pixels: the reported value is at most the sum of the nuclear norms. -/
theorem C152_line_upper_bound_partial {r k q : ℕ} (svd : (Fin r → Fin k → ℝ) → Svd r k q) (dual : Arr (Fin k × Fin r × P))
    (hS : ∀ p, (svd fun c d => dual (d, c, p)).Valid fun c d => dual (d, c, p)) (nuc : P → ℝ) (hn : ∀ p, IsNuclearNorm (fun c d => dual (d, c, p)) (nuc p)) :
    ∃ v, lnResidualNorm 1 svd dual = some v ∧ v ≤ ∑ p, nuc p := by
  refine ⟨_, rfl, ?_⟩
  have hnuc : ∀ p, nuc p = ∑ a, (svd fun c d => dual (d, c, p)).s a := fun p =>
    (hn p).unique (sum_sing_nuclear (hS p))
  simp only [svdDirect, Bool.false_eq_true, if_false, hnuc]
  refine Real.iSup_le (fun a => ?_) (sum_nonneg fun p _ => sum_nonneg fun a _ => (hS p).2.2.1 a)
  refine sum_le_sum fun p _ => ?_
  rw [abs_of_nonneg ((hS p).2.2.1 a)]
  exact single_le_sum (f := fun a => (svd fun c d => dual (d, c, p)).s a) (fun a _ => (hS p).2.2.1 a) (mem_univ a)

/-- C152 is violated for a line of pixels (the norm of the stack is a maximum over singular value ranks) and for images (the call
raises `ValueError`). -/
theorem C152_stack_violated :
    (¬ ∀ (svd : (Fin 2 → Fin 2 → ℝ) → Svd 2 2 2) (dual : Arr (Fin 2 × Fin 2 × Fin 1)) (v nuc : ℝ),
      (svd fun c d => dual (d, c, 0)).Valid (fun c d => dual (d, c, 0)) → IsNuclearNorm (fun c d => dual (d, c, 0)) nuc →
      lnResidualNorm 1 svd dual = some v → v = nuc) ∧
    ∀ (r k q : ℕ) (svd : (Fin r → Fin k → ℝ) → Svd r k q) (dual : Arr (Fin k × Fin r × P)), lnResidualNorm 2 svd dual = none := by
  constructor
  · intro h
    have h1 := h (fun _ => exSvd) (fun x => exMat x.2.1 x.1) _ _ exSvd_valid (sum_sing_nuclear exSvd_valid) rfl
    have h2 : (⨆ a : Fin 2, ∑ p : Fin 1, |(svdDirect false exSvd).s a|) ≤ 3 := by
      refine Real.iSup_le (fun a => ?_) (by norm_num)
      fin_cases a <;> norm_num [svdDirect, exSvd]
    rw [h1] at h2
    norm_num [exSvd, Fin.sum_univ_two] at h2
  · intros; rfl

end Verif
